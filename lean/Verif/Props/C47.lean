/-
C47: unsat answers of the solver with theory plugins are right.
-/
import Verif.Proofs.Check
import Verif.Proofs.BoolExample

namespace Yaga
open Spec BS Check

variable {O : Type}

/-- The contract of the theory plugins for a theory whose models restricted to the Boolean variables
are `M`: every conflict clause is false under the trail and true in all models, and a Boolean value
propagated without a reason at level 0 follows from the Boolean values of level 0 in all models. -/
structure Spec.TheoryContract (E : Env O) (M : Assignment → Prop) : Prop where
  conflictFalse : ∀ s c, E.conflict s c → ∀ l ∈ c, evalLit s.t.bools l = some false
  conflictValid : ∀ s c, E.conflict s c → ∀ σ, M σ → clauseTrue σ c
  levelZero : ∀ s n x, E.assign s (.bool n) (.b x) 0 → ∀ σ, M σ →
    (∀ l : Lit, evalLit s.t.bools l = some true → s.t.level l.var = some 0 → litTrue σ l) → σ n = x

/-- C47. For every theory and all plugins that satisfy the contract, with a variable order that picks
declared unassigned variables: if `check` returns unsat then no model of the theory makes all
asserted clauses true. -/
theorem C47_unsat_sound {E : Env O} {M : Assignment → Prop} (hE : TheoryContract E M)
    {A : List Clause} {c0 : CS O} (h : Start A c0)
    (hP : ∀ c s v o', Reach E c0 c → PropRun E c.s [] s → E.pick c.o s (some v) o' →
      v.ord < s.t.numVars v.type ∧ s.t.level v = none)
    (hr : Returns E c0 .unsat) : ¬ ∃ σ, M σ ∧ allTrue σ A := by
  obtain ⟨c, h1, h2⟩ := hr
  have hS : Sound E M := ⟨hE.levelZero, fun s c hc => ⟨hE.conflictFalse s c hc, hE.conflictValid s c hc⟩⟩
  have hP' : ∀ c, Reach E c0 c → PicksFree E c := fun c hc s v o' h1 h2 => hP c s v o' hc h1 h2
  obtain ⟨b, hb⟩ := good_reach hS h hP' h1
  exact (good_iter hS hb (hP' c h1) h2).1 rfl

/-- Learned clauses are consequences of the asserted clauses in the theory. -/
theorem C47_database_entailed {E : Env O} {M : Assignment → Prop} (hE : TheoryContract E M)
    {A : List Clause} {c0 c : CS O} (h : Start A c0)
    (hP : ∀ c s v o', Reach E c0 c → PropRun E c.s [] s → E.pick c.o s (some v) o' →
      v.ord < s.t.numVars v.type ∧ s.t.level v = none)
    (hr : Reach E c0 c) : ∀ d ∈ c.s.cls, ∀ σ, M σ → allTrue σ A → clauseTrue σ d := by
  have hS : Sound E M := ⟨hE.levelZero, fun s c hc => ⟨hE.conflictFalse s c hc, hE.conflictValid s c hc⟩⟩
  obtain ⟨b, hb⟩ := good_reach hS h (fun c hc s v o' h1 h2 => hP c s v o' hc h1 h2) hr
  exact hb.ent

/-! A theory where x0 and x1 exclude each other. The clauses x2 ∨ x0, x2 ∨ x1, ¬x2 have a
propositional model but no model in the theory. -/
namespace C47Ex

def M (σ : Assignment) : Prop := ¬ (σ 0 = true ∧ σ 1 = true)
def lemma0 : Clause := [(Lit.pos 0).neg, (Lit.pos 1).neg]

def E : Env Unit where
  assign _ _ _ _ := False
  resize _ _ _ := False
  conflict s c := c = lemma0 ∧ ∀ l ∈ lemma0, evalLit s.t.bools l = some false
  choose _ _ _ := False
  pick _ _ v _ := v = none
  events _ _ := True

def cls : List Clause := [[.pos 2, .pos 0], [.pos 2, .pos 1], [(Lit.pos 2).neg]]
def c0 : CS Unit := ⟨Ex.state 3 cls, 0, ()⟩
def s1 : BS := ((propLoop 10 c0.s.initProp).getD (none, c0.s)).2

theorem contract : TheoryContract E M := by
  refine ⟨fun s c hc => ?_, fun s c hc σ hM => ?_, fun _ _ _ h => h.elim⟩
  · rw [hc.1]; exact hc.2
  · rw [hc.1]
    simp only [M] at hM
    rcases h0 : σ 0 with _ | _
    · exact ⟨(Lit.pos 0).neg, by simp [lemma0], h0⟩
    · have h1 : σ 1 = false := by rcases h1 : σ 1 with _ | _ <;> simp_all
      exact ⟨(Lit.pos 1).neg, by simp [lemma0], h1⟩

example : Start cls c0 := ⟨rfl, rfl, rfl, rfl, ⟨by decide, by decide⟩⟩

example : ∀ c s v o', Reach E c0 c → PropRun E c.s [] s → E.pick c.o s (some v) o' →
    v.ord < s.t.numVars v.type ∧ s.t.level v = none := by
  intro c s v o' _ _ h
  cases h

example : Returns E c0 .unsat :=
  ⟨c0, .refl, .unsatZero (cs := [lemma0]) (s := s1)
    (.otherConflict (s1 := s1) ⟨10, rfl⟩ (.resizes (.refl _)) (by simp)
      (by intro c hc; rw [List.mem_singleton.1 hc]; exact ⟨rfl, by decide⟩)) (by simp) (by decide)⟩

/-- There is a propositional model. -/
example : allTrue (fun n => n != 2) cls := by
  unfold allTrue clauseTrue litTrue; decide

end C47Ex

#print axioms C47_unsat_sound
#print axioms C47_database_entailed

end Yaga
