/-
C16: sat answers of the propositional solver are right.
-/
import Verif.Props.C15

namespace Yaga
open Spec BS Check

variable {S : Type} [LinearOrder S] [ScoreOps S]

theorem ps_model {A : List Clause} {n : Nat} {s : BS} (hs : PS A n true .complete s)
    (hall : ∀ v : Nat, v < n → s.t.level (.bool v) ≠ none) :
    (∀ v, v < n → s.t.bools.defined v = true) ∧ allTrue (fun n => s.t.bools.value n) A := by
  have hi := hs.good.base.inv
  have hdef : ∀ v, v < n → s.t.bools.defined v = true := by
    intro v hv
    have h1 := hall v hv
    have h2 := evalLit_none hi (.pos v)
    rcases hd : s.t.bools.defined v with _ | _
    · exact absurd (h2.1 (by simp [evalLit, hd])) h1
    · rfl
  refine ⟨hdef, ?_⟩
  intro a ha
  obtain ⟨r, hr, rfl⟩ := List.getElem_of_mem ha
  have hlen : r < s.cls.length := lt_of_lt_of_le hr hs.asr.le
  have hmem : s.clause r ∈ s.cls := clause_mem hlen
  have hperm := hs.asr.perm r hr
  have hnb := C14_propagation_complete hs.hist _ hmem
  by_contra hcon
  apply hnb
  left
  intro l hl
  have hlt : l.ord < n := by
    have := hs.good.base.db.range r hlen l hl
    rwa [hs.num] at this
  have hd := hdef _ hlt
  have hnt : ¬ litTrue (fun n => s.t.bools.value n) l := fun ht => hcon ⟨l, hperm.mem_iff.1 hl, ht⟩
  simp only [litTrue] at hnt
  simp only [evalLit, hd]
  rcases hn : l.isNeg with _ | _ <;> rcases hv : s.t.bools.value l.ord with _ | _ <;> simp_all

/-- C16. If the propositional solver, started on the clauses `A`, returns sat in any run, every
declared variable has a value in the model and the values make all clauses of `A` true. -/
theorem C16_sat_sound {A : List Clause} {c0 : CS (Evsids S)} (h : PropStart A c0) {s : BS}
    (hr : Returns (propEnv S) c0 (.sat s)) :
    (∀ n, n < c0.s.t.bools.num → s.t.bools.defined n = true) ∧
    allTrue (fun n => s.t.bools.value n) A := by
  obtain ⟨c, h1, h2⟩ := hr
  obtain ⟨hs, hall⟩ := (pgood_iter (pgood_reach h h1) h2).1 s rfl
  exact ps_model hs hall

/-! A run that learns a clause before it finds a model. -/
namespace C16Ex

def cls : List Clause :=
  [[(Lit.pos 0).neg, .pos 1], [(Lit.pos 0).neg, (Lit.pos 1).neg], [.pos 0, .pos 1]]

def order : Evsids Int := (Evsids.new.step (.resize 2)).step (.init cls)
def c0 : CS (Evsids Int) := ⟨Ex.state 2 cls, 0, order⟩

example : PropStart cls c0 := ⟨⟨rfl, rfl, rfl, rfl, ⟨by decide, by decide⟩⟩, rfl⟩

def s1 : BS := ((propLoop 10 c0.s.initProp).getD (none, c0.s)).2
def s2 : BS := s1.decide (.bool 0)
def s3 : BS := ((propLoop 10 s2.initProp).getD (none, c0.s)).2
def c3 : Clause := ((propLoop 10 s2.initProp).getD (none, c0.s)).1.getD []
def s4 : BS := (s3.learnAll [[(Lit.pos 0).neg]]).backtrackUip [[(Lit.pos 0).neg]] 0
def s5 : BS := ((propLoop 10 s4.initProp).getD (none, c0.s)).2

example : Returns (propEnv Int) c0 (.sat s5) := by
  refine ⟨⟨s4, 0, order⟩, .step (.step .refl (c' := ⟨s2, 0, order⟩) ?_) ?_, ?_⟩
  · exact .decideBool (c := c0) (s := s1) (n := 0) (.done ⟨10, rfl⟩ (.refl _)) ⟨by decide, rfl⟩
  · refine .uip (c := ⟨s2, 0, order⟩) (cs := [c3]) (s := s3) (ls := [[(Lit.pos 0).neg]]) (L := 0)
      (.boolConflict ⟨10, rfl⟩) (by simp) (by decide) ⟨[[(Lit.pos 0).neg]], by decide, by decide,
      by decide⟩ ⟨[], by simp, rfl⟩ (by decide) (by decide)
  · exact .sat (o := order) (.done ⟨10, rfl⟩ (.refl _)) ⟨by decide, rfl⟩

example : s5.t.bools.value 0 = false ∧ s5.t.bools.value 1 = true := by decide

end C16Ex

#print axioms C16_sat_sound

end Yaga
