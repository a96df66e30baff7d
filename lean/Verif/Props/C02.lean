/-
C02: evaluation of clauses in partial models.
-/
import Verif.Proofs.Eval
import Verif.Spec.Sat

namespace Yaga
open Spec

/-- A total assignment extends a partial model. -/
def Spec.Extends (σ : Assignment) (m : PModel Bool) : Prop :=
  ∀ v, m.defined v = true → σ v = m.value v

theorem evalLit_eq_some (m : PModel Bool) (l : Lit) (b : Bool) :
    evalLit m l = some b ↔ m.defined l.ord = true ∧ (m.value l.ord == !l.isNeg) = b := by
  unfold evalLit
  by_cases h : m.defined l.ord <;> simp [h]

/-- C02 for literals: `true`/`false` are reported iff every total extension of the partial model
agrees, `none` iff the extensions disagree. -/
theorem C02_literal (m : PModel Bool) (l : Lit) :
    (evalLit m l = some true ↔ ∀ σ, Extends σ m → litTrue σ l) ∧
    (evalLit m l = some false ↔ ∀ σ, Extends σ m → ¬ litTrue σ l) := by
  have key : ∀ b, evalLit m l = some b ↔ ∀ σ, Extends σ m → (litTrue σ l ↔ b = true) := by
    intro b
    rw [evalLit_eq_some]
    constructor
    · rintro ⟨hd, hv⟩ σ hσ
      rw [litTrue, hσ _ hd]
      cases hn : l.isNeg <;> cases hb : m.value l.ord <;> simp_all
    · intro h
      have hd : m.defined l.ord = true := by
        by_contra hd
        have h1 := h (fun v => if v = l.ord then true else m.value v) (by
          intro v hv
          by_cases e : v = l.ord
          · subst e; exact absurd hv hd
          · simp [e])
        have h2 := h (fun v => if v = l.ord then false else m.value v) (by
          intro v hv
          by_cases e : v = l.ord
          · subst e; exact absurd hv hd
          · simp [e])
        cases hn : l.isNeg <;> cases b <;> simp_all [litTrue]
      refine ⟨hd, ?_⟩
      have h1 := h m.value (fun v _ => rfl)
      cases hn : l.isNeg <;> cases hb : m.value l.ord <;> cases b <;> simp_all [litTrue]
  constructor
  · rw [key]; simp
  · rw [key]; simp

/-- C02: `eval(model, clause)` is true iff a literal is true, false iff all literals are false,
and undefined otherwise. -/
theorem C02_clause (m : PModel Bool) (c : Clause) :
    (evalClause m c = some true ↔ ∃ l ∈ c, evalLit m l = some true) ∧
    (evalClause m c = some false ↔ ∀ l ∈ c, evalLit m l = some false) ∧
    (evalClause m c = none ↔
      (∀ l ∈ c, evalLit m l ≠ some true) ∧ ∃ l ∈ c, evalLit m l = none) := by
  refine ⟨evalClause_true_iff m c, evalClause_false_iff m c, ?_⟩
  have ht := evalClause_true_iff m c
  have hf := evalClause_false_iff m c
  constructor
  · intro h
    rw [h] at ht hf
    have ht' : ∀ l ∈ c, evalLit m l ≠ some true := fun l hl h' => by
      have := ht.2 ⟨l, hl, h'⟩; simp at this
    refine ⟨ht', ?_⟩
    by_contra hc
    have : ∀ l ∈ c, evalLit m l = some false := by
      intro l hl
      rcases hl' : evalLit m l with _ | b
      · exact absurd ⟨l, hl, hl'⟩ hc
      · cases b
        · rfl
        · exact absurd hl' (ht' l hl)
    have := hf.2 this
    simp at this
  · rintro ⟨h1, l, hl, h2⟩
    rcases h : evalClause m c with _ | b
    · rfl
    · cases b
      · have := hf.1 h l hl
        rw [h2] at this; simp at this
      · obtain ⟨l', hl', h'⟩ := ht.1 h
        exact absurd h' (h1 l' hl')

/-- C02: a defined answer is the truth value of the clause in every total extension of the partial
model; in particular it does not change when more variables get values. -/
theorem C02_stable (m : PModel Bool) (c : Clause) (b : Bool) (h : evalClause m c = some b) :
    (∀ σ, Extends σ m → (clauseTrue σ c ↔ b = true)) ∧
    (∀ m' : PModel Bool, (∀ v, m.defined v = true → m'.defined v = true ∧ m'.value v = m.value v) →
      evalClause m' c = some b) := by
  have hlit : ∀ m' : PModel Bool,
      (∀ v, m.defined v = true → m'.defined v = true ∧ m'.value v = m.value v) →
      ∀ l x, evalLit m l = some x → evalLit m' l = some x := by
    intro m' hm l x hx
    rw [evalLit_eq_some] at *
    obtain ⟨h1, h2⟩ := hm _ hx.1
    exact ⟨h1, by rw [h2]; exact hx.2⟩
  cases b
  · have hf := (evalClause_false_iff m c).1 h
    refine ⟨fun σ hσ => ?_, fun m' hm => ?_⟩
    · simp only [Bool.false_eq_true, iff_false]
      rintro ⟨l, hl, ht⟩
      exact ((C02_literal m l).2.1 (hf l hl)) σ hσ ht
    · exact (evalClause_false_iff m' c).2 fun l hl => hlit m' hm l _ (hf l hl)
  · obtain ⟨l, hl, ht⟩ := (evalClause_true_iff m c).1 h
    refine ⟨fun σ hσ => ?_, fun m' hm => ?_⟩
    · simp only [iff_true]
      exact ⟨l, hl, ((C02_literal m l).1.1 ht) σ hσ⟩
    · exact (evalClause_true_iff m' c).2 ⟨l, hl, hlit m' hm l _ ht⟩

/-- A partial model with `x0 = true`, `x1` undefined, and the clause `~x0 ∨ x1`: undefined; with
`x1 = false` it becomes false. -/
example :
    let m : PModel Bool := ((PModel.empty false).resize false 2).setValue 0 true
    evalClause m [(Lit.pos 0).neg, Lit.pos 1] = none ∧
    evalClause (m.setValue 1 false) [(Lit.pos 0).neg, Lit.pos 1] = some false ∧
    evalClause (m.setValue 1 true) [(Lit.pos 0).neg, Lit.pos 1] = some true := by decide

#print axioms C02_literal
#print axioms C02_clause
#print axioms C02_stable

end Yaga
