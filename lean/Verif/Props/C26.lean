/-
C26: evaluation, negation and strictness of linear constraints.
-/
import Verif.Proofs.LinearSteps
import Verif.Spec.Fm
import Mathlib.Tactic.NormNum

namespace Yaga
open Spec

/-- C26. `eval` is the truth value of the constraint. -/
theorem C26_eval (s : LinStore) (m : PModel ℚ) (c : LinCons) :
    s.eval m c = true ↔ ConsTrue s c m.value := LinStore.eval_iff s m c

/-- C26. The negated constraint has the complementary value. -/
theorem C26_negation (s : LinStore) (m : PModel ℚ) (c : LinCons) :
    s.eval m c.neg = !s.eval m c ∧ ∀ σ, ConsTrue s c.neg σ ↔ ¬ ConsTrue s c σ := by
  have h : ∀ σ, ConsTrue s c.neg σ ↔ ¬ ConsTrue s c σ := by
    intro σ
    have ht : s.terms c.neg = s.terms c := rfl
    unfold ConsTrue
    rw [ht]
    show (c.lit.neg.isNeg = false ∧ LinTrue σ (s.terms c) c.pred c.rhs) ∨
      (c.lit.neg.isNeg = true ∧ ¬ LinTrue σ (s.terms c) c.pred c.rhs) ↔ _
    rw [LinStore.Lit.neg_isNeg]
    cases c.lit.isNeg <;> simp
  refine ⟨?_, h⟩
  have h1 := C26_eval s m c
  have h2 := C26_eval s m c.neg
  rw [h m.value, ← h1] at h2
  cases e1 : s.eval m c.neg <;> cases e2 : s.eval m c <;> simp_all

/-- C26. The three-valued `eval` is undefined exactly when a variable of the constraint is
unassigned, and otherwise is the value of `eval`. -/
theorem C26_eval_three_valued (hv : Nat → Nat) (hc : ℚ → Nat) (s : LinStore)
    (hs : LinReach hv hc s) (m : PModel ℚ) (c : LinCons) (hm : c ∈ s.set) :
    (s.evalOpt m c = none ↔ ∃ p ∈ s.terms c, m.defined p.1 = false) ∧
    ((∀ p ∈ s.terms c, m.defined p.1 = true) →
      (s.evalOpt m c = some true ↔ ConsTrue s c m.value) ∧
      (s.evalOpt m c = some false ↔ ¬ ConsTrue s c m.value)) := by
  have hI := LinStore.reach_inv hv hc hs
  have hvs := LinStore.varsOf_eq hI.len (hI.rng c hm).2
  unfold LinStore.evalOpt
  rw [hvs]
  by_cases h : ((s.terms c).map (·.1)).all (fun x => m.defined x) = true
  · have h' : ∀ p ∈ s.terms c, m.defined p.1 = true := by
      rw [List.all_eq_true] at h
      intro p hp
      exact h _ (List.mem_map_of_mem hp)
    rw [if_pos h]
    refine ⟨⟨by simp, ?_⟩, fun _ => ⟨?_, ?_⟩⟩
    · rintro ⟨p, hp, hd⟩
      rw [h' p hp] at hd; cases hd
    · rw [← C26_eval]; simp
    · rw [← C26_eval]; simp
  · rw [if_neg h]
    have : ∃ p ∈ s.terms c, m.defined p.1 = false := by
      by_contra hc'
      apply h
      rw [List.all_eq_true]
      intro x hx
      obtain ⟨p, hp, rfl⟩ := List.mem_map.mp hx
      by_contra hd
      exact hc' ⟨p, hp, by simpa using hd⟩
    refine ⟨by simp [this], fun h' => ?_⟩
    obtain ⟨p, hp, hd⟩ := this
    rw [h' p hp] at hd; cases hd

/-- C26. `is_strict` says exactly whether equality of the two sides is excluded. -/
theorem C26_is_strict (s : LinStore) (c : LinCons) :
    (c.isStrict = true → ∀ σ, lsum σ (s.terms c) = c.rhs → ¬ ConsTrue s c σ) ∧
    (c.isStrict = false → ∀ σ, lsum σ (s.terms c) = c.rhs → ConsTrue s c σ) := by
  unfold LinCons.isStrict ConsTrue LinTrue
  refine ⟨fun h σ he => ?_, fun h σ he => ?_⟩ <;> rw [he] <;>
    cases hn : c.lit.isNeg <;> cases hp : c.pred <;> simp [hn, hp, Rel] at h ⊢

/-- C26. `implied_value`: with the values of all variables but the first fixed, both sides are equal
exactly when coefficient times value of the first variable is the implied value. For a unit
constraint the code divides by the coefficient (src/lra/Bounds.cpp:281). -/
theorem C26_implied_value (s : LinStore) (m : PModel ℚ) (c : LinCons) (x : Nat) (a : ℚ)
    (ts : List (Nat × ℚ)) (ht : s.terms c = (x, a) :: ts) (ha : a ≠ 0) (σ : Nat → ℚ)
    (hσ : ∀ p ∈ ts, σ p.1 = m.value p.1) :
    (lsum σ (s.terms c) = c.rhs ↔ a * σ x = s.impliedValue m c) ∧
    (lsum σ (s.terms c) = c.rhs ↔ σ x = s.impliedValue m c / a) := by
  have e : s.impliedValue m c = c.rhs - lsum σ ts := by
    unfold LinStore.impliedValue
    rw [ht, List.drop_one, List.tail_cons, foldl_sub_eq, lsum_congr hσ]
  have h1 : lsum σ (s.terms c) = c.rhs ↔ a * σ x = s.impliedValue m c := by
    rw [ht, lsum_cons, e]
    constructor <;> intro h
    · simp only at h; linarith
    · simp only; linarith
  refine ⟨h1, h1.trans ?_⟩
  rw [eq_div_iff ha, mul_comm]

/-- C26. The object the theory looks up for a literal of an existing constraint represents that
literal. -/
theorem C26_constraint_of_literal (hv : Nat → Nat) (hc : ℚ → Nat) (s : LinStore)
    (hs : LinReach hv hc s) (l : Lit) (hl : (s.get l.ord).isEmpty = false) :
    (s.constraint l).lit = l ∧ ∀ σ, ConsTrue s (s.constraint l) σ ↔ LitMeans s l σ := by
  have hI := LinStore.reach_inv hv hc hs
  have hsz : 0 < (s.get l.ord).size := by
    unfold LinCons.isEmpty at hl
    unfold LinCons.size
    simp at hl
    omega
  have hord : (s.get l.ord).lit = Lit.pos l.ord := by
    unfold LinStore.get at hsz ⊢
    cases e : s.cons[l.ord]? with
    | none => rw [e] at hsz; simp [LinCons.empty, LinCons.size] at hsz
    | some c =>
      rw [e] at hsz
      rcases hI.dflt _ _ e with h | h
      · exact h.2
      · subst h; simp [LinCons.empty, LinCons.size] at hsz
  have hpos : l.isNeg = false → l = Lit.pos l.ord := by
    intro h
    have h0 : ¬ l.value < 0 := of_decide_eq_false h
    have hne := l.ne
    obtain ⟨v, hv⟩ := l
    simp only [Lit.pos, Lit.ord, Lit.mk.injEq] at *
    omega
  have hneg : l.isNeg = true → l = (Lit.pos l.ord).neg := by
    intro h
    have h0 : l.value < 0 := of_decide_eq_true h
    obtain ⟨v, hv⟩ := l
    simp only [Lit.pos, Lit.neg, Lit.ord, Lit.mk.injEq] at *
    omega
  unfold LinStore.constraint
  simp only [hl, hord]
  cases hn : l.isNeg with
  | false =>
    have hp := hpos hn
    rw [if_neg (by simp), if_neg (by rw [← hp]; simp)]
    refine ⟨by rw [hord, ← hp], fun σ => ?_⟩
    unfold ConsTrue LitMeans
    rw [hord, ← hp, hn]
  | true =>
    have hp := hneg hn
    have hne : Lit.pos l.ord ≠ l := by
      intro h
      have := LinStore.Lit.pos_isNeg l.ord
      rw [h, hn] at this; cases this
    rw [if_neg (by simp), if_pos hne]
    refine ⟨by show (s.get l.ord).lit.neg = l; rw [hord, ← hp], fun σ => ?_⟩
    have ht : s.terms (s.get l.ord).neg = s.terms (s.get l.ord) := rfl
    unfold ConsTrue LitMeans
    rw [ht]
    show ((s.get l.ord).lit.neg.isNeg = false ∧
      LinTrue σ (s.terms (s.get l.ord)) (s.get l.ord).pred (s.get l.ord).rhs) ∨
      ((s.get l.ord).lit.neg.isNeg = true ∧
      ¬ LinTrue σ (s.terms (s.get l.ord)) (s.get l.ord).pred (s.get l.ord).rhs) ↔ _
    rw [hord, ← hp, hn]

/-- Instance: `x₀ + 2·x₁ ≤ 4` and its negation with `x₀ = 0`, `x₁ = 2`, both sides equal. -/
example :
    let r := LinStore.init.make id (fun _ => 0) [(0, 1), (1, 2)] .leq 4
    let m := ((PModel.empty (0 : ℚ)).setValue 0 0).setValue 1 2
    r.1.eval m r.2 = true ∧ r.1.eval m r.2.neg = false ∧ r.2.isStrict = false ∧
    r.2.neg.isStrict = true ∧ r.1.impliedValue m r.2 = 0 ∧
    r.1.evalOpt (m.clear 1) r.2 = none := by decide +kernel

#print axioms C26_eval
#print axioms C26_negation
#print axioms C26_eval_three_valued
#print axioms C26_is_strict
#print axioms C26_implied_value
#print axioms C26_constraint_of_literal

end Yaga
