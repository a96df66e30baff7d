/-
C24: normalising a linear constraint keeps its meaning.
-/
import Verif.Proofs.LinearSteps
import Mathlib.Tactic.NormNum

namespace Yaga
open Spec

/-- C24. The literal returned by `make` is true exactly when the given constraint is, in the state
right after the call and in every later state. -/
theorem C24_make_meaning (hv : Nat → Nat) (hc : ℚ → Nat) (s s' : LinStore) (hs : LinReach hv hc s)
    (ts : List (Nat × ℚ)) (hts : (ts.map (·.1)).Nodup) (pred : Pred) (rhs : ℚ)
    (hs' : LinSteps hv hc (s.make hv hc ts pred rhs).1 s') (σ : Nat → ℚ) :
    LitMeans s' (s.make hv hc ts pred rhs).2.lit σ ↔ LinTrue σ ts pred rhs := by
  have hI := LinStore.reach_inv hv hc hs
  obtain ⟨h1, _, e, he⟩ := LinStore.make_spec hv hc hI hts pred rhs
  obtain ⟨_, h3⟩ := LinStore.steps_spec hv hc h1 hs'
  obtain ⟨h4, h5⟩ := he.litMeans h1 σ
  rw [LinStore.litMeans_kept h1 h3 h5, h4]

/-- C24. No operation on the repository changes the meaning of an existing literal. -/
theorem C24_literals_stable (hv : Nat → Nat) (hc : ℚ → Nat) (s s' : LinStore)
    (hs : LinReach hv hc s) (hs' : LinSteps hv hc s s') (l : Lit) (hl : l.ord < s.cons.length)
    (σ : Nat → ℚ) : LitMeans s' l σ ↔ LitMeans s l σ := by
  have hI := LinStore.reach_inv hv hc hs
  exact LinStore.litMeans_kept hI (LinStore.steps_spec hv hc hI hs').2 hl σ

/-- C24. The terms, predicate and right-hand side of the object returned by `make`, evaluated by the
code, agree with the given constraint. -/
theorem C24_make_eval (hv : Nat → Nat) (hc : ℚ → Nat) (s : LinStore) (hs : LinReach hv hc s)
    (ts : List (Nat × ℚ)) (hts : (ts.map (·.1)).Nodup) (pred : Pred) (rhs : ℚ) (m : PModel ℚ) :
    (s.make hv hc ts pred rhs).1.eval m (s.make hv hc ts pred rhs).2 = true ↔
      LinTrue m.value ts pred rhs := by
  have hI := LinStore.reach_inv hv hc hs
  obtain ⟨h1, _, e, he⟩ := LinStore.make_spec hv hc hI hts pred rhs
  obtain ⟨k, hk, _⟩ := h1.idx e he.mem
  rw [LinStore.eval_iff]
  rcases he.eq with h | h
  · have hm := he.means m.value
    rw [if_pos h] at hm
    rw [h, hk, LinStore.Lit.pos_isNeg, ← hm]; simp
  · have hm := he.means m.value
    rw [if_neg (by rw [h]; exact LinStore.LinCons.neg_ne e)] at hm
    have ht : ∀ t : LinStore, t.terms e.neg = t.terms e := fun _ => rfl
    rw [h, ht]
    show (e.lit.neg.isNeg = false ∧ LinTrue m.value _ e.pred e.rhs) ∨
      (e.lit.neg.isNeg = true ∧ ¬ LinTrue m.value _ e.pred e.rhs) ↔ _
    rw [hm, LinStore.Lit.neg_isNeg, hk, LinStore.Lit.pos_isNeg]
    simp

/-- C24. The operations that turn one repository into another keep it usable: reachable states are
closed under them. -/
theorem C24_reach_closed (hv : Nat → Nat) (hc : ℚ → Nat) (s s' : LinStore) (hs : LinReach hv hc s)
    (h : LinSteps hv hc s s') : LinReach hv hc s' := by
  induction h with
  | refl => exact hs
  | step op _ ok ih => exact LinSteps.step op ih ok

/-- The hypothesis that the variables are distinct is needed: `3·x₁ ≤ 3` written as
`x₁ + x₁ + x₁ ≤ 3` is taken for a duplicate of `x₀ + x₁ + x₂ ≤ 3` (`std::hash<int>` is the
identity). -/
theorem C24_distinct_variables_needed :
    let s1 := (LinStore.init.make id (fun _ => 0) [(0, 1), (1, 1), (2, 1)] .leq 3).1
    let r := s1.make id (fun _ => 0) [(1, 1), (1, 1), (1, 1)] .leq 3
    LinReach id (fun _ => 0) s1 ∧
    ∃ σ, LitMeans r.1 r.2.lit σ ∧ ¬ LinTrue σ [(1, 1), (1, 1), (1, 1)] .leq 3 := by
  intro s1 r
  refine ⟨LinSteps.step (.make _ _ _) (LinSteps.refl _) (by show List.Nodup _; decide), ?_⟩
  have hr : r.2.lit = Lit.pos 0 := by decide +kernel
  have h0 : r.1.terms (r.1.get 0) = [(0, 1), (1, 1), (2, 1)] ∧ (r.1.get 0).pred = .leq ∧
      (r.1.get 0).rhs = 3 := by decide +kernel
  refine ⟨fun x => if x = 1 then 2 else 0, ?_, ?_⟩
  · left
    rw [hr]
    refine ⟨LinStore.Lit.pos_isNeg 0, ?_⟩
    rw [LinStore.Lit.pos_ord, h0.1, h0.2.1, h0.2.2]
    norm_num [LinTrue, Rel, lsum]
  · norm_num [LinTrue, Rel, lsum]

/-- Instance: `-2·x₃ + 4·x₁ < 6` is stored as `x₁ - ½·x₃ < 3/2`, and `-4·x₁ + 0·x₂ ≤ 8` as the
negation of `x₁ < -2`. -/
example :
    let r := LinStore.init.make id (fun _ => 0) [(3, -2), (1, 4)] .lt 6
    let r2 := r.1.make id (fun _ => 0) [(1, -4), (2, 0)] .leq 8
    r.1.terms r.2 = [(3, -1/2), (1, 1)] ∧ r.2.rhs = 3/2 ∧ r.2.pred = .lt ∧ r.2.lit = Lit.pos 0 ∧
    r2.1.terms r2.2 = [(1, 1)] ∧ r2.2.rhs = -2 ∧ r2.2.pred = .lt ∧ r2.2.lit = (Lit.pos 1).neg := by
  decide +kernel

#print axioms C24_make_meaning
#print axioms C24_literals_stable
#print axioms C24_make_eval
#print axioms C24_distinct_variables_needed
#print axioms C24_reach_closed

end Yaga
