/-
Facts about linear constraints: sums, normalisation, comparison, and the repository invariant.
-/
import Verif.Spec.Linear
import Verif.Proofs.Std
import Mathlib.Algebra.BigOperators.Group.List.Basic
import Mathlib.Tactic.Linarith
import Mathlib.Tactic.Ring
import Mathlib.Tactic.FieldSimp
import Mathlib.Data.List.Nodup
import Mathlib.Data.List.Perm.Subperm

set_option linter.unusedVariables false
set_option linter.unusedSectionVars false

namespace Yaga
open Spec

/-! ### Sums -/

@[simp] theorem lsum_nil (σ : Nat → ℚ) : lsum σ [] = 0 := rfl
@[simp] theorem lsum_cons (σ : Nat → ℚ) (p : Nat × ℚ) (ts) :
    lsum σ (p :: ts) = p.2 * σ p.1 + lsum σ ts := by simp [lsum]
@[simp] theorem lsum_append (σ : Nat → ℚ) (a b : List (Nat × ℚ)) :
    lsum σ (a ++ b) = lsum σ a + lsum σ b := by simp [lsum]

theorem lsum_perm {σ : Nat → ℚ} {a b : List (Nat × ℚ)} (h : a.Perm b) : lsum σ a = lsum σ b :=
  (h.map _).sum_eq

theorem lsum_scale (σ : Nat → ℚ) (k : ℚ) (ts : List (Nat × ℚ)) :
    lsum σ (ts.map fun p => (p.1, p.2 * k)) = k * lsum σ ts := by
  induction ts with
  | nil => simp
  | cons p ts ih => simp only [List.map_cons, lsum_cons, ih]; ring

theorem lsum_filter (σ : Nat → ℚ) (ts : List (Nat × ℚ)) :
    lsum σ (ts.filter fun p => decide (p.2 ≠ 0)) = lsum σ ts := by
  induction ts with
  | nil => rfl
  | cons p ts ih =>
    by_cases h : p.2 = 0
    · rw [List.filter_cons_of_neg (by simp [h]), ih, lsum_cons, h]; ring
    · rw [List.filter_cons_of_pos (by simp [h]), lsum_cons, lsum_cons, ih]

theorem foldl_sub_eq (m : Nat → ℚ) (ts : List (Nat × ℚ)) (r : ℚ) :
    ts.foldl (fun r p => r - p.2 * m p.1) r = r - lsum m ts := by
  induction ts generalizing r with
  | nil => simp
  | cons p ts ih => simp only [List.foldl_cons, ih, lsum_cons]; ring

theorem lsum_congr {σ τ : Nat → ℚ} {ts : List (Nat × ℚ)} (h : ∀ p ∈ ts, σ p.1 = τ p.1) :
    lsum σ ts = lsum τ ts := by
  induction ts with
  | nil => rfl
  | cons p ts ih =>
    simp only [lsum_cons, h p (by simp), ih (fun q hq => h q (by simp [hq]))]

/-! ### Predicates -/

theorem Pred.app_iff (p : Pred) (a b : ℚ) : p.app a b = true ↔ Rel p a b := by
  cases p <;> simp [Pred.app, Rel]

theorem Pred.app_sub_iff (p : Pred) (a b : ℚ) : p.app 0 (b - a) = true ↔ Rel p a b := by
  rw [Pred.app_iff]
  cases p <;> simp only [Rel] <;> constructor <;> intro h <;> linarith

theorem LinStore.eval_iff (s : LinStore) (m : PModel ℚ) (c : LinCons) :
    s.eval m c = true ↔
      (c.lit.isNeg = false ∧ LinTrue m.value (s.terms c) c.pred c.rhs) ∨
      (c.lit.isNeg = true ∧ ¬ LinTrue m.value (s.terms c) c.pred c.rhs) := by
  have h : c.pred.app 0 ((s.terms c).foldl (fun r p => r - p.2 * m.value p.1) c.rhs) = true ↔
      LinTrue m.value (s.terms c) c.pred c.rhs := by
    rw [foldl_sub_eq, Pred.app_sub_iff]; rfl
  show (xor c.lit.isNeg _) = true ↔ _
  rw [← h]
  cases c.lit.isNeg <;> simp

/-! ### Normalisation -/

namespace LinStore

theorem findMin_some {ts : List (Nat × ℚ)} {acc : Option (Nat × ℚ)} {p : Nat × ℚ}
    (h : findMin ts acc = some p) :
    (acc = some p ∨ (p ∈ ts ∧ p.2 ≠ 0)) ∧ (∀ q ∈ ts, q.2 ≠ 0 → p.1 ≤ q.1) ∧
      (∀ q, acc = some q → p.1 ≤ q.1) := by
  induction ts generalizing acc with
  | nil => simp only [findMin] at h; subst h; simp
  | cons t ts ih =>
    unfold findMin at h
    by_cases hc : ((acc.all fun q => decide (t.1 < q.1)) && decide (t.2 ≠ 0)) = true
    · rw [if_pos hc] at h
      obtain ⟨h1, h2, h3⟩ := ih h
      have ht : t.2 ≠ 0 := by simp at hc; exact hc.2
      have hpt : p.1 ≤ t.1 := h3 t rfl
      refine ⟨Or.inr ?_, ?_, ?_⟩
      · rcases h1 with h1 | h1
        · cases h1; exact ⟨by simp, ht⟩
        · exact ⟨by simp [h1.1], h1.2⟩
      · intro q hq hq0
        rcases List.mem_cons.mp hq with rfl | hq
        · exact hpt
        · exact h2 q hq hq0
      · intro q hq
        subst hq
        have : t.1 < q.1 := by simp at hc; exact hc.1
        omega
    · rw [if_neg hc] at h
      obtain ⟨h1, h2, h3⟩ := ih h
      refine ⟨?_, ?_, h3⟩
      · rcases h1 with h1 | h1
        · exact Or.inl h1
        · exact Or.inr ⟨by simp [h1.1], h1.2⟩
      · intro q hq hq0
        rcases List.mem_cons.mp hq with rfl | hq
        · cases acc with
          | none => simp [hq0] at hc
          | some a =>
            have := h3 a rfl
            simp [hq0] at hc
            omega
        · exact h2 q hq hq0

theorem findMin_none {ts : List (Nat × ℚ)} {acc : Option (Nat × ℚ)} (h : findMin ts acc = none) :
    acc = none ∧ ∀ q ∈ ts, q.2 = 0 := by
  induction ts generalizing acc with
  | nil => simp only [findMin] at h; simp [h]
  | cons t ts ih =>
    unfold findMin at h
    by_cases hc : ((acc.all fun q => decide (t.1 < q.1)) && decide (t.2 ≠ 0)) = true
    · rw [if_pos hc] at h
      exact absurd (ih h).1 (by simp)
    · rw [if_neg hc] at h
      obtain ⟨h1, h2⟩ := ih h
      subst h1
      refine ⟨rfl, ?_⟩
      intro q hq
      rcases List.mem_cons.mp hq with rfl | hq
      · simpa using hc
      · exact h2 q hq

theorem findNorm_none {ts : List (Nat × ℚ)} (h : findNorm ts = none) : ∀ q ∈ ts, q.2 = 0 := by
  unfold findNorm at h
  cases e : findMin ts none with
  | none => exact (findMin_none e).2
  | some p =>
    rw [e] at h
    have := (findMin_some e).1
    simp at this
    simp [this.2] at h

/-- The norm constant is the inverse of the coefficient of the least variable. -/
theorem findNorm_some {ts : List (Nat × ℚ)} {k : ℚ} (h : findNorm ts = some k) :
    ∃ p ∈ ts, p.2 ≠ 0 ∧ k = 1 / p.2 ∧ ∀ q ∈ ts, q.2 ≠ 0 → p.1 ≤ q.1 := by
  unfold findNorm at h
  cases e : findMin ts none with
  | none => rw [e] at h; simp at h
  | some p =>
    rw [e] at h
    obtain ⟨h1, h2, _⟩ := findMin_some e
    simp at h1
    simp [h1.2] at h
    exact ⟨p, h1.1, h1.2, by rw [← h]; simp, h2⟩

theorem findNorm_ne_zero {ts : List (Nat × ℚ)} {k : ℚ} (h : findNorm ts = some k) : k ≠ 0 := by
  obtain ⟨p, _, h2, h3, _⟩ := findNorm_some h
  rw [h3]
  exact one_div_ne_zero h2

theorem lsum_normTerms (σ : Nat → ℚ) (k : ℚ) (ts : List (Nat × ℚ)) :
    lsum σ (normTerms k ts) = k * lsum σ ts := by
  unfold normTerms
  rw [lsum_scale, lsum_filter]

theorem linTrue_norm_pos {σ : Nat → ℚ} {k : ℚ} (hk : 0 < k) (ts : List (Nat × ℚ)) (p : Pred)
    (r : ℚ) : LinTrue σ (normTerms k ts) (normPred k p) (k * r) ↔ LinTrue σ ts p r := by
  have : ¬ k < 0 := by linarith
  unfold LinTrue normPred
  rw [if_neg this, lsum_normTerms]
  cases p <;> simp only [Rel]
  · exact mul_right_inj' hk.ne'
  · exact mul_lt_mul_iff_right₀ hk
  · exact mul_le_mul_iff_right₀ hk

theorem linTrue_norm_neg {σ : Nat → ℚ} {k : ℚ} (hk : k < 0) (ts : List (Nat × ℚ)) {p : Pred}
    (hp : p ≠ .eq) (r : ℚ) :
    LinTrue σ (normTerms k ts) (normPred k p) (k * r) ↔ ¬ LinTrue σ ts p r := by
  unfold LinTrue normPred
  rw [if_pos hk, lsum_normTerms]
  cases p
  · exact absurd rfl hp
  · show k * _ ≤ k * _ ↔ ¬ (_ < _)
    rw [not_lt]; exact mul_le_mul_left_of_neg hk
  · show k * _ < k * _ ↔ ¬ (_ ≤ _)
    rw [not_le]; exact mul_lt_mul_left_of_neg hk

theorem linTrue_norm_eq {σ : Nat → ℚ} {k : ℚ} (hk : k ≠ 0) (ts : List (Nat × ℚ)) (r : ℚ) :
    LinTrue σ (normTerms k ts) (normPred k .eq) (k * r) ↔ LinTrue σ ts .eq r := by
  unfold LinTrue normPred
  rw [lsum_normTerms]
  have : (if k < 0 then Pred.eq else Pred.eq) = Pred.eq := by split <;> rfl
  simp only [this, Rel]
  exact mul_right_inj' hk

/-! ### Comparison of constraints -/

theorem bruteEqual_perm {l r : List (Nat × ℚ)} (hl : (l.map (·.1)).Nodup)
    (hr : (r.map (·.1)).Nodup) (hlen : l.length = r.length) :
    bruteEqual l r = true ↔ l.Perm r := by
  unfold bruteEqual
  constructor
  · intro h
    have hsub : l ⊆ r := by
      intro p hp
      have := List.all_eq_true.mp h p hp
      cases e : r.find? (fun q => q.1 == p.1) with
      | none => rw [e] at this; simp at this
      | some q =>
        rw [e] at this
        have h1 := List.find?_some e
        have h2 := List.mem_of_find?_eq_some e
        simp at this h1
        have : p = q := Prod.ext h1.symm this
        rwa [this]
    exact ((List.Nodup.of_map _ hl).subperm hsub).perm_of_length_le (by omega)
  · intro h
    rw [List.all_eq_true]
    intro p hp
    have hpr : p ∈ r := h.subset hp
    cases e : r.find? (fun q => q.1 == p.1) with
    | none =>
      have := List.find?_eq_none.mp e p hpr
      simp at this
    | some q =>
      have h1 := List.find?_some e
      have h2 := List.mem_of_find?_eq_some e
      simp at h1
      have : q = p := List.inj_on_of_nodup_map hr h2 hpr h1
      simp [this]

theorem pairLt_irrefl (a : Nat × ℚ) : pairLt a a = false := by simp [pairLt]

theorem pairLt_trans {a b c : Nat × ℚ} (h1 : pairLt a b = true) (h2 : pairLt b c = true) :
    pairLt a c = true := by
  simp only [pairLt, Bool.or_eq_true, decide_eq_true_eq, Bool.and_eq_true, beq_iff_eq] at *
  rcases h1 with h1 | ⟨h1, h1'⟩ <;> rcases h2 with h2 | ⟨h2, h2'⟩
  · left; omega
  · left; omega
  · left; omega
  · right; exact ⟨by omega, h1'.trans h2'⟩

theorem pairLt_total {a b : Nat × ℚ} (h1 : pairLt a b = false) (h2 : pairLt b a = false) :
    a = b := by
  simp only [pairLt, Bool.or_eq_false_iff, decide_eq_false_iff_not, Bool.and_eq_false_iff,
    beq_eq_false_iff_ne] at *
  obtain ⟨a1, a2⟩ := h1
  obtain ⟨b1, b2⟩ := h2
  have e : a.1 = b.1 := by omega
  refine Prod.ext e ?_
  have c1 : ¬ a.2 < b.2 := by
    rcases a2 with a2 | a2
    · exact absurd e a2
    · exact a2
  have c2 : ¬ b.2 < a.2 := by
    rcases b2 with b2 | b2
    · exact absurd e.symm b2
    · exact b2
  exact le_antisymm (not_lt.mp c2) (not_lt.mp c1)

theorem sorted_values (l : List (Nat × ℚ)) :
    (sortBy pairLt l).Pairwise fun a b => pairLt b a = false := by
  refine sortBy_pairwise _ ?_ ?_ l
  · intro a b c h1 h2
    cases h : pairLt c a with
    | false => rfl
    | true =>
      exfalso
      cases h3 : pairLt a b with
      | true => rw [pairLt_trans h h3] at h2; simp at h2
      | false =>
        have := pairLt_total h3 h1
        subst this
        rw [h] at h2; simp at h2
  · intro a b h
    cases h2 : pairLt b a with
    | false => rfl
    | true => have := pairLt_trans h h2; rw [pairLt_irrefl] at this; simp at this

/-- `std::lower_bound` followed by the equality test is membership. -/
theorem lowerBound_mem {v : List (Nat × ℚ)} (hs : v.Pairwise fun a b => pairLt b a = false)
    (p : Nat × ℚ) : ((v.find? (fun q => !pairLt q p)).any fun q =>
      q.1 == p.1 && decide (q.2 = p.2)) = true ↔ p ∈ v := by
  induction v with
  | nil => simp
  | cons a v ih =>
    rw [List.pairwise_cons] at hs
    cases h : pairLt a p with
    | true =>
      rw [List.find?_cons_of_neg (by simp [h]), ih hs.2]
      have : p ≠ a := by rintro rfl; rw [pairLt_irrefl] at h; simp at h
      simp [this]
    | false =>
      rw [List.find?_cons_of_pos (by simp [h])]
      constructor
      · intro h2
        simp at h2
        have : p = a := Prod.ext h2.1.symm h2.2.symm
        simp [this]
      · intro h2
        rcases List.mem_cons.mp h2 with rfl | h2
        · simp
        · have : a = p := pairLt_total h (hs.1 p h2)
          simp [this]

theorem sortEqual_perm {l r : List (Nat × ℚ)} (hl : (l.map (·.1)).Nodup)
    (hr : (r.map (·.1)).Nodup) (hlen : l.length = r.length) :
    sortEqual l r = true ↔ l.Perm r := by
  have hmem : sortEqual l r = true ↔ ∀ p ∈ r, p ∈ l := by
    unfold sortEqual
    rw [List.all_eq_true]
    refine forall₂_congr fun p _ => ?_
    rw [lowerBound_mem (sorted_values l), mem_sortBy]
  rw [hmem]
  constructor
  · intro h
    exact (((List.Nodup.of_map _ hr).subperm h).perm_of_length_le (by omega)).symm
  · intro h p hp
    exact h.symm.subset hp

end LinStore
end Yaga
