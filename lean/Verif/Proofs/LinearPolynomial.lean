/-
Facts about linear polynomials.
-/
import Verif.Model.LinearPolynomial
import Verif.Proofs.LinearSteps

set_option linter.unusedVariables false

namespace Yaga
open Spec

namespace UPoly

theorem lsum_addTerm (σ : Nat → ℚ) (ts : List (Nat × ℚ)) (t : Nat × ℚ) :
    lsum σ (addTerm ts t) = lsum σ ts + t.2 * σ t.1 := by
  induction ts with
  | nil => simp [addTerm]
  | cons p ts ih =>
    unfold addTerm
    by_cases h : p.1 = t.1
    · rw [if_pos h]
      by_cases h0 : p.2 + t.2 = 0
      · rw [if_pos h0, lsum_cons]
        have : p.2 = -t.2 := by linarith
        rw [this, h]; ring
      · rw [if_neg h0]; simp only [lsum_cons]; rw [h]; ring
    · rw [if_neg h]; simp only [lsum_cons, ih]; ring

theorem lsum_foldl_addTerm (σ : Nat → ℚ) (xs ts : List (Nat × ℚ)) :
    lsum σ (xs.foldl addTerm ts) = lsum σ ts + lsum σ xs := by
  induction xs generalizing ts with
  | nil => simp
  | cons x xs ih => rw [List.foldl_cons, ih, lsum_addTerm, lsum_cons]; ring

theorem addTerm_vars (ts : List (Nat × ℚ)) (t : Nat × ℚ) (y : Nat)
    (h : y ∈ (addTerm ts t).map (·.1)) : y ∈ ts.map (·.1) ∨ y = t.1 := by
  induction ts with
  | nil => simp [addTerm] at h; exact Or.inr h
  | cons p ts ih =>
    unfold addTerm at h
    by_cases e : p.1 = t.1
    · rw [if_pos e] at h
      by_cases h0 : p.2 + t.2 = 0
      · rw [if_pos h0] at h
        left; exact List.mem_cons_of_mem _ h
      · rw [if_neg h0] at h
        left; exact h
    · rw [if_neg e] at h
      rcases List.mem_cons.mp h with h | h
      · left; simp [h]
      · rcases ih h with h | h
        · left; exact List.mem_cons_of_mem _ h
        · right; exact h

theorem wf_addTerm {ts : List (Nat × ℚ)} (w : LinStore.WfTerms ts) {t : Nat × ℚ} (ht : t.2 ≠ 0) :
    LinStore.WfTerms (addTerm ts t) := by
  induction ts with
  | nil => exact ⟨by simp [addTerm], by simp [addTerm, ht]⟩
  | cons p ts ih =>
    have wt : LinStore.WfTerms ts :=
      ⟨(List.nodup_cons.mp w.nodup).2, fun q hq => w.nz q (List.mem_cons_of_mem _ hq)⟩
    have hp : p.1 ∉ ts.map (·.1) := (List.nodup_cons.mp w.nodup).1
    unfold addTerm
    by_cases e : p.1 = t.1
    · rw [if_pos e]
      by_cases h0 : p.2 + t.2 = 0
      · rw [if_pos h0]; exact wt
      · rw [if_neg h0]
        refine ⟨List.nodup_cons.mpr ⟨hp, wt.nodup⟩, ?_⟩
        intro q hq
        rcases List.mem_cons.mp hq with rfl | hq
        · exact h0
        · exact wt.nz q hq
    · rw [if_neg e]
      have ih := ih wt
      refine ⟨List.nodup_cons.mpr ⟨?_, ih.nodup⟩, ?_⟩
      · intro h
        rcases addTerm_vars ts t _ h with h | h
        · exact hp h
        · exact e h
      · intro q hq
        rcases List.mem_cons.mp hq with rfl | hq
        · exact w.nz _ (by simp)
        · exact ih.nz q hq

theorem wf_foldl {xs ts : List (Nat × ℚ)} (w : LinStore.WfTerms ts) (hx : ∀ p ∈ xs, p.2 ≠ 0) :
    LinStore.WfTerms (xs.foldl addTerm ts) := by
  induction xs generalizing ts with
  | nil => exact w
  | cons x xs ih =>
    exact ih (wf_addTerm w (hx x (by simp))) (fun p hp => hx p (List.mem_cons_of_mem _ hp))

end UPoly

namespace DPoly

theorem lsum_normLoop (σ : Nat → ℚ) (done : List (Nat × ℚ)) (cur : Nat × ℚ) (ts : List (Nat × ℚ)) :
    lsum σ (normLoop done cur ts) = lsum σ done + cur.2 * σ cur.1 + lsum σ ts := by
  induction ts generalizing done cur with
  | nil =>
    unfold normLoop
    by_cases h : cur.2 = 0
    · simp [h]
    · simp [h]
  | cons t ts ih =>
    unfold normLoop
    by_cases h1 : cur.1 = t.1
    · rw [if_neg (by simpa using h1), ih, lsum_cons]
      simp only
      rw [h1]; ring
    · rw [if_pos h1]
      by_cases h2 : cur.2 = 0
      · rw [if_neg (by simpa using h2), ih, lsum_cons, h2]; ring
      · rw [if_pos h2, ih, lsum_append, lsum_cons, lsum_cons]; simp; ring

theorem lsum_normTerms (σ : Nat → ℚ) (ts : List (Nat × ℚ)) :
    lsum σ (normTerms ts) = lsum σ ts := by
  unfold normTerms
  have hp := sortBy_perm (fun a b : Nat × ℚ => decide (a.1 < b.1)) ts
  cases e : sortBy (fun a b : Nat × ℚ => decide (a.1 < b.1)) ts with
  | nil => rw [e] at hp; rw [← lsum_perm hp]
  | cons t us =>
    simp only
    rw [e] at hp
    rw [lsum_normLoop, ← lsum_perm hp, lsum_cons]; simp

theorem sorted_fst (ts : List (Nat × ℚ)) :
    (sortBy (fun a b : Nat × ℚ => decide (a.1 < b.1)) ts).Pairwise fun a b => a.1 ≤ b.1 := by
  have := sortBy_pairwise (fun a b : Nat × ℚ => decide (a.1 < b.1))
    (by intro a b c h1 h2; simp at *; omega) (by intro a b h; simp at *; omega) ts
  refine this.imp ?_
  intro a b h
  simp at h
  omega

/-- The loop keeps the output strictly sorted and free of zero coefficients. -/
theorem normLoop_sorted {done : List (Nat × ℚ)} {cur : Nat × ℚ} {ts : List (Nat × ℚ)}
    (h1 : done.Pairwise fun a b => a.1 < b.1) (h2 : ∀ p ∈ done, p.1 < cur.1)
    (h3 : ∀ p ∈ done, p.2 ≠ 0) (h4 : (cur :: ts).Pairwise fun a b => a.1 ≤ b.1) :
    ((normLoop done cur ts).Pairwise fun a b => a.1 < b.1) ∧
    (∀ p ∈ normLoop done cur ts, p.2 ≠ 0) := by
  induction ts generalizing done cur with
  | nil =>
    unfold normLoop
    by_cases h : cur.2 = 0
    · rw [if_neg (by simpa using h)]; exact ⟨h1, h3⟩
    · rw [if_pos h]
      refine ⟨?_, ?_⟩
      · rw [List.pairwise_append]
        exact ⟨h1, List.pairwise_singleton _ _, fun a ha b hb => by simp at hb; subst hb; exact h2 a ha⟩
      · intro p hp
        rcases List.mem_append.mp hp with hp | hp
        · exact h3 p hp
        · simp at hp; subst hp; exact h
  | cons t ts ih =>
    rw [List.pairwise_cons] at h4
    obtain ⟨h4, h5⟩ := h4
    have hct := h4 t (by simp)
    unfold normLoop
    by_cases e : cur.1 = t.1
    · rw [if_neg (by simpa using e)]
      refine ih h1 h2 h3 ?_
      rw [List.pairwise_cons] at h5 ⊢
      exact ⟨fun b hb => by have := h5.1 b hb; simp only; omega, h5.2⟩
    · rw [if_pos e]
      have hlt : cur.1 < t.1 := by omega
      by_cases h : cur.2 = 0
      · rw [if_neg (by simpa using h)]
        exact ih h1 (fun p hp => (h2 p hp).trans hlt) h3 h5
      · rw [if_pos h]
        refine ih ?_ ?_ ?_ h5
        · rw [List.pairwise_append]
          exact ⟨h1, List.pairwise_singleton _ _,
            fun a ha b hb => by simp at hb; subst hb; exact h2 a ha⟩
        · intro p hp
          rcases List.mem_append.mp hp with hp | hp
          · exact (h2 p hp).trans hlt
          · simp at hp; subst hp; exact hlt
        · intro p hp
          rcases List.mem_append.mp hp with hp | hp
          · exact h3 p hp
          · simp at hp; subst hp; exact h

theorem normTerms_sorted (ts : List (Nat × ℚ)) :
    ((normTerms ts).Pairwise fun a b => a.1 < b.1) ∧ (∀ p ∈ normTerms ts, p.2 ≠ 0) := by
  unfold normTerms
  have hs := sorted_fst ts
  cases e : sortBy (fun a b : Nat × ℚ => decide (a.1 < b.1)) ts with
  | nil => simp
  | cons t us =>
    rw [e] at hs
    exact normLoop_sorted List.Pairwise.nil (by simp) (by simp) hs

theorem wf_normTerms (ts : List (Nat × ℚ)) : LinStore.WfTerms (normTerms ts) := by
  obtain ⟨h1, h2⟩ := normTerms_sorted ts
  refine ⟨?_, h2⟩
  unfold List.Nodup
  rw [List.pairwise_map]
  exact h1.imp (fun h => by omega)

end DPoly
end Yaga
