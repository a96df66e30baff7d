import Verif.Model.Restart
import Verif.Spec.Luby
import Mathlib.Tactic.Ring
import Mathlib.Algebra.Order.Ring.Nat

namespace Yaga
open Spec

theorem and_succ_eq_zero (n : Nat) : n &&& (n + 1) = 0 ↔ ∃ k, n + 1 = 2 ^ k := by
  induction n using Nat.strongRecOn with
  | ind n ih =>
    rcases Nat.even_or_odd' n with ⟨m, rfl | rfl⟩
    · -- n = 2m
      constructor
      · intro h
        have hm : m = 0 := by
          have h1 : (2 * m &&& (2 * m + 1)) / 2 = m := by
            rw [← Nat.shiftRight_one, Nat.shiftRight_and_distrib]
            simp only [Nat.shiftRight_one]
            rw [show 2 * m / 2 = m by omega, show (2 * m + 1) / 2 = m by omega, Nat.and_self]
          rw [h] at h1; omega
        exact ⟨0, by omega⟩
      · rintro ⟨k, hk⟩
        rcases k with _ | k
        · have : m = 0 := by simpa using hk
          subst this; simp
        · rw [pow_succ] at hk; omega
    · -- n = 2m + 1
      have key : (2 * m + 1 &&& (2 * m + 1 + 1)) = 2 * (m &&& (m + 1)) := by
        have h1 : (2 * m + 1 &&& (2 * m + 1 + 1)) / 2 = (m &&& (m + 1)) := by
          rw [← Nat.shiftRight_one, Nat.shiftRight_and_distrib]
          simp only [Nat.shiftRight_one]
          rw [show (2 * m + 1) / 2 = m by omega, show (2 * m + 1 + 1) / 2 = m + 1 by omega]
        have h2 : (2 * m + 1 &&& (2 * m + 1 + 1)) % 2 = 0 := by
          have h3 := Nat.and_mod_two_pow (a := 2 * m + 1) (b := 2 * m + 1 + 1) (n := 1)
          rw [pow_one, show (2 * m + 1) % 2 = 1 by omega,
            show (2 * m + 1 + 1) % 2 = 0 by omega] at h3
          simpa using h3
        omega
      rw [key]
      constructor
      · intro h
        obtain ⟨k, hk⟩ := (ih m (by omega)).1 (by omega)
        exact ⟨k + 1, by rw [pow_succ]; omega⟩
      · rintro ⟨k, hk⟩
        rcases k with _ | k
        · simp at hk
        · have := (ih m (by omega)).2 ⟨k, by rw [pow_succ] at hk; omega⟩
          omega

/-- The inner loop stops at the largest `2^j - 1` below the index. -/
theorem lubyMask_spec (fuel j index : Nat) (hi : 0 < index) (hf : j < fuel) :
    ∃ j', j' ≤ j ∧ lubyMask fuel (2 ^ j - 1) index = some (2 ^ j' - 1) ∧ 2 ^ j' - 1 < index ∧
      (2 ^ j - 1 < index → j' = j) ∧ (index ≤ 2 ^ j - 1 → index ≤ 2 ^ (j' + 1) - 1) := by
  induction fuel generalizing j with
  | zero => omega
  | succ fuel ih =>
    unfold lubyMask
    by_cases h : 2 ^ j - 1 ≥ index
    · rw [if_pos h]
      rcases j with _ | j
      · simp at h; omega
      · have hs : (2 ^ (j + 1) - 1) >>> 1 = 2 ^ j - 1 := by
          rw [Nat.shiftRight_one, pow_succ]
          have : 0 < 2 ^ j := Nat.two_pow_pos j
          omega
        rw [hs]
        obtain ⟨j', h1, h2, h3, h4, h5⟩ := ih j (by omega)
        refine ⟨j', by omega, h2, h3, fun hc => by omega, fun _ => ?_⟩
        by_cases hc : 2 ^ j - 1 < index
        · rw [h4 hc]; exact h
        · exact h5 (by omega)
    · rw [if_neg h]
      exact ⟨j, le_refl _, rfl, by omega, fun _ => rfl, fun hc => by omega⟩

theorem lubyLoop_spec (fuel j index : Nat) (hi : 0 < index) (hj : j ≤ 32)
    (hle : index ≤ 2 ^ j - 1) (hw : index < W32 - 1) (hf : j < fuel) :
    ∃ v, lubyLoop fuel (2 ^ j - 1) index = some v ∧ IsLuby index v := by
  induction fuel generalizing j index with
  | zero => omega
  | succ fuel ih =>
    have hmod : (index + 1) % W32 = index + 1 := Nat.mod_eq_of_lt (by omega)
    unfold lubyLoop
    rw [hmod]
    by_cases hz : index &&& (index + 1) = 0
    · rw [if_pos hz]
      refine ⟨_, rfl, ?_⟩
      obtain ⟨k, hk⟩ := (and_succ_eq_zero index).1 hz
      rcases k with _ | k
      · simp at hk; omega
      · have : index = 2 ^ (k + 1) - 1 := by omega
        subst this
        have hp : 0 < 2 ^ k := Nat.two_pow_pos k
        have : (2 ^ (k + 1) - 1 + 1) >>> 1 = 2 ^ k := by
          rw [Nat.shiftRight_one, pow_succ]; omega
        rw [this]
        exact IsLuby.last k
    · rw [if_neg hz]
      obtain ⟨j', h1, h2, h3, -, h5⟩ := lubyMask_spec 34 j index hi (by omega)
      rw [h2]
      have h6 := h5 hle
      have hp : 0 < 2 ^ j' := Nat.two_pow_pos j'
      have hne1 : index ≠ 2 ^ (j' + 1) - 1 := by
        intro e
        exact hz ((and_succ_eq_zero index).2 ⟨j' + 1, by
          have : 0 < 2 ^ (j' + 1) := Nat.two_pow_pos _
          omega⟩)
      have h7 : index + 1 < 2 ^ (j' + 1) := by
        have : 0 < 2 ^ (j' + 1) := Nat.two_pow_pos _
        omega
      have h8 : 2 ^ j' ≤ index := by omega
      have hjj : j' < j := by
        by_contra hc
        have he : j' = j := by omega
        subst he
        omega
      have hsub : (index + W32 - (2 ^ j' - 1)) % W32 = index - 2 ^ j' + 1 := by
        rw [show index + W32 - (2 ^ j' - 1) = (index - 2 ^ j' + 1) + W32 by omega,
          Nat.add_mod_right, Nat.mod_eq_of_lt (by omega)]
      simp only [hsub]
      have h9 : index - 2 ^ j' + 1 ≤ 2 ^ j' - 1 := by rw [pow_succ] at h7; omega
      obtain ⟨v, hv, hl⟩ := ih j' (index - 2 ^ j' + 1) (by omega) (by omega) h9 (by omega) (by omega)
      exact ⟨v, hv, IsLuby.repeated j' index v h8 (by omega) hl⟩

theorem luby_spec (index : Nat) (hi : 0 < index) (hw : index < 2 ^ 32 - 1) :
    ∃ v, luby index = some v ∧ IsLuby index v :=
  lubyLoop_spec 34 32 index hi (by omega) (by omega) (by unfold W32; omega) (by omega)

/-- The value is at most half of index + 1. -/
theorem IsLuby.le {i n : Nat} (h : IsLuby i n) : 2 * n ≤ i + 1 := by
  induction h with
  | last k => rw [pow_succ]; have := Nat.two_pow_pos k; omega
  | repeated k i n h1 h2 _ ih =>
    have := Nat.two_pow_pos k
    omega

end Yaga

namespace Yaga.Spec

theorem IsLuby.pow {i n : Nat} (h : IsLuby i n) : ∃ k, n = 2 ^ k ∧ 2 ^ (k + 1) - 1 ≤ i := by
  induction h with
  | last k => exact ⟨k, rfl, le_refl _⟩
  | repeated k i n h1 h2 _ ih =>
    obtain ⟨k', h3, h4⟩ := ih
    have := Nat.two_pow_pos k
    exact ⟨k', h3, by omega⟩

theorem pow_bracket {k k' i : Nat} (h1 : 2 ^ k ≤ i) (h2 : i < 2 ^ (k + 1)) (h3 : 2 ^ k' ≤ i)
    (h4 : i < 2 ^ (k' + 1)) : k = k' := by
  have h5 : 2 ^ k < 2 ^ (k' + 1) := by omega
  have h6 : 2 ^ k' < 2 ^ (k + 1) := by omega
  have h7 := (Nat.pow_lt_pow_iff_right (a := 2) (by omega)).1 h5
  have h8 := (Nat.pow_lt_pow_iff_right (a := 2) (by omega)).1 h6
  omega

theorem IsLuby.unique {i a b : Nat} (ha : IsLuby i a) (hb : IsLuby i b) : a = b := by
  induction ha generalizing b with
  | last k =>
    generalize hi : 2 ^ (k + 1) - 1 = i at hb
    cases hb with
    | last k' =>
      have h1 := Nat.two_pow_pos (k + 1)
      have h2 := Nat.two_pow_pos (k' + 1)
      have h3 : 2 ^ (k + 1) = 2 ^ (k' + 1) := by omega
      have := Nat.pow_right_injective (le_refl 2) h3
      have : k = k' := by omega
      rw [this]
    | repeated k' _ _ h1 h2 _ =>
      exfalso
      have hp := Nat.two_pow_pos (k + 1)
      have hk := Nat.two_pow_pos k'
      have h3 : 2 ^ k' < 2 ^ (k + 1) := by omega
      have h4 : 2 ^ (k + 1) < 2 ^ (k' + 1) := by omega
      have h5 := (Nat.pow_lt_pow_iff_right (a := 2) (by omega)).1 h3
      have h6 := (Nat.pow_lt_pow_iff_right (a := 2) (by omega)).1 h4
      omega
  | repeated k i n h1 h2 _ ih =>
    generalize hi : i = i' at hb
    cases hb with
    | last k' =>
      exfalso
      subst hi
      have hp := Nat.two_pow_pos (k' + 1)
      have hk := Nat.two_pow_pos k
      have h3 : 2 ^ k < 2 ^ (k' + 1) := by omega
      have h4 : 2 ^ (k' + 1) < 2 ^ (k + 1) := by omega
      have h5 := (Nat.pow_lt_pow_iff_right (a := 2) (by omega)).1 h3
      have h6 := (Nat.pow_lt_pow_iff_right (a := 2) (by omega)).1 h4
      omega
    | repeated k' _ _ h3 h4 h5 =>
      subst hi
      have : k = k' := pow_bracket h1 (by omega) h3 (by omega)
      subst this
      exact ih h5

end Yaga.Spec
