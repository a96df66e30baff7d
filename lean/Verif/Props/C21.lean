/-
C21: construction of a rational from a numerator and a denominator.
-/
import Verif.Proofs.LongFractionMisc

namespace Yaga
open Spec

/-- C21 does not hold for the code. `Long_fraction(-2, 4)` denotes 2147483647/2 instead of -1/2: in
`n / common` the numerator is converted to an unsigned type first. -/
theorem C21_negative_numerator_wrong :
    LF.make (-2) 4 = some (LF.word 2147483647 2) ∧ fval (LF.word 2147483647 2) ≠ (-2 : ℚ) / 4 := by
  refine ⟨by decide, ?_⟩
  unfold fval LF.word
  norm_num

/-- C21, exactly when it holds. For a 32-bit numerator `n` and a positive 32-bit denominator `d` the
constructed object denotes `n / d` if and only if `n` is not negative or the two have no common
factor. -/
theorem C21_construct_partial (n d : Int) (h1 : -2 ^ 31 ≤ n) (h2 : n < 2 ^ 31) (h3 : 0 < d)
    (h4 : d < 2 ^ 32) :
    ∃ c, LF.make n d = some c ∧
      ((0 ≤ n ∨ Int.gcd n d = 1) → Canonical c ∧ fval c = (n : ℚ) / d) ∧
      (¬ (0 ≤ n ∨ Int.gcd n d = 1) → fval c ≠ (n : ℚ) / d) := by
  have b1 : LF.wmin ≤ n := by unfold LF.wmin; omega
  have b2 : n ≤ LF.wmax := by unfold LF.wmax; omega
  have b3 : d ≤ LF.uwmax := by unfold LF.uwmax; omega
  by_cases h0 : n = 0
  · subst h0
    obtain ⟨g1, g2⟩ := LF.word_canonical LF.low_zero
    refine ⟨LF.word 0 1, ?_, fun _ => ⟨g1, g2.trans (by simp)⟩, fun h => absurd (Or.inl le_rfl) h⟩
    unfold LF.make
    rw [if_neg (by omega), if_pos rfl]
  by_cases hc : Int.gcd n d = 1
  · have hl : LF.Low n d := ⟨b1, b2, h3, b3, hc⟩
    obtain ⟨g1, g2⟩ := LF.word_canonical hl
    exact ⟨_, LF.make_coprime hl, fun _ => ⟨g1, g2⟩, fun h => absurd (Or.inr hc) h⟩
  obtain ⟨f1, f2, f3, f4, f5, f6⟩ := LF.reduce_facts (n := n) h3
  have hgt : (Int.gcd n d : Int) > 1 := by omega
  have e : LF.gcd (LF.absW n) d = (Int.gcd n d : Int) := by
    rw [LF.absW_eq b1 b2, LF.gcd_eq (abs_nonneg _) h3.le, LF.gcd_abs]
  have hmk : LF.make n d = some (LF.word (LF.toWord (LF.toUword n / (Int.gcd n d : Int)))
      (d / (Int.gcd n d : Int))) := by
    unfold LF.make
    rw [if_neg (by omega), if_neg h0]
    simp only [e]
    rw [if_pos hgt]
  refine ⟨_, hmk, fun hh => ?_, fun hh => ?_⟩
  · have hn : 0 ≤ n := by rcases hh with h | h; exact h; exact absurd h hc
    obtain ⟨w1, w2⟩ := LF.tdiv_bounds f1 f2 (lo := LF.wmin) (hi := LF.wmax) (by decide) (by decide) b1 b2
    have et : Int.tdiv n (Int.gcd n d) = n / (Int.gcd n d : Int) := Int.tdiv_eq_ediv_of_nonneg hn
    rw [LF.toUword_id hn (by unfold LF.uwmax; omega), ← et, LF.toWord_id w1 w2]
    obtain ⟨g1, g2⟩ := LF.word_canonical (n := Int.tdiv n (Int.gcd n d)) (d := d / (Int.gcd n d : Int))
      ⟨w1, w2, f4, (LF.ediv_le f1 h3.le).trans b3, f5⟩
    exact ⟨g1, g2.trans f6⟩
  · have hn : n < 0 := by
      by_contra h
      exact hh (Or.inl (by omega))
    have hu : 2147483648 ≤ LF.toUword n ∧ LF.toUword n ≤ 4294967295 := by
      unfold LF.toUword; omega
    have hq0 : 0 ≤ LF.toUword n / (Int.gcd n d : Int) := Int.ediv_nonneg (by omega) f1.le
    have hq1 : LF.toUword n / (Int.gcd n d : Int) ≤ 2147483647 := by
      have hm := Int.ediv_mul_le (LF.toUword n) f1.ne'
      by_contra hcon
      have : 2147483648 * 2 ≤ LF.toUword n / (Int.gcd n d : Int) * (Int.gcd n d : Int) := by
        apply mul_le_mul (by omega) (by omega) (by decide) hq0
      omega
    rw [LF.toWord_id (by unfold LF.wmin; omega) (by unfold LF.wmax; omega)]
    intro he
    have hneg : (n : ℚ) / d < 0 := by
      apply div_neg_of_neg_of_pos
      · exact_mod_cast hn
      · exact_mod_cast h3
    rw [← he] at hneg
    have : 0 ≤ fval (LF.word (LF.toUword n / (Int.gcd n d : Int)) (d / (Int.gcd n d : Int))) := by
      unfold fval LF.word
      simp only [if_true]
      apply div_nonneg
      · exact_mod_cast hq0
      · exact_mod_cast f4.le
    linarith

/-- Instances of both cases. -/
example : LF.make 6 4 = some (LF.word 3 2) ∧ LF.make (-3) 4 = some (LF.word (-3) 4) := by decide

#print axioms C21_negative_numerator_wrong
#print axioms C21_construct_partial

end Yaga
