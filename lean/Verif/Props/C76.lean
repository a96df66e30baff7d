/-
C76: the integer operations on rationals.
-/
import Verif.Proofs.FractionInt

namespace Yaga
open Spec

/-- C76, numerator and denominator in lowest terms. -/
theorem C76_num_den (a : LF) (h : Canonical a) :
    (Canonical a.getNum ∧ fval a.getNum = (fval a).num) ∧ (Canonical a.getDen ∧ fval a.getDen = (fval a).den) := by
  obtain ⟨n1, n2⟩ := LF.getNum_exact h
  obtain ⟨d1, d2⟩ := LF.getDen_exact h
  exact ⟨⟨n1, n2⟩, d1, by rw [d2]; push_cast; rfl⟩

/-- C76, quotient: dividing an integer by an integer different from 0 gives the largest integer that is not above the
exact quotient, without undefined behaviour. -/
theorem C76_fdiv (n d : LF) (hn : Canonical n) (hd : Canonical d) (x y : Int) (en : fval n = x) (ed : fval d = y)
    (h0 : y ≠ 0) :
    ∃ (c : LF) (q : Int), LF.fdivQ n d = some c ∧ Canonical c ∧ fval c = q ∧ (q : ℚ) ≤ (x : ℚ) / y ∧
      ∀ z : Int, (z : ℚ) ≤ (x : ℚ) / y → z ≤ q := by
  obtain ⟨c, c1, c2, c3⟩ := LF.fdivQ_exact hn hd en ed h0
  exact ⟨c, _, c1, c2, c3, Int.floor_le _, fun z hz => Int.le_floor.2 hz⟩

/-- C76, rounding: the result is the integer nearest to the number, the upper one if there are two. -/
theorem C76_round (n : LF) (hn : Canonical n) :
    ∃ (c : LF) (z : Int), LF.roundToInt n = some c ∧ Canonical c ∧ fval c = z ∧
      (z : ℚ) - 1 / 2 ≤ fval n ∧ fval n < (z : ℚ) + 1 / 2 := by
  obtain ⟨c, c1, c2, c3⟩ := LF.roundToInt_exact hn
  refine ⟨c, _, c1, c2, c3, ?_, ?_⟩
  · have := Int.floor_le (fval n + 1 / 2)
    linarith
  · have := Int.lt_floor_add_one (fval n + 1 / 2)
    linarith

/-- C76, absolute value. -/
theorem C76_abs (a : LF) (h : Canonical a) : ∃ c, LF.absLF a = some c ∧ Canonical c ∧ fval c = |fval a| :=
  LF.absLF_exact h

/-- C76, comparison of absolute values. -/
theorem C76_cmpabs (a b : LF) (ha : Canonical a) (hb : Canonical b) :
    ∃ i, LF.cmpAbs a b = some i ∧ (i = -1 ↔ |fval a| < |fval b|) ∧ (i = 1 ↔ |fval a| > |fval b|) ∧
      (i = 0 ↔ |fval a| = |fval b|) := by
  refine ⟨_, LF.cmpAbs_exact ha hb, ?_⟩
  rcases lt_trichotomy |fval a| |fval b| with h | h | h
  · rw [if_pos h]
    exact ⟨by simp [h], by simpa using h.le, by simpa using h.ne⟩
  · rw [if_neg h.not_lt, if_neg h.not_gt]
    exact ⟨by simp [h], by simp [h], by simp [h]⟩
  · rw [if_neg h.not_gt, if_pos h]
    exact ⟨by simpa using h.le, by simpa using h, by simpa using h.ne'⟩

/-- C76, exact division. It fails for the single pair of the least word and -1. -/
theorem C76_divexact_partial (n d : LF) (hn : Canonical n) (hd : Canonical d) (x y : Int) (en : fval n = x)
    (ed : fval d = y) (h0 : y ≠ 0) (hdvd : y ∣ x) (h1 : ¬(x = -2 ^ 31 ∧ y = -1)) :
    ∃ c, LF.divExact n d = some c ∧ Canonical c ∧ fval c = (x : ℚ) / y :=
  LF.divExact_exact hn hd en ed h0 hdvd h1

/-- C76, greatest common divisor. It has the right absolute value, and the right sign if the arguments are not negative;
the least word together with -1 is excluded. -/
theorem C76_gcd_partial (a b : LF) (ha : Canonical a) (hb : Canonical b) (x y : Int) (ea : fval a = x) (eb : fval b = y)
    (h1 : ¬(x = -2 ^ 31 ∧ y = -1)) (h2 : ¬(y = -2 ^ 31 ∧ x = -1)) :
    ∃ (c : LF) (g : Int), LF.gcdLF a b = some c ∧ Canonical c ∧ fval c = g ∧
      (∀ k : Int, k ∣ g ↔ k ∣ x ∧ k ∣ y) ∧ (0 ≤ x → 0 ≤ y → 0 ≤ g) := by
  obtain ⟨c, g, c1, c2, c3, c4, c5⟩ := LF.gcdLF_eq ha hb ea eb h1 h2
  refine ⟨c, g, c1, c2, c3, fun k => ?_, c5⟩
  rw [← Int.dvd_natAbs, c4]
  exact Int.dvd_coe_gcd_iff

/-- C76, least common multiple, with the same restrictions. -/
theorem C76_lcm_partial (a b : LF) (ha : Canonical a) (hb : Canonical b) (x y : Int) (ea : fval a = x) (eb : fval b = y)
    (h1 : ¬(x = -2 ^ 31 ∧ y = -1)) (h2 : ¬(y = -2 ^ 31 ∧ x = -1)) :
    ∃ (c : LF) (l : Int), LF.lcmLF a b = some c ∧ Canonical c ∧ fval c = l ∧
      (∀ k : Int, l ∣ k ↔ x ∣ k ∧ y ∣ k) ∧ (0 ≤ x → 0 ≤ y → 0 ≤ l) := by
  obtain ⟨c, l, c1, c2, c3, c4, c5⟩ := LF.lcmLF_eq ha hb ea eb h1 h2
  refine ⟨c, l, c1, c2, c3, fun k => ?_, c5⟩
  rw [← Int.natAbs_dvd, c4]
  exact Int.coe_lcm_dvd_iff

/-- C76 does not hold for all arguments. The greatest common divisor of two negative words is negative, that of a
negative and a large number is positive; for the least word and -1 the remainder, and the exact quotient, are undefined
behaviour. -/
theorem C76_false :
    LF.gcdLF (LF.ofWord (-4)) (LF.ofWord (-6)) = some (LF.ofWord (-2)) ∧
    LF.lcmLF (LF.ofWord (-4)) (LF.ofWord (-6)) = some (LF.ofWord (-12)) ∧
    LF.gcdLF (LF.ofWord (-4)) (LF.ofMpz (-2 ^ 40)) = some (LF.ofWord 4) ∧
    LF.gcdLF (LF.ofWord (-2 ^ 31)) (LF.ofWord (-1)) = none ∧
    LF.divExact (LF.ofWord (-2 ^ 31)) (LF.ofWord (-1)) = none := by
  decide +kernel

/-- Instances: words and numbers beyond them. -/
example : LF.fdivQ (LF.ofWord (-7)) (LF.ofWord 2) = some (LF.ofWord (-4)) ∧
    LF.fdivQ (LF.ofWord 7) (LF.ofWord (-2)) = some (LF.ofWord (-4)) ∧
    LF.fdivQ (LF.ofWord (-2 ^ 31)) (LF.ofWord (-1)) = some (LF.ofMpz (2 ^ 31)) ∧
    LF.roundToInt (LF.word (-3) 2) = some (LF.ofWord (-1)) ∧
    LF.roundToInt (LF.word 7 4) = some (LF.ofWord 2) ∧
    LF.lcmLF (LF.ofWord 2147483647) (LF.ofWord 2) = some (⟨false, 0, 1, true, ⟨4294967294, 1⟩⟩) ∧
    LF.divExact (LF.ofWord (-12)) (LF.ofWord 4) = some (LF.ofWord (-3)) ∧
    LF.cmpAbs (LF.ofWord (-3)) (LF.ofWord 2) = some 1 ∧
    LF.absLF (LF.ofWord (-3)) = some (LF.ofWord 3) ∧
    LF.getDen (LF.word 1 4294967295) = LF.ofMpz 4294967295 := by
  decide +kernel

#print axioms C76_num_den
#print axioms C76_fdiv
#print axioms C76_round
#print axioms C76_abs
#print axioms C76_cmpabs
#print axioms C76_divexact_partial
#print axioms C76_gcd_partial
#print axioms C76_lcm_partial
#print axioms C76_false

end Yaga
