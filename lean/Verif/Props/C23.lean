/-
C23: reciprocals and remainders of rationals.
-/
import Verif.Proofs.LongFractionMisc

namespace Yaga
open Spec

/-- C23, `inverse`: the reciprocal of every rational other than zero. -/
theorem C23_inverse_exact (a : LF) (ha : Canonical a) (h0 : fval a ≠ 0) :
    ∃ c, LF.inverse a = some c ∧ Canonical c ∧ fval c = (fval a)⁻¹ := LF.inverse_exact ha h0

/-- C23 does not hold for `inv`. The denominator is cast to a signed word: the reciprocal of
1/4294967295 comes out as -1. -/
theorem C23_inv_truncates :
    LF.inv (LF.word 1 4294967295) = some (LF.word (-1) 1) ∧ Canonical (LF.word 1 4294967295) ∧
      fval (LF.word (-1) 1) ≠ (fval (LF.word 1 4294967295))⁻¹ := by
  refine ⟨by decide, (LF.word_canonical (by unfold LF.Low; decide)).1, ?_⟩
  unfold fval LF.word
  norm_num

/-- C23 does not hold for `inv` on a value in the GMP representation: the word part, which is not
valid, is read. The reciprocal of 2^31 would be a division by zero. -/
theorem C23_inv_ignores_state :
    LF.inv ⟨false, 0, 1, true, ⟨2147483648, 1⟩⟩ = none ∧
      LF.add (LF.ofWord 2147483647) (LF.ofWord 1) = some ⟨false, 0, 1, true, ⟨2147483648, 1⟩⟩ := by
  decide +kernel

/-- C23, `inv`: the reciprocal of every rational in the word representation whose denominator is a
nonnegative signed word and whose numerator is neither zero nor the least word. Missing: the other
values, on which the code is wrong. -/
theorem C23_inv_partial (a : LF) (ha : Canonical a) (hw : a.wv = true) (h0 : a.num ≠ 0)
    (h1 : a.num ≠ -2 ^ 31) (h2 : a.den < 2 ^ 31) :
    ∃ c, LF.inv a = some c ∧ Canonical c ∧ fval c = (fval a)⁻¹ := by
  have hl := LF.canonical_low ha hw
  have n1 := hl.1
  have n2 := hl.2.1
  have n3 := hl.pos
  have e1 : LF.wmin = -2147483648 := rfl
  have e2 : LF.wmax = 2147483647 := rfl
  have e3 : LF.uwmax = 4294967295 := rfl
  have hc : Int.gcd a.den a.num = 1 := by rw [Int.gcd_comm]; exact hl.2.2.2.2
  unfold LF.inv LF.sign
  rw [if_pos hw]
  by_cases hneg : a.num < 0
  · rw [if_pos hneg, if_neg (by decide)]
    unfold LF.i32
    rw [if_pos (by omega)]
    simp only
    have t1 : LF.toWord (LF.toUword (-a.den)) = -a.den := by
      unfold LF.toWord LF.toUword
      rw [Int.bmod_def]
      split <;> omega
    rw [t1, LF.toUword_id (by omega) (by omega)]
    have hl2 : LF.Low (-a.den) (-a.num) :=
      ⟨by omega, by omega, by omega, by omega, by rw [Int.neg_gcd, Int.gcd_neg]; exact hc⟩
    obtain ⟨g1, g2⟩ := LF.word_canonical hl2
    refine ⟨_, LF.make_coprime hl2, g1, g2.trans ?_⟩
    rw [LF.fval_word hw, inv_div]
    push_cast
    rw [neg_div_neg_eq]
  · rw [if_neg hneg, if_pos (by rw [if_pos (by omega)]; decide)]
    rw [LF.toWord_id (by omega) (by omega), LF.toUword_id (by omega) (by omega)]
    have hl2 : LF.Low a.den a.num := ⟨by omega, by omega, by omega, by omega, hc⟩
    obtain ⟨g1, g2⟩ := LF.word_canonical hl2
    refine ⟨_, LF.make_coprime hl2, g1, g2.trans ?_⟩
    rw [LF.fval_word hw, inv_div]

/-- C23 does not hold for `operator%`: on words it is not the floored remainder that the other path
computes. -7 % 3 is 1, the floored remainder is 2. -/
theorem C23_mod_paths_differ :
    LF.mod (LF.ofWord (-7)) (LF.ofWord 3) = some (LF.ofWord 1) ∧
      (-7 : ℚ) - (3 : ℚ) * ((⌊(-7 : ℚ) / 3⌋ : Int) : ℚ) = 2 := by
  refine ⟨by decide, ?_⟩
  have : ⌊(-7 : ℚ) / 3⌋ = -3 := by rw [Int.floor_eq_iff]; norm_num
  rw [this]
  norm_num

/-- C23, `operator%` outside of the word representation, and on words whose signs agree (or whose
remainder is zero): the floored remainder `a - d * ⌊a / d⌋`. Missing: words with opposite signs. -/
theorem C23_mod_partial (a d : LF) (ha : Canonical a) (hd : Canonical d) (ia : a.isInteger = true)
    (id : d.isInteger = true) (h0 : fval d ≠ 0)
    (hs : (a.wv = false ∨ d.wv = false) ∨ (0 ≤ fval a ∧ 0 < fval d) ∨ (fval a ≤ 0 ∧ fval d < 0 ∧
      fval d ≠ -1)) :
    ∃ c, LF.mod a d = some c ∧ Canonical c ∧
      fval c = fval a - fval d * ((⌊fval a / fval d⌋ : Int) : ℚ) := by
  unfold LF.mod
  rw [if_neg (by simp [ia, id])]
  by_cases hw : (a.wv && d.wv) = true
  · rw [if_pos hw]
    rw [Bool.and_eq_true] at hw
    have la := LF.canonical_low ha hw.1
    have ld := LF.canonical_low hd hw.2
    have da : a.den = 1 := by
      unfold LF.isInteger at ia; rw [if_pos hw.1] at ia; exact of_decide_eq_true ia
    have dd : d.den = 1 := by
      unfold LF.isInteger at id; rw [if_pos hw.2] at id; exact of_decide_eq_true id
    have va : fval a = a.num := by rw [LF.fval_word hw.1, da]; simp
    have vd : fval d = d.num := by rw [LF.fval_word hw.2, dd]; simp
    have hd0 : d.num ≠ 0 := (LF.fval_ne_zero hd h0).2 hw.2
    rw [va, vd] at hs
    have hs' : (0 ≤ a.num ∧ 0 < d.num) ∨ (a.num ≤ 0 ∧ d.num < 0 ∧ d.num ≠ -1) := by
      rcases hs with (h | h) | h | h
      · rw [hw.1] at h; cases h
      · rw [hw.2] at h; cases h
      · left; exact_mod_cast h
      · right; exact_mod_cast h
    rw [if_neg (by omega)]
    have n1 := la.1
    have n2 := la.2.1
    have m1 := ld.1
    have m2 := ld.2.1
    have e1 : LF.wmin = -2147483648 := rfl
    have e2 : LF.wmax = 2147483647 := rfl
    have hfl : ⌊fval a / fval d⌋ = Int.fdiv a.num d.num := by
      rw [va, vd]
      rw [Int.floor_eq_iff]
      have hdm := Int.mul_fdiv_add_fmod a.num d.num
      have hq : (a.num : ℚ) = d.num * (Int.fdiv a.num d.num : Int) + (Int.fmod a.num d.num : Int) := by
        exact_mod_cast hdm.symm
      have hdq : (d.num : ℚ) ≠ 0 := by exact_mod_cast hd0
      rcases hs' with ⟨-, hp⟩ | ⟨-, hp, -⟩
      · have hpq : (0 : ℚ) < d.num := by exact_mod_cast hp
        have r0 : (0 : ℚ) ≤ (Int.fmod a.num d.num : Int) := by
          exact_mod_cast Int.fmod_nonneg_of_pos _ hp
        have r1 : ((Int.fmod a.num d.num : Int) : ℚ) < d.num := by
          exact_mod_cast Int.fmod_lt_of_pos _ hp
        constructor
        · rw [le_div_iff₀ hpq]; linarith [mul_comm (d.num : ℚ) (Int.fdiv a.num d.num : Int)]
        · rw [div_lt_iff₀ hpq]; nlinarith
      · have hpq : (d.num : ℚ) < 0 := by exact_mod_cast hp
        have hneg := Int.neg_fmod_neg a.num d.num
        have q0 : 0 ≤ Int.fmod (-a.num) (-d.num) := Int.fmod_nonneg_of_pos _ (by omega)
        have q1 : Int.fmod (-a.num) (-d.num) < -d.num := Int.fmod_lt_of_pos _ (by omega)
        rw [Int.neg_fmod_neg] at q0 q1
        have r0 : ((Int.fmod a.num d.num : Int) : ℚ) ≤ 0 := by
          exact_mod_cast (by omega : Int.fmod a.num d.num ≤ 0)
        have r1 : (d.num : ℚ) < (Int.fmod a.num d.num : Int) := by
          exact_mod_cast (by omega : d.num < Int.fmod a.num d.num)
        constructor
        · rw [le_div_iff_of_neg hpq]; linarith [mul_comm (d.num : ℚ) (Int.fdiv a.num d.num : Int)]
        · rw [div_lt_iff_of_neg hpq]; nlinarith
    have hval : (a.num : ℚ) - d.num * ((Int.fdiv a.num d.num : Int) : ℚ) = (Int.fmod a.num d.num : Int) := by
      have hdm := Int.mul_fdiv_add_fmod a.num d.num
      have hq : (a.num : ℚ) = d.num * (Int.fdiv a.num d.num : Int) + (Int.fmod a.num d.num : Int) := by
        exact_mod_cast hdm.symm
      linarith
    rw [hfl, va, vd, hval]
    rcases hs' with ⟨hp1, hp2⟩ | ⟨hp1, hp2, -⟩
    · have ht : Int.tmod a.num d.num = Int.fmod a.num d.num := by
        rw [Int.tmod_eq_emod_of_nonneg hp1, Int.fmod_eq_emod_of_nonneg _ hp2.le]
      have r0 := Int.fmod_nonneg_of_pos a.num hp2
      have r1 := Int.fmod_lt_of_pos a.num hp2
      rw [ht, LF.absW_eq (by omega) (by omega), abs_of_nonneg r0]
      simp only [if_pos hp2]
      rw [LF.toWord_id (by omega) (by omega)]
      obtain ⟨g1, g2⟩ := LF.ofWord_canonical (z := Int.fmod a.num d.num) (by omega) (by omega)
      exact ⟨_, rfl, g1, g2⟩
    · have ht : Int.tmod a.num d.num = Int.fmod a.num d.num := by
        have h1 : Int.tmod (-a.num) (-d.num) = Int.fmod (-a.num) (-d.num) := by
          rw [Int.tmod_eq_emod_of_nonneg (by omega), Int.fmod_eq_emod_of_nonneg _ (by omega)]
        rw [Int.neg_fmod_neg, Int.tmod_neg, Int.neg_tmod] at h1
        omega
      have q0 : 0 ≤ Int.fmod (-a.num) (-d.num) := Int.fmod_nonneg_of_pos _ (by omega)
      have q1 : Int.fmod (-a.num) (-d.num) < -d.num := Int.fmod_lt_of_pos _ (by omega)
      rw [Int.neg_fmod_neg] at q0 q1
      rw [ht, LF.absW_eq (by omega) (by omega), abs_of_nonpos (by omega)]
      simp only [if_neg (by omega : ¬ d.num > 0), neg_neg]
      have t1 : LF.toWord (LF.toUword (Int.fmod a.num d.num)) = Int.fmod a.num d.num := by
        unfold LF.toWord LF.toUword
        rw [Int.bmod_def]
        split <;> omega
      rw [t1]
      obtain ⟨g1, g2⟩ := LF.ofWord_canonical (z := Int.fmod a.num d.num) (by omega) (by omega)
      exact ⟨_, rfl, g1, g2⟩
  · rw [if_neg hw]
    obtain ⟨r, r1, r2, r3⟩ := LF.div_exact ha hd h0
    obtain ⟨f, f1, f2, f3⟩ := LF.floor_exact r2
    obtain ⟨m, m1, m2, m3⟩ := LF.mul_exact f2 hd
    obtain ⟨c, c1, c2, c3⟩ := LF.sub_exact ha m2
    refine ⟨c, ?_, c2, ?_⟩
    · rw [r1]
      show (LF.floor r).bind _ = _
      rw [f1]
      show (LF.mul f d).bind _ = _
      rw [m1]
      exact c1
    · rw [c3, m3, f3, r3, mul_comm]

/-- Instances. -/
example : LF.inverse (LF.word (-2) 3) = some (LF.word (-3) 2) ∧
    LF.inv (LF.word (-2) 3) = some (LF.word (-3) 2) ∧
    LF.mod (LF.ofWord (-7)) (LF.ofWord (-3)) = some (LF.ofWord (-1)) ∧
    LF.mod (LF.ofWord 7) (LF.ofWord 3) = some (LF.ofWord 1) := by decide

/-- A value in the GMP representation meets the hypotheses of `C23_mod_partial` with any word. -/
example : Canonical ⟨false, 0, 1, true, ⟨-2147483649, 1⟩⟩ ∧
    LF.isInteger ⟨false, 0, 1, true, ⟨-2147483649, 1⟩⟩ = true :=
  ⟨{ valid := Or.inr rfl
     word := fun h => by cases h
     mpq := fun _ => ⟨by decide, by decide⟩
     same := fun h => by cases h
     big := fun _ => by unfold Fits; decide }, by decide⟩

#print axioms C23_inverse_exact
#print axioms C23_inv_truncates
#print axioms C23_inv_ignores_state
#print axioms C23_inv_partial
#print axioms C23_mod_paths_differ
#print axioms C23_mod_partial

end Yaga
