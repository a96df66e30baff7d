import Verif.Spec.Fraction
import Mathlib.Tactic.Linarith
import Mathlib.Tactic.FieldSimp
import Mathlib.Tactic.Ring
import Mathlib.Tactic.NormNum
import Mathlib.Tactic.Positivity
import Mathlib.RingTheory.Coprime.Basic
import Mathlib.RingTheory.Int.Basic

set_option linter.unusedVariables false

namespace Yaga
open Spec
namespace LF

/-! ### Machine arithmetic -/

theorem toLword_id {x : Int} (h1 : lmin ≤ x) (h2 : x ≤ lmax) : toLword x = x := by
  unfold toLword lmin lmax at *
  rw [Int.bmod_eq_of_le] <;> omega

theorem toWord_id {x : Int} (h1 : wmin ≤ x) (h2 : x ≤ wmax) : toWord x = x := by
  unfold toWord wmin wmax at *
  rw [Int.bmod_eq_of_le] <;> omega

theorem toUword_id {x : Int} (h1 : 0 ≤ x) (h2 : x ≤ uwmax) : toUword x = x := by
  unfold toUword uwmax at *
  omega

theorem toUlword_id {x : Int} (h1 : 0 ≤ x) (h2 : x < 18446744073709551616) : toUlword x = x := by
  unfold toUlword at *
  omega

theorem absW_eq {x : Int} (h1 : wmin ≤ x) (h2 : x ≤ wmax) : absW x = |x| := by
  unfold absW toUword wmin wmax at *
  split
  · rw [abs_of_neg (by assumption)]; omega
  · rw [abs_of_nonneg (by omega)]; omega

theorem absL_eq {x : Int} (h1 : lmin ≤ x) (h2 : x ≤ lmax) : absL x = |x| := by
  unfold absL toUlword lmin lmax at *
  split
  · rw [abs_of_neg (by assumption)]; omega
  · rw [abs_of_nonneg (by omega)]; omega

theorem i64_bind {β : Type} {x : Int} (h1 : lmin ≤ x) (h2 : x ≤ lmax) (f : Int → R β) :
    (i64 x >>= f) = f x := by
  unfold i64
  rw [if_pos ⟨h1, h2⟩]
  rfl

/-! ### Greatest common divisors -/

theorem gcdLoop_eq : ∀ (fuel : Nat) (a b : Int), 0 ≤ a → 0 < b → b.natAbs < fuel →
    gcdLoop fuel a b = some (Int.gcd a b : Int)
  | 0, a, b, _, _, h => by omega
  | fuel + 1, a, b, ha, hb, h => by
    have hmod : Int.tmod a b = a % b := Int.tmod_eq_emod_of_nonneg ha
    have hg : Int.gcd b (a % b) = Int.gcd a b := by
      rw [Int.gcd_comm b (a % b), Int.gcd_emod]
    unfold gcdLoop
    simp only [hmod]
    split
    · rename_i hr
      rw [hr, Int.gcd_zero_right] at hg
      rw [← hg]
      simp [abs_of_pos hb]
    · rename_i hr
      have h1 : 0 ≤ a % b := Int.emod_nonneg a (by omega)
      have h2 : a % b < b := Int.emod_lt_of_pos a hb
      rw [gcdLoop_eq fuel b (a % b) (by omega) (by omega) (by omega), hg]

theorem gcd_eq {a b : Int} (ha : 0 ≤ a) (hb : 0 ≤ b) : gcd a b = (Int.gcd a b : Int) := by
  unfold gcd
  split
  · rename_i h; subst h; simp [abs_of_nonneg hb]
  · split
    · rename_i h; subst h; simp [abs_of_nonneg ha]
    · split
      · rw [gcdLoop_eq _ _ _ (by omega) (by omega) (by omega), Int.gcd_comm]; rfl
      · rw [gcdLoop_eq _ _ _ (by omega) (by omega) (by omega)]; rfl

/-! ### Fast paths -/

/-- A word pair in canonical form. -/
def Low (n d : Int) : Prop := wmin ≤ n ∧ n ≤ wmax ∧ 0 < d ∧ d ≤ uwmax ∧ Int.gcd n d = 1

/-- A fast path computes `v` exactly, or gives up. -/
def FastOk (v : ℚ) : R (Int × Int) → Prop
  | .ok p => Low p.1 p.2 ∧ (p.1 : ℚ) / (p.2 : ℚ) = v
  | .ovf => True
  | .ub => False

theorem fast_checkWord {v : ℚ} {x : Int} {f : Int → R (Int × Int)} (h1 : lmin ≤ x) (h2 : x ≤ lmax)
    (h : wmin ≤ x → x ≤ wmax → FastOk v (f x)) : FastOk v (checkWord x >>= f) := by
  unfold checkWord
  simp only [toLword_id h1 h2]
  split
  · trivial
  · exact h (by omega) (by omega)

theorem fast_checkUword {v : ℚ} {x : Int} {f : Int → R (Int × Int)} (h1 : 1 ≤ x)
    (h2 : x < 18446744073709551616) (h : x ≤ uwmax → FastOk v (f x)) :
    FastOk v (checkUword x >>= f) := by
  unfold checkUword
  rw [if_neg (by omega)]
  simp only [toUlword_id (by omega : 0 ≤ x) h2]
  split
  · trivial
  · exact h (by omega)

theorem fast_pure {v : ℚ} {n d : Int} (h : Low n d) (e : (n : ℚ) / (d : ℚ) = v) :
    FastOk v (pure (n, d)) := ⟨h, e⟩

theorem fast_checkSum {v : ℚ} {x y : Int} {f : Int → R (Int × Int)}
    (h : lmin ≤ x + y → x + y ≤ lmax → FastOk v (f (x + y)))
    (hx : lmin ≤ x ∧ x ≤ lmax) (hy : lmin ≤ y ∧ y ≤ lmax) :
    FastOk v (checkSum x y >>= f) := by
  unfold checkSum
  by_cases c1 : x > 0 ∧ y > lmax - x
  · rw [if_pos c1]; trivial
  · rw [if_neg c1]
    by_cases c2 : x < 0 ∧ y < lmin - x
    · rw [if_pos c2]; trivial
    · rw [if_neg c2, i64_bind (by omega) (by omega)]
      exact h (by omega) (by omega)

theorem fast_checkSub {v : ℚ} {x y : Int} {f : Int → R (Int × Int)}
    (h : lmin ≤ x - y → x - y ≤ lmax → FastOk v (f (x - y)))
    (hx : lmin ≤ x ∧ x ≤ lmax) (hy : lmin ≤ y ∧ y ≤ lmax) :
    FastOk v (checkSub x y >>= f) := by
  unfold checkSub
  by_cases c1 : x ≥ 0 ∧ y < x - lmax
  · rw [if_pos c1]; trivial
  · rw [if_neg c1]
    by_cases c2 : x < 0 ∧ y > (x + 1) + lmax
    · rw [if_pos c2]; trivial
    · have e : lmin = -lmax - 1 := by decide
      rw [if_neg c2, i64_bind (by omega) (by omega)]
      exact h (by omega) (by omega)

/-- Reducing by the greatest common divisor. -/
theorem reduce_facts {n d : Int} (hd : 0 < d) :
    0 < (Int.gcd n d : Int) ∧ Int.tdiv n (Int.gcd n d) * (Int.gcd n d : Int) = n ∧
      d / (Int.gcd n d) * (Int.gcd n d : Int) = d ∧ 0 < d / (Int.gcd n d : Int) ∧
      Int.gcd (Int.tdiv n (Int.gcd n d)) (d / (Int.gcd n d)) = 1 ∧
      ((Int.tdiv n (Int.gcd n d) : Int) : ℚ) / ((d / (Int.gcd n d) : Int) : ℚ) = (n : ℚ) / (d : ℚ) := by
  have hg : 0 < Int.gcd n d := Int.gcd_pos_of_ne_zero_right _ (by omega)
  have e1 : Int.tdiv n (Int.gcd n d) * (Int.gcd n d : Int) = n :=
    Int.tdiv_mul_cancel (Int.gcd_dvd_left ..)
  have e2 : d / (Int.gcd n d) * (Int.gcd n d : Int) = d := Int.ediv_mul_cancel (Int.gcd_dvd_right ..)
  have hg' : (0 : Int) < (Int.gcd n d : Int) := by exact_mod_cast hg
  have e3 : 0 < d / (Int.gcd n d : Int) := by
    by_contra hcon
    have : d / (Int.gcd n d : Int) * (Int.gcd n d : Int) ≤ 0 :=
      mul_nonpos_of_nonpos_of_nonneg (by omega) hg'.le
    omega
  have e4 : Int.tdiv n (Int.gcd n d) = n / (Int.gcd n d) :=
    Int.tdiv_eq_ediv_of_dvd (Int.gcd_dvd_left ..)
  refine ⟨hg', e1, e2, e3, ?_, ?_⟩
  · rw [e4]; exact Int.gcd_ediv_gcd_ediv_gcd hg
  · generalize hN : Int.tdiv n (Int.gcd n d) = N at *
    generalize hD : d / (Int.gcd n d : Int) = D at *
    generalize hG : (Int.gcd n d : Int) = G at *
    have q1 : (n : ℚ) = N * G := by rw [← e1]; push_cast; ring
    have q2 : (d : ℚ) = D * G := by rw [← e2]; push_cast; ring
    have hD0 : (D : ℚ) ≠ 0 := by exact_mod_cast e3.ne'
    have hG0 : (G : ℚ) ≠ 0 := by exact_mod_cast hg'.ne'
    rw [q1, q2]
    field_simp

theorem tdiv_bounds {n g : Int} (hg : 0 < g) (e : Int.tdiv n g * g = n) {lo hi : Int} (hlo : lo ≤ 0)
    (hhi : 0 ≤ hi) (h1 : lo ≤ n) (h2 : n ≤ hi) : lo ≤ Int.tdiv n g ∧ Int.tdiv n g ≤ hi := by
  constructor
  · by_contra hc
    have h3 : Int.tdiv n g < 0 := by omega
    nlinarith
  · by_contra hc
    have h3 : 0 < Int.tdiv n g := by omega
    nlinarith

theorem ediv_le {d g : Int} (hg : 0 < g) (hd : 0 ≤ d) : d / g ≤ d := Int.ediv_le_self g hd

theorem gcd_abs {n d : Int} : Int.gcd |n| d = Int.gcd n d := by
  rcases abs_choice n with h | h <;> rw [h]
  exact Int.neg_gcd

theorem fast_reduced {v : ℚ} {n d : Int} (h1 : lmin ≤ n) (h2 : n ≤ lmax) (hd : 0 < d)
    (hd2 : d < 18446744073709551616) (e : (n : ℚ) / (d : ℚ) = v) :
    FastOk v (do
      let zn ← checkWord (Int.tdiv n (Int.gcd n d))
      let zd ← checkUword (d / (Int.gcd n d))
      pure (zn, zd)) := by
  obtain ⟨f1, f2, f3, f4, f5, f6⟩ := reduce_facts (n := n) hd
  obtain ⟨b1, b2⟩ := tdiv_bounds f1 f2 (lo := lmin) (hi := lmax) (by decide) (by decide) h1 h2
  have b3 := ediv_le f1 hd.le
  refine fast_checkWord b1 b2 fun w1 w2 => fast_checkUword (by omega) (by omega) fun u => ?_
  exact fast_pure ⟨w1, w2, f4, u, f5⟩ (f6.trans e)

theorem fast_reduced_one {v : ℚ} {n d : Int} (h1 : lmin ≤ n) (h2 : n ≤ lmax) (hd : 0 < d)
    (hd2 : d < 18446744073709551616) (hg : Int.gcd n d = 1) (e : (n : ℚ) / (d : ℚ) = v) :
    FastOk v (do
      let zn ← checkWord n
      let zd ← checkUword d
      pure (zn, zd)) :=
  fast_checkWord h1 h2 fun w1 w2 => fast_checkUword (by omega) (by omega) fun u =>
    fast_pure ⟨w1, w2, hd, u, hg⟩ e

theorem gcd_absL {n d : Int} (h1 : lmin ≤ n) (h2 : n ≤ lmax) (hd : 0 < d) :
    gcd (absL n) d = (Int.gcd n d : Int) := by
  rw [absL_eq h1 h2, gcd_eq (abs_nonneg _) hd.le, gcd_abs]

theorem fast_reduceW {v : ℚ} {n d : Int} (h1 : lmin ≤ n) (h2 : n ≤ lmax) (hd : 0 < d)
    (hd2 : d < 18446744073709551616) (hg : (Int.gcd n d : Int) ≤ uwmax)
    (e : (n : ℚ) / (d : ℚ) = v) : FastOk v (reduceW n d) := by
  obtain ⟨f1, -⟩ := reduce_facts (n := n) hd
  unfold reduceW
  simp only [gcd_absL h1 h2 hd, toUword_id f1.le hg]
  by_cases c : (Int.gcd n d : Int) ≠ 1
  · rw [if_pos c, if_neg (by omega)]
    exact fast_reduced h1 h2 hd hd2 e
  · rw [if_neg c]
    exact fast_reduced_one h1 h2 hd hd2 (by omega) e

theorem fast_reduceA {v : ℚ} {n d : Int} {toC : Int → Int} (h1 : lmin ≤ n) (h2 : n ≤ lmax)
    (hd : 0 < d) (hd2 : d < 18446744073709551616) (hg : toC (Int.gcd n d) = Int.gcd n d)
    (e : (n : ℚ) / (d : ℚ) = v) : FastOk v (reduceA toC n d) := by
  obtain ⟨f1, f2, -⟩ := reduce_facts (n := n) hd
  obtain ⟨b1, b2⟩ := tdiv_bounds f1 f2 (lo := lmin) (hi := lmax) (by decide) (by decide) h1 h2
  unfold reduceA
  simp only [gcd_absL h1 h2 hd, hg]
  by_cases c : (Int.gcd n d : Int) > 1
  · rw [if_pos c, i64_bind b1 b2]
    exact fast_reduced h1 h2 hd hd2 e
  · rw [if_neg c]
    exact fast_reduced_one h1 h2 hd hd2 (by omega) e

/-- The assignment form converts the divisor to a signed type: when that changes it the word result
does not fit. -/
theorem fast_reduceA_lword {v : ℚ} {n d : Int} (h1 : lmin ≤ n) (h2 : n ≤ lmax)
    (hd : 0 < d) (hd2 : d < 18446744073709551616)
    (e : (n : ℚ) / (d : ℚ) = v) : FastOk v (reduceA toLword n d) := by
  obtain ⟨f1, f2, f3, -⟩ := reduce_facts (n := n) hd
  by_cases hg : (Int.gcd n d : Int) ≤ lmax
  · exact fast_reduceA h1 h2 hd hd2
      (toLword_id (by have : lmin ≤ 0 := by decide
                      omega) hg) e
  · have hgd : (Int.gcd n d : Int) ≤ d := Int.le_of_dvd hd (Int.gcd_dvd_right ..)
    have hneg : ¬ toLword (Int.gcd n d) > 1 := by
      unfold toLword lmax at *
      rw [Int.bmod_def]
      have : (Int.gcd n d : Int) % ((18446744073709551616 : Nat) : Int) = Int.gcd n d := by omega
      rw [this, if_neg (by omega)]
      omega
    unfold reduceA
    simp only [gcd_absL h1 h2 hd]
    rw [if_neg hneg]
    by_cases hn : n = 0
    · subst hn
      refine fast_checkWord (by decide) (by decide) fun _ _ =>
        fast_checkUword (by omega) (by omega) fun u => ?_
      have h3 : lmax = 9223372036854775807 := rfl
      have h4 : uwmax = 4294967295 := rfl
      omega
    · have hgn : (Int.gcd n d : Int) ≤ |n| := Int.le_of_dvd (abs_pos.mpr hn) (by
        rw [dvd_abs]; exact Int.gcd_dvd_left ..)
      refine fast_checkWord h1 h2 fun w1 w2 => ?_
      exfalso
      have h3 : lmax = 9223372036854775807 := rfl
      have h4 : wmin = -2147483648 := rfl
      have h5 : wmax = 2147483647 := rfl
      rcases abs_choice n with h | h <;> omega

/-! ### Bounds -/

theorem Low.pos {n d : Int} (h : Low n d) : 0 < d := h.2.2.1

theorem Low.qne {n d : Int} (h : Low n d) : (d : ℚ) ≠ 0 := by exact_mod_cast h.pos.ne'

/-- A word times an unsigned word fits. -/
theorem prod_bound {n e : Int} (h1 : wmin ≤ n) (h2 : n ≤ wmax) (he : 0 ≤ e) (he2 : e ≤ uwmax) :
    -9223372034707292160 ≤ n * e ∧ n * e ≤ 9223372030412324865 := by
  unfold wmin wmax uwmax at *
  constructor <;> nlinarith

theorem prod_lword {n e : Int} (h1 : wmin ≤ n) (h2 : n ≤ wmax) (he : 0 ≤ e) (he2 : e ≤ uwmax) :
    lmin ≤ n * e ∧ n * e ≤ lmax := by
  have := prod_bound h1 h2 he he2
  unfold lmin lmax
  omega

theorem uprod_bound {d e : Int} (h1 : 0 ≤ d) (h2 : d ≤ uwmax) (he : 0 ≤ e) (he2 : e ≤ uwmax) :
    0 ≤ d * e ∧ d * e < 18446744073709551616 := by
  unfold uwmax at *
  constructor <;> nlinarith

/-- The two denominators over their greatest common divisor. -/
theorem den_facts {d1 d2 : Int} (h1 : 0 < d1) (h2 : 0 < d2) (u1 : d1 ≤ uwmax) (u2 : d2 ≤ uwmax) :
    ∃ e1 e2 g : Int, gcd d1 d2 = g ∧ 0 < g ∧ 0 < e1 ∧ 0 < e2 ∧ d1 / g = e1 ∧ d2 / g = e2 ∧
      d1 = g * e1 ∧ d2 = g * e2 ∧ IsCoprime e1 e2 ∧ e1 ≤ d1 ∧ e2 ≤ d2 ∧ g ≤ uwmax := by
  have hg := gcd_eq h1.le h2.le
  have hp : 0 < Int.gcd d1 d2 := Int.gcd_pos_of_ne_zero_left _ (by omega)
  have hp' : (0 : Int) < (Int.gcd d1 d2 : Int) := by exact_mod_cast hp
  have e1 := Int.ediv_mul_cancel (Int.gcd_dvd_left (a := d1) (b := d2))
  have e2 := Int.ediv_mul_cancel (Int.gcd_dvd_right (a := d1) (b := d2))
  have p1 : 0 < d1 / (Int.gcd d1 d2 : Int) := by
    by_contra hc
    have := mul_nonpos_of_nonpos_of_nonneg (by omega : d1 / (Int.gcd d1 d2 : Int) ≤ 0) hp'.le
    omega
  have p2 : 0 < d2 / (Int.gcd d1 d2 : Int) := by
    by_contra hc
    have := mul_nonpos_of_nonpos_of_nonneg (by omega : d2 / (Int.gcd d1 d2 : Int) ≤ 0) hp'.le
    omega
  refine ⟨d1 / (Int.gcd d1 d2 : Int), d2 / (Int.gcd d1 d2 : Int), Int.gcd d1 d2, hg, hp', p1, p2, rfl, rfl,
    by rw [mul_comm]; exact e1.symm, by rw [mul_comm]; exact e2.symm, ?_, ediv_le hp' h1.le,
    ediv_le hp' h2.le, ?_⟩
  · rw [Int.isCoprime_iff_gcd_eq_one]; exact Int.gcd_ediv_gcd_ediv_gcd hp
  · exact (Int.le_of_dvd h1 (Int.gcd_dvd_left ..)).trans u1

/-- The divisor left after bringing two reduced fractions to the least common denominator divides
the common divisor of the denominators. -/
theorem gcd_sum_dvd {a b e1 e2 g : Int} (ha : IsCoprime a e1) (hb : IsCoprime b e2)
    (he : IsCoprime e1 e2) : (Int.gcd (a * e2 + b * e1) (g * e1 * e2) : Int) ∣ g := by
  have h1 : IsCoprime (a * e2 + b * e1) e1 := by
    have : IsCoprime (a * e2) e1 := IsCoprime.mul_left ha he.symm
    exact IsCoprime.add_mul_right_left this b
  have h2 : IsCoprime (a * e2 + b * e1) e2 := by
    have : IsCoprime (b * e1) e2 := IsCoprime.mul_left hb he
    rw [add_comm]
    exact IsCoprime.add_mul_right_left this a
  have h3 : IsCoprime (a * e2 + b * e1) (e1 * e2) := IsCoprime.mul_right h1 h2
  have h4 : (Int.gcd (a * e2 + b * e1) (g * e1 * e2) : Int) ∣ g * (e1 * e2) := by
    rw [← mul_assoc]; exact Int.gcd_dvd_right ..
  have h5 : IsCoprime (Int.gcd (a * e2 + b * e1) (g * e1 * e2) : Int) (e1 * e2) :=
    IsCoprime.of_isCoprime_of_dvd_left h3 (Int.gcd_dvd_left ..)
  exact h5.dvd_of_dvd_mul_right h4

theorem Low.coprime {n d : Int} (h : Low n d) : IsCoprime n d :=
  Int.isCoprime_iff_gcd_eq_one.mpr h.2.2.2.2

theorem Low.den_one {n d : Int} (h : Low n d) (h0 : n = 0) : d = 1 := by
  obtain ⟨-, -, h1, -, h2⟩ := h
  subst h0
  rw [Int.gcd_zero_left] at h2
  omega

end LF
end Yaga
