/-
C64: fractions of machine integers (src/lra/Fraction.h with `int`) compute exactly or stop.
-/
import Verif.Proofs.IntFraction

namespace Yaga
open Spec

/-- The constructor with numerator and denominator gives the fraction in lowest terms, for all values of type
`int` for which the code is defined and every denominator but 0. -/
theorem C64_make (n d : Int) (hn : -2147483648 < n ∧ n ≤ 2147483647) (hd : -2147483648 < d ∧ d ≤ 2147483647)
    (h0 : d ≠ 0) : ∃ f, IFrac.make n d = some f ∧ FOk f ∧ ival f = (n : ℚ) / d :=
  IFrac.make_spec hn.1 hn.2 hd.1 hd.2 h0

example : IFrac.make 6 (-4) = some ⟨-3, 2⟩ := by decide

/-- Sums: either the exact sum in lowest terms or a failed assertion, and the latter only if no fraction of 32-bit
integers is the sum. The 64-bit intermediate results never overflow. -/
theorem C64_add (a b : IFrac) (ha : FOk a) (hb : FOk b) :
    (∀ c, IFrac.add a b = some c → FOk c ∧ ival c = ival a + ival b) ∧
    ((IFrac.add a b).isSome = true ↔ IFits (ival a + ival b)) :=
  IFrac.add_spec ha hb

example : FOk ⟨1, 6⟩ ∧ FOk ⟨1, 3⟩ ∧ IFrac.add ⟨1, 6⟩ ⟨1, 3⟩ = some ⟨1, 2⟩ := by
  refine ⟨by unfold FOk; decide, by unfold FOk; decide, by decide⟩

/-- A sum that does not fit stops the program. -/
example : FOk ⟨2147483647, 1⟩ ∧ IFrac.add ⟨2147483647, 1⟩ ⟨1, 1⟩ = none := by
  refine ⟨by unfold FOk; decide, by decide⟩

/-- Products. -/
theorem C64_mul (a b : IFrac) (ha : FOk a) (hb : FOk b) :
    (∀ c, IFrac.mul a b = some c → FOk c ∧ ival c = ival a * ival b) ∧
    ((IFrac.mul a b).isSome = true ↔ IFits (ival a * ival b)) :=
  IFrac.mul_spec ha hb

example : FOk ⟨-2147483648, 3⟩ ∧ FOk ⟨3, 4⟩ ∧ IFrac.mul ⟨-2147483648, 3⟩ ⟨3, 4⟩ = some ⟨-536870912, 1⟩ := by
  refine ⟨by unfold FOk; decide, by unfold FOk; decide, by decide⟩

/-- Negation. -/
theorem C64_neg (a : IFrac) (ha : FOk a) :
    (∀ c, IFrac.neg a = some c → FOk c ∧ ival c = -ival a) ∧ ((IFrac.neg a).isSome = true ↔ IFits (-ival a)) :=
  IFrac.neg_spec ha

example : FOk ⟨-7, 3⟩ ∧ IFrac.neg ⟨-7, 3⟩ = some ⟨7, 3⟩ := ⟨by unfold FOk; decide, by decide⟩

/-- Inverse of a number that is not 0. -/
theorem C64_inv (a : IFrac) (ha : FOk a) (h0 : ival a ≠ 0) :
    (∀ c, IFrac.inv a = some c → FOk c ∧ ival c = (ival a)⁻¹) ∧ ((IFrac.inv a).isSome = true ↔ IFits (ival a)⁻¹) :=
  IFrac.inv_spec ha h0

example : FOk ⟨-7, 3⟩ ∧ ival ⟨-7, 3⟩ ≠ 0 ∧ IFrac.inv ⟨-7, 3⟩ = some ⟨-3, 7⟩ :=
  ⟨by unfold FOk; decide, by norm_num [ival], by decide⟩

/-- Differences. The full claim, without the condition on `b`, is that the difference is computed whenever it fits;
it is false, see `C64_sub_false`. What holds for all `b` is that a computed difference is right. -/
theorem C64_sub_partial (a b : IFrac) (ha : FOk a) (hb : FOk b) :
    (∀ c, IFrac.sub a b = some c → FOk c ∧ ival c = ival a - ival b) ∧
    (b.num ≠ -2147483648 → ((IFrac.sub a b).isSome = true ↔ IFits (ival a - ival b))) :=
  ⟨fun _ => IFrac.sub_sound ha hb, fun h => (IFrac.sub_spec ha hb h).2⟩

example : FOk ⟨1, 2⟩ ∧ FOk ⟨1, 3⟩ ∧ IFrac.sub ⟨1, 2⟩ ⟨1, 3⟩ = some ⟨1, 6⟩ :=
  ⟨by unfold FOk; decide, by unfold FOk; decide, by decide⟩

/-- `-1 - INT_MIN = INT_MAX` fits but the code negates `INT_MIN`, which is undefined behaviour. -/
theorem C64_sub_false : ∃ a b, FOk a ∧ FOk b ∧ IFits (ival a - ival b) ∧ IFrac.sub a b = none := by
  refine ⟨⟨-1, 1⟩, ⟨-2147483648, 1⟩, by unfold FOk; decide, by unfold FOk; decide,
    ⟨⟨2147483647, 1⟩, by unfold FOk; decide, by norm_num [ival]⟩, by decide⟩

/-- Quotients, with the same kind of exception (`C64_div_false`). -/
theorem C64_div_partial (a b : IFrac) (ha : FOk a) (hb : FOk b) (h0 : ival b ≠ 0) :
    (∀ c, IFrac.div a b = some c → FOk c ∧ ival c = ival a / ival b) ∧
    (b.num ≠ -2147483648 → ((IFrac.div a b).isSome = true ↔ IFits (ival a / ival b))) :=
  ⟨fun _ => IFrac.div_sound ha hb h0, fun h => (IFrac.div_spec ha hb h0 h).2⟩

example : FOk ⟨1, 2⟩ ∧ FOk ⟨-3, 4⟩ ∧ ival ⟨-3, 4⟩ ≠ 0 ∧ IFrac.div ⟨1, 2⟩ ⟨-3, 4⟩ = some ⟨-2, 3⟩ :=
  ⟨by unfold FOk; decide, by unfold FOk; decide, by norm_num [ival], by decide⟩

/-- `INT_MIN / INT_MIN` is 1 but computing the inverse of `INT_MIN` is undefined behaviour. -/
theorem C64_div_false : ∃ a b, FOk a ∧ FOk b ∧ ival b ≠ 0 ∧ IFits (ival a / ival b) ∧ IFrac.div a b = none := by
  refine ⟨⟨-2147483648, 1⟩, ⟨-2147483648, 1⟩, by unfold FOk; decide, by unfold FOk; decide, by norm_num [ival],
    ⟨⟨1, 1⟩, by unfold FOk; decide, by norm_num [ival]⟩, by decide⟩

/-- Comparisons with fractions agree with those of the numbers. -/
theorem C64_compare (a b : IFrac) (ha : FOk a) (hb : FOk b) :
    IFrac.lt a b = some (decide (ival a < ival b)) ∧ IFrac.le a b = some (decide (ival a ≤ ival b)) ∧
    IFrac.gt a b = some (decide (ival a > ival b)) ∧ IFrac.ge a b = some (decide (ival a ≥ ival b)) ∧
    IFrac.eq a b = decide (ival a = ival b) := by
  refine ⟨IFrac.lt_spec ha hb, IFrac.le_spec ha hb, ?_, ?_, IFrac.eq_spec ha hb⟩
  · unfold IFrac.gt
    rw [IFrac.le_spec ha hb]
    simp only [Option.bind_eq_bind, Option.bind_some, Option.pure_def, ← decide_not, not_le]
  · unfold IFrac.ge
    rw [IFrac.lt_spec ha hb]
    simp only [Option.bind_eq_bind, Option.bind_some, Option.pure_def, ← decide_not, not_lt]

example : FOk ⟨-2147483648, 2147483647⟩ ∧ FOk ⟨-1, 1⟩ ∧ IFrac.lt ⟨-2147483648, 2147483647⟩ ⟨-1, 1⟩ = some true :=
  ⟨by unfold FOk; decide +kernel, by unfold FOk; decide, by decide⟩

/-- Comparisons with integers agree with those of the numbers. -/
theorem C64_compare_int (a : IFrac) (n : Int) (ha : FOk a) (h1 : -2147483648 ≤ n) (h2 : n ≤ 2147483647) :
    IFrac.ltInt a n = some (decide (ival a < n)) ∧ IFrac.leInt a n = some (decide (ival a ≤ n)) ∧
    IFrac.eqInt a n = decide (ival a = n) :=
  ⟨IFrac.ltInt_spec ha h1 h2, IFrac.leInt_spec ha h1 h2, IFrac.eqInt_spec ha⟩

example : FOk ⟨7, 2⟩ ∧ IFrac.ltInt ⟨7, 2⟩ 4 = some true ∧ IFrac.eqInt ⟨7, 2⟩ 7 = false :=
  ⟨by unfold FOk; decide, by decide, by decide⟩

/-- C64. Differences with an integer, and quotients of an integer: the result is exact; it is found whenever it
fits except for the smallest integer, which the code negates. Missing: that case. -/
theorem C64_mixed_partial (a : IFrac) (n : Int) (ha : FOk a) (h1 : -2147483648 ≤ n) (h2 : n ≤ 2147483647) :
    (∀ c, IFrac.subInt a n = some c → FOk c ∧ ival c = ival a - n) ∧
    (n ≠ -2147483648 → ((IFrac.subInt a n).isSome = true ↔ IFits (ival a - n))) ∧
    (ival a ≠ 0 → (∀ c, IFrac.intDiv n a = some c → FOk c ∧ ival c = n / ival a) ∧
      (a.num ≠ -2147483648 → ((IFrac.intDiv n a).isSome = true ↔ IFits (n / ival a)))) := by
  have hn : FOk (IFrac.ofInt n) := IFrac.fok_int h1 h2
  have hin : ival (IFrac.ofInt n) = n := IFrac.ival_int n
  refine ⟨?_, ?_, fun h0 => ⟨?_, ?_⟩⟩
  · intro c hc
    simp only [IFrac.subInt, Option.bind_eq_bind, Option.bind_eq_some_iff] at hc
    obtain ⟨m, hm, hc⟩ := hc
    obtain ⟨rfl, h3, h4⟩ := IFrac.i32_some hm
    obtain ⟨g1, g2⟩ := (IFrac.add_spec ha (IFrac.fok_int h3 h4)).1 c hc
    refine ⟨g1, ?_⟩
    rw [g2, IFrac.ival_int]
    push_cast
    ring
  · intro hne
    have h3 : IFrac.imin ≤ -n := by simp only [IFrac.imin]; omega
    have h4 : -n ≤ IFrac.imax := by simp only [IFrac.imax]; omega
    have e : IFrac.subInt a n = IFrac.add a (IFrac.ofInt (-n)) := by
      simp [IFrac.subInt, IFrac.i32_ok h3 h4]
    rw [e, (IFrac.add_spec ha (IFrac.fok_int h3 h4)).2, IFrac.ival_int]
    push_cast
    rw [sub_eq_add_neg]
  · intro c hc
    simp only [IFrac.intDiv, Option.bind_eq_bind, Option.bind_eq_some_iff] at hc
    obtain ⟨i, hi, hc⟩ := hc
    obtain ⟨k1, k2⟩ := (IFrac.inv_spec ha h0).1 i hi
    obtain ⟨g1, g2⟩ := (IFrac.mul_spec k1 hn).1 c hc
    refine ⟨g1, ?_⟩
    rw [g2, k2, hin, div_eq_mul_inv, mul_comm]
  · intro hne
    obtain ⟨i, hi⟩ := IFrac.inv_found ha hne
    obtain ⟨k1, k2⟩ := (IFrac.inv_spec ha h0).1 i hi
    have e1 : IFrac.intDiv n a = IFrac.mul i (IFrac.ofInt n) := by simp [IFrac.intDiv, hi]
    rw [e1, (IFrac.mul_spec k1 hn).2, k2, hin, div_eq_mul_inv, mul_comm]

/-- Not vacuous: `1/2 - 3` and `3 / (1/2)`. -/
example : FOk ⟨1, 2⟩ ∧ IFrac.subInt ⟨1, 2⟩ 3 = some ⟨-5, 2⟩ ∧ IFrac.intDiv 3 ⟨1, 2⟩ = some ⟨6, 1⟩ := by
  unfold FOk
  decide +kernel

/-- The result of a computation whose exact value exists is that value, in lowest terms, whenever the code gives a
result at all: nothing ever wraps around or is rounded. -/
theorem C64_exact (e : IExpr) (q : ℚ) (hq : IExpr.exact e = some q) (f : IFrac) (hf : e.run = some f) :
    FOk f ∧ ival f = q :=
  IExpr.run_spec e q hq f hf

/-- (1/2 - 1/3) / (-1/6) = -1. -/
example : ∃ e q f, IExpr.exact e = some q ∧ e.run = some f ∧ f = ⟨-1, 1⟩ :=
  ⟨.div (.sub (.frac 1 2) (.frac 1 3)) (.frac 1 (-6)), -1, ⟨-1, 1⟩, by norm_num [IExpr.exact], by decide, rfl⟩

/-- Division by 0 is not checked: `1 / (1 / 0)` has no value but the code gives 0. -/
theorem C64_zero_division : ∃ e, IExpr.exact e = none ∧ e.run = some ⟨0, 1⟩ :=
  ⟨.div (.int 1) (.div (.int 1) (.int 0)), by norm_num [IExpr.exact], by decide⟩

/-- Conversion to `int` rounds towards zero. -/
theorem C64_toInt (a : IFrac) (ha : FOk a) :
    ∃ k : Int, IFrac.toInt a = some k ∧ (0 ≤ ival a → (k : ℚ) ≤ ival a ∧ ival a < k + 1) ∧
      (ival a ≤ 0 → (k : ℚ) - 1 < ival a ∧ ival a ≤ k) := by
  obtain ⟨k, h1, h2⟩ := IFrac.toInt_spec ha
  have hd : 0 < a.den := ha.2.2.1
  have hdq : (0 : ℚ) < (a.den : ℚ) := by exact_mod_cast hd
  have hdiv := Int.mul_tdiv_add_tmod a.num a.den
  rw [← h2, mul_comm] at hdiv
  have hq : (a.num : ℚ) = k * a.den + (a.num.tmod a.den : Int) := by exact_mod_cast hdiv.symm
  refine ⟨k, h1, fun h => ?_, fun h => ?_⟩
  · have hn : 0 ≤ a.num := by
      unfold ival at h
      have := mul_nonneg h hdq.le
      rw [div_mul_cancel₀ _ hdq.ne'] at this
      exact_mod_cast this
    have m1 := Int.tmod_nonneg a.den hn
    have m2 := Int.tmod_lt_of_pos a.num hd
    have m1q : (0 : ℚ) ≤ (a.num.tmod a.den : Int) := by exact_mod_cast m1
    have m2q : ((a.num.tmod a.den : Int) : ℚ) < (a.den : ℚ) := by exact_mod_cast m2
    unfold ival
    rw [le_div_iff₀ hdq, div_lt_iff₀ hdq]
    constructor <;> nlinarith
  · have hn : a.num ≤ 0 := by
      unfold ival at h
      have := mul_nonneg (neg_nonneg.mpr h) hdq.le
      rw [neg_mul, div_mul_cancel₀ _ hdq.ne'] at this
      have h2 : (a.num : ℚ) ≤ 0 := by linarith
      exact_mod_cast h2
    have m1 := Int.tmod_nonneg a.den (a := -a.num) (by omega)
    have m2 := Int.tmod_lt_of_pos (-a.num) hd
    rw [Int.neg_tmod] at m1 m2
    have m1q : ((a.num.tmod a.den : Int) : ℚ) ≤ 0 := by exact_mod_cast (by omega : a.num.tmod a.den ≤ 0)
    have m2q : -(a.den : ℚ) < ((a.num.tmod a.den : Int) : ℚ) := by exact_mod_cast (by omega : -a.den < a.num.tmod a.den)
    unfold ival
    rw [div_le_iff₀ hdq, lt_div_iff₀ hdq]
    constructor <;> nlinarith

example : FOk ⟨7, 2⟩ ∧ IFrac.toInt ⟨7, 2⟩ = some 3 := ⟨by unfold FOk; decide, by decide⟩

/-- The documentation of the conversion says "rounded down": -7/2 becomes -3. -/
theorem C64_toInt_not_floor : ∃ a k, FOk a ∧ IFrac.toInt a = some k ∧ ¬ (k : ℚ) ≤ ival a :=
  ⟨⟨-7, 2⟩, -3, by unfold FOk; decide, by decide, by norm_num [ival]⟩

end Yaga

#print axioms Yaga.C64_make
#print axioms Yaga.C64_add
#print axioms Yaga.C64_mul
#print axioms Yaga.C64_neg
#print axioms Yaga.C64_inv
#print axioms Yaga.C64_sub_partial
#print axioms Yaga.C64_sub_false
#print axioms Yaga.C64_div_partial
#print axioms Yaga.C64_div_false
#print axioms Yaga.C64_compare
#print axioms Yaga.C64_compare_int
#print axioms Yaga.C64_mixed_partial
#print axioms Yaga.C64_exact
#print axioms Yaga.C64_zero_division
#print axioms Yaga.C64_toInt
#print axioms Yaga.C64_toInt_not_floor
