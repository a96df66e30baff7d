/-
Specification of `Fraction<int>`.
-/
import Verif.Model.IntFraction

namespace Yaga.Spec

/-- The number that a fraction stands for. -/
def ival (f : IFrac) : ℚ := (f.num : ℚ) / (f.den : ℚ)

/-- A fraction of 32-bit integers in lowest terms with positive denominator. -/
def FOk (f : IFrac) : Prop :=
  -2147483648 ≤ f.num ∧ f.num ≤ 2147483647 ∧ 0 < f.den ∧ f.den ≤ 2147483647 ∧ Int.gcd f.num f.den = 1

/-- There is such a fraction for the number. -/
def IFits (q : ℚ) : Prop := ∃ f, FOk f ∧ ival f = q

/-- The exact value of a computation; a computation that divides by 0 has none. -/
def IExpr.exact : IExpr → Option ℚ
  | .int n => some n
  | .frac n d => if d = 0 then none else some ((n : ℚ) / (d : ℚ))
  | .neg a => (exact a).map fun x => -x
  | .inv a => (exact a).bind fun x => if x = 0 then none else some x⁻¹
  | .add a b => (exact a).bind fun x => (exact b).map fun y => x + y
  | .sub a b => (exact a).bind fun x => (exact b).map fun y => x - y
  | .mul a b => (exact a).bind fun x => (exact b).map fun y => x * y
  | .div a b => (exact a).bind fun x => (exact b).bind fun y => if y = 0 then none else some (x / y)

end Yaga.Spec
