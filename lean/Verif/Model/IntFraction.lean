/-
Model of `src/lra/Fraction.h` for `Fraction<int>`: fractions of 32-bit integers. Machine arithmetic is
explicit: `none` is undefined behaviour (signed overflow, `std::abs` or `std::gcd` of a value whose magnitude
does not fit, division by zero) or a failed assertion.
-/
import Mathlib.Data.Rat.Defs
import Mathlib.Algebra.Order.Field.Rat
import Mathlib.Data.Int.GCD

namespace Yaga

/-- `Fraction<int>`, src/lra/Fraction.h:137-139. -/
structure IFrac where
  num : Int
  den : Int
  deriving DecidableEq

namespace IFrac

/-- `std::numeric_limits<int>::lowest()`. -/
def imin : Int := -2147483648
/-- `std::numeric_limits<int>::max()`. -/
def imax : Int := 2147483647
/-- `std::numeric_limits<std::int64_t>::lowest()`. -/
def lmin : Int := -9223372036854775808
/-- `std::numeric_limits<std::int64_t>::max()`. -/
def lmax : Int := 9223372036854775807

/-- Result of an operation of type `int`. -/
def i32 (x : Int) : Option Int := if imin ≤ x ∧ x ≤ imax then some x else none

/-- Result of an operation of type `std::int64_t`. -/
def i64 (x : Int) : Option Int := if lmin ≤ x ∧ x ≤ lmax then some x else none

/-- `std::abs(int)`. -/
def abs32 (x : Int) : Option Int := i32 (if x < 0 then -x else x)

/-- `std::gcd<int, int>`; both magnitudes have to fit. -/
def gcd32 (x y : Int) : Option Int := do
  let _ ← abs32 x
  let _ ← abs32 y
  i32 (Int.gcd x y)

/-- `std::gcd<std::int64_t, std::int64_t>`. -/
def gcd64 (x y : Int) : Option Int := do
  let _ ← i64 (if x < 0 then -x else x)
  let _ ← i64 (if y < 0 then -y else y)
  i64 (Int.gcd x y)

/-- `operator/` of type `int`. -/
def div32 (x y : Int) : Option Int := if y = 0 then none else i32 (x.tdiv y)

/-- `operator/` of type `std::int64_t`. -/
def div64 (x y : Int) : Option Int := if y = 0 then none else i64 (x.tdiv y)

/-- `Fraction(T num)`, src/lra/Fraction.h:22. -/
def ofInt (n : Int) : IFrac := ⟨n, 1⟩

/-- `Fraction(T num, T denom)`, src/lra/Fraction.h:24-29. `std::signbit` converts to `double`; the sign is
exact. -/
def make (n d : Int) : Option IFrac := do
  let sign : Int := if xor (decide (n < 0)) (decide (d < 0)) then -1 else 1
  let x ← i32 (sign * (← abs32 n))
  let num ← div32 x (← gcd32 n d)
  let den ← div32 (← abs32 d) (← gcd32 n d)
  pure ⟨num, den⟩

/-- `inv`, src/lra/Fraction.h:132-135. -/
def inv (f : IFrac) : Option IFrac := do
  let num ← i32 ((if f.num < 0 then -1 else 1) * f.den)
  let den ← abs32 f.num
  pure ⟨num, den⟩

/-- `operator-(Fraction)`, src/lra/Fraction.h:429-434. -/
def neg (f : IFrac) : Option IFrac := do pure ⟨← i32 (-f.num), f.den⟩

/-- End of `operator+` and `operator*`, src/lra/Fraction.h:452-459 and 489-496: reduce, check the asserted
range. -/
def reduce (num den : Int) : Option IFrac := do
  let g ← gcd64 num den
  let n ← div64 num g
  let d ← div64 den g
  if imin ≤ n ∧ n ≤ imax ∧ imin ≤ d ∧ d ≤ imax then pure ⟨n, d⟩ else none

/-- `operator+`, src/lra/Fraction.h:444-460. -/
def add (a b : IFrac) : Option IFrac := do
  let x ← i64 (a.num * b.den)
  let y ← i64 (b.num * a.den)
  let num ← i64 (x + y)
  let den ← i64 (a.den * b.den)
  reduce num den

/-- `operator-`, src/lra/Fraction.h:470-475. -/
def sub (a b : IFrac) : Option IFrac := do add a (← neg b)

/-- `operator*`, src/lra/Fraction.h:485-497. -/
def mul (a b : IFrac) : Option IFrac := do
  let num ← i64 (a.num * b.num)
  let den ← i64 (a.den * b.den)
  reduce num den

/-- `operator/`, src/lra/Fraction.h:507-512. -/
def div (a b : IFrac) : Option IFrac := do mul a (← inv b)

/-- `lhs - n` for an integer, src/lra/Fraction.h:537-542: the integer is negated first. -/
def subInt (a : IFrac) (n : Int) : Option IFrac := do add a (ofInt (← i32 (-n)))

/-- `n / rhs` for an integer, src/lra/Fraction.h:634-639. -/
def intDiv (n : Int) (b : IFrac) : Option IFrac := do mul (← inv b) (ofInt n)

/-- `operator==`, src/lra/Fraction.h:181-190. -/
def eq (a b : IFrac) : Bool := decide (a.num = b.num) && decide (a.den = b.den)

/-- `operator<`, src/lra/Fraction.h:215-222. -/
def lt (a b : IFrac) : Option Bool := do
  let x ← i64 (a.num * b.den)
  let y ← i64 (b.num * a.den)
  pure (decide (x < y))

/-- `operator<=`, src/lra/Fraction.h:232-239. -/
def le (a b : IFrac) : Option Bool := do
  let x ← i64 (a.num * b.den)
  let y ← i64 (b.num * a.den)
  pure (decide (x ≤ y))

/-- `operator>`, src/lra/Fraction.h:249-254. -/
def gt (a b : IFrac) : Option Bool := do pure (!(← le a b))

/-- `operator>=`, src/lra/Fraction.h:264-269. -/
def ge (a b : IFrac) : Option Bool := do pure (!(← lt a b))

/-- `operator<=(Fraction, int)`, src/lra/Fraction.h:279-284. -/
def leInt (a : IFrac) (n : Int) : Option Bool := do pure (decide (a.num ≤ (← i64 (a.den * n))))

/-- `operator<(Fraction, int)`, src/lra/Fraction.h:294-299. -/
def ltInt (a : IFrac) (n : Int) : Option Bool := do pure (decide (a.num < (← i64 (a.den * n))))

/-- `operator==(Fraction, int)`, src/lra/Fraction.h:339-346. -/
def eqInt (a : IFrac) (n : Int) : Bool := decide (a.den = 1) && decide (a.num = n)

/-- Explicit conversion to an integer, src/lra/Fraction.h:49-54. -/
def toInt (a : IFrac) : Option Int := div32 a.num a.den

end IFrac

/-- A computation over the public interface of src/lra/Fraction.h. -/
inductive IExpr where
  | int (n : Int)
  | frac (n d : Int)
  | neg (a : IExpr)
  | inv (a : IExpr)
  | add (a b : IExpr)
  | sub (a b : IExpr)
  | mul (a b : IExpr)
  | div (a b : IExpr)

namespace IExpr

/-- The object the code computes. `none`: undefined behaviour, a failed assertion or a constant that is no
`int`. The assigning operators (src/lra/Fraction.h:62-114) give the same results. -/
def run : IExpr → Option IFrac
  | int n => do pure (IFrac.ofInt (← IFrac.i32 n))
  | frac n d => do IFrac.make (← IFrac.i32 n) (← IFrac.i32 d)
  | neg a => do IFrac.neg (← a.run)
  | inv a => do IFrac.inv (← a.run)
  | add a b => do IFrac.add (← a.run) (← b.run)
  | sub a b => do IFrac.sub (← a.run) (← b.run)
  | mul a b => do IFrac.mul (← a.run) (← b.run)
  | div a b => do IFrac.div (← a.run) (← b.run)

end IExpr
end Yaga
