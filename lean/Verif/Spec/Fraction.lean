/-
Specification of `Long_fraction` (src/lra/Long_fraction.h): the rational number an object denotes and
the canonical form.
-/
import Verif.Model.LongFraction
import Verif.Model.FractionExpr

namespace Yaga.Spec

/-- The number that an object denotes: the word part if it is valid, otherwise the GMP part. -/
def fval (a : LF) : ℚ := if a.wv then (a.num : ℚ) / (a.den : ℚ) else (a.q.n : ℚ) / (a.q.d : ℚ)

/-- A pair that fits into a 32-bit signed numerator and a 32-bit unsigned denominator. -/
def Fits (n d : Int) : Prop := -2 ^ 31 ≤ n ∧ n < 2 ^ 31 ∧ d < 2 ^ 32

/-- Lowest terms with positive denominator. -/
def Lowest (n d : Int) : Prop := 0 < d ∧ Int.gcd n d = 1

/-- Canonical objects. One of the parts is valid, each valid part is in lowest terms, if both are valid
they agree, and the word part is valid whenever the number fits. -/
structure Canonical (a : LF) : Prop where
  valid : a.wv = true ∨ a.mv = true
  word : a.wv = true → Fits a.num a.den ∧ Lowest a.num a.den
  mpq : a.mv = true → Lowest a.q.n a.q.d
  same : a.wv = true → a.mv = true → a.q.n = a.num ∧ a.q.d = a.den
  big : a.wv = false → ¬ Fits a.q.n a.q.d

/-- The rational number that a computation denotes; `none` if it divides by zero or has a constant
out of range. -/
def fden : FExpr → Option ℚ
  | .word n => if -2 ^ 31 ≤ n ∧ n < 2 ^ 31 then some n else none
  | .uword n => if 0 ≤ n ∧ n < 2 ^ 32 then some n else none
  | .str r => some r
  | .add a b | .addA a b => do pure ((← fden a) + (← fden b))
  | .sub a b | .subA a b => do pure ((← fden a) - (← fden b))
  | .mul a b | .mulA a b => do pure ((← fden a) * (← fden b))
  | .div a b | .divA a b => do
    let x ← fden a
    let y ← fden b
    if y = 0 then none else pure (x / y)
  | .neg a | .negate a => do pure (-(← fden a))
  | .inverse a => do
    let x ← fden a
    if x = 0 then none else pure x⁻¹
  | .floor a => do pure (⌊← fden a⌋ : Int)
  | .ceil a => do pure (⌈← fden a⌉ : Int)
  | .copy a | .cached a => fden a

end Yaga.Spec
