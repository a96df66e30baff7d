/-
Specification for C41: the number a literal denotes.
-/
import Mathlib.Data.Rat.Defs
import Mathlib.Algebra.Field.Rat

namespace Yaga.Spec

/-- Character of a decimal digit. -/
def digitChar (d : Fin 10) : Char := Char.ofNat (48 + d.val)

/-- Value of the digits before the point: the digit that is followed by `k` others counts `10 ^ k`. -/
def intVal : List (Fin 10) → ℚ
  | [] => 0
  | d :: ds => (d.val : ℚ) * 10 ^ ds.length + intVal ds

/-- Value of the digits after the point: the first counts 1/10, the second 1/100, ... -/
def fracVal : List (Fin 10) → ℚ
  | [] => 0
  | d :: ds => ((d.val : ℚ) + fracVal ds) / 10

end Yaga.Spec
