/-
C22: rounding of rationals.
-/
import Verif.Proofs.LongFractionMisc

namespace Yaga
open Spec

/-- C22. `floor` computes the greatest integer not above the value. -/
theorem C22_floor (a : LF) (ha : Canonical a) :
    ∃ c z, LF.floor a = some c ∧ Canonical c ∧ fval c = ((z : Int) : ℚ) ∧ (z : ℚ) ≤ fval a ∧
      ∀ y : Int, (y : ℚ) ≤ fval a → y ≤ z := by
  obtain ⟨c, h1, h2, h3⟩ := LF.floor_exact ha
  exact ⟨c, _, h1, h2, h3, Int.floor_le _, fun y hy => Int.le_floor.mpr hy⟩

/-- C22. `ceil` computes the least integer not below the value. -/
theorem C22_ceil (a : LF) (ha : Canonical a) :
    ∃ c z, LF.ceil a = some c ∧ Canonical c ∧ fval c = ((z : Int) : ℚ) ∧ fval a ≤ (z : ℚ) ∧
      ∀ y : Int, fval a ≤ (y : ℚ) → z ≤ y := by
  obtain ⟨c, h1, h2, h3⟩ := LF.ceil_exact ha
  exact ⟨c, _, h1, h2, h3, Int.le_ceil _, fun y hy => Int.ceil_le.mpr hy⟩

/-- C22. `isInteger` is exact. -/
theorem C22_isInteger (a : LF) (ha : Canonical a) :
    a.isInteger = true ↔ ∃ z : Int, fval a = z := LF.isInteger_exact ha

/-- Instances: rounding a negative and a positive fraction at the limits of the range. -/
example : LF.floor (LF.word (-2147483647) 2) = some (LF.word (-1073741824) 1) ∧
    LF.ceil (LF.word (-2147483647) 2) = some (LF.word (-1073741823) 1) ∧
    LF.floor (LF.word 2147483647 2) = some (LF.word 1073741823 1) ∧
    LF.ceil (LF.word 1 4294967295) = some (LF.word 1 1) := by decide

#print axioms C22_floor
#print axioms C22_ceil
#print axioms C22_isInteger

end Yaga
