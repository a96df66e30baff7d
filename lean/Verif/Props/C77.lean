/-
C77: the factor that removes the denominators.
-/
import Verif.Proofs.Multiplicand

namespace Yaga
open Spec

/-- C77. For any list of canonical rationals the loop ends and returns, without undefined behaviour, a positive integer `k`
such that `k` times every number is an integer, and `k` is the least: every other positive integer with this property is
at least `k` (it is even a multiple of `k`). -/
theorem C77_least (reals : List LF) (h : ∀ r ∈ reals, Canonical r) :
    ∃ (c : LF) (k : Int), LF.getMultiplicand reals = some c ∧ Canonical c ∧ fval c = k ∧ 0 < k ∧
      (∀ r ∈ reals, ∃ z : Int, fval r * k = z) ∧
      ∀ j : Int, 0 < j → (∀ r ∈ reals, ∃ z : Int, fval r * j = z) → k ≤ j ∧ k ∣ j := by
  obtain ⟨c, k, c1, c2, c3, c4, c5⟩ := LF.getMultiplicand_eq h
  refine ⟨c, k, c1, c2, c4, c3, (c5 k).1 dvd_rfl, fun j hj hr => ?_⟩
  have := (c5 j).2 hr
  exact ⟨Int.le_of_dvd hj this, this⟩

/-- An instance with several iterations: 1/6, 3/4, -5/9, 1/10, 7 give 180. -/
example : LF.getMultiplicand [LF.word 1 6, LF.word 3 4, LF.word (-5) 9, LF.word 1 10, LF.ofWord 7] =
    some (LF.ofWord 180) := by
  decide +kernel

example : ∀ r ∈ [LF.word 1 6, LF.word 3 4, LF.word (-5) 9, LF.word 1 10, LF.ofWord 7], Canonical r := by
  intro r hr
  simp only [List.mem_cons, List.not_mem_nil, or_false] at hr
  rcases hr with rfl | rfl | rfl | rfl | rfl <;>
    exact (LF.word_canonical ⟨by decide, by decide, by decide, by decide, by decide⟩).1

#print axioms C77_least

end Yaga
