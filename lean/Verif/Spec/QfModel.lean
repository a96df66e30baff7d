/-
Models of a problem of QF_LRA.
-/
import Verif.Model.QfLra
import Verif.Spec.Linear
import Verif.Spec.Sat

namespace Yaga.Spec

/-- Truth values `σ` and rational values `ρ` satisfy the clauses, and every literal created for a
constraint has the truth value of the constraint. -/
def QfModel (A : List Clause) (P : List QAtom) (σ : Assignment) (ρ : Nat → ℚ) : Prop :=
  allTrue σ A ∧ ∀ a ∈ P, (litTrue σ a.lit ↔ LinTrue ρ a.ts a.pred a.rhs)

end Yaga.Spec
