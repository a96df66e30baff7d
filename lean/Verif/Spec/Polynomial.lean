/-
Specification for C87: polynomials by their coefficients.
-/
import Verif.Model.ArithPoly

namespace Yaga.Spec

/-- The coefficient of the variable `v` (`none`: the constant). -/
def coeffOf (p : APoly) (v : Option Tm) : ℚ := (p.map fun m => if m.1 = v then m.2 else 0).sum

/-- The variables of the monomials, in the order in which they are stored. -/
def varsOfPoly (p : APoly) : List (Option Tm) := p.map Prod.fst

/-- Normal form: the constant first, then increasing variables, no coefficient 0. -/
def NormalPoly (p : APoly) : Prop :=
  (varsOfPoly p).Pairwise (fun a b => match a, b with
    | none, some _ => True
    | some a, some b => a.x < b.x
    | _, none => False) ∧ ∀ m ∈ p, m.2 ≠ 0

end Yaga.Spec
