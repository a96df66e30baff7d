/-
Scripts in which an argument of an uninterpreted function has at most one variable.
-/
import Verif.Spec.LinTerm

namespace Yaga.Spec

/-- The variable of a monomial. -/
def monoAtoms (s : TermTable) (t : Tm) : List Tm :=
  match s.kind t with
  | .arithConst => []
  | .product => [s.varOfProduct t]
  | _ => [t]

/-- The constants, applications and conditional terms of which a real term is a polynomial. -/
def atoms (s : TermTable) (t : Tm) : List Tm :=
  if s.kind t = .poly then (s.allArgs t).flatMap (monoAtoms s) else monoAtoms s t

/-- Every argument of a function application is a polynomial in at most one variable. -/
def OneVar (s : TermTable) : Prop := ∀ t, s.kind t = .app → ∀ a ∈ s.args t, (atoms s a).length ≤ 1

end Yaga.Spec
