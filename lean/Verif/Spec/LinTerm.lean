/-
Specification for C40: the polynomial a real term denotes over its variable-like subterms.
-/
import Verif.Spec.Term

namespace Yaga.Spec

/-- The value of a monomial, where `ρ` gives the values of the uninterpreted constants, applications and
real `ite` terms. -/
def monoVal (ρ : Tm → ℚ) (s : TermTable) (t : Tm) : ℚ :=
  match s.kind t with
  | .arithConst => s.constValue t
  | .product => s.coeffOfProduct t * ρ (s.varOfProduct t)
  | _ => ρ t

/-- The value of a real term as a polynomial. -/
def linVal (ρ : Tm → ℚ) (s : TermTable) (t : Tm) : ℚ :=
  if s.kind t = .poly then ((s.allArgs t).map (monoVal ρ s)).sum else monoVal ρ s t

/-- Two terms denote the same polynomial. -/
def SamePoly (s : TermTable) (a b : Tm) : Prop := ∀ ρ : Tm → ℚ, linVal ρ s a = linVal ρ s b

end Yaga.Spec
