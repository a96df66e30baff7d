/-
Specification for C37: what an entry of the term table must say about the construction that made it.
-/
import Verif.Model.Terms

namespace Yaga.Spec

/-- The entry of a term has the given kind, type and contents. -/
def Is (s : TermTable) (t : Tm) (k : Kind) (ty : Ty) (d : Descr) : Prop :=
  t.isNeg = false ∧ s.entry t = some ⟨k, ty, d⟩

/-- The term `t` is described by the construction. -/
def Describes (s : TermTable) (t : Tm) : TermOp → Prop
  | .or as => Is s t .or .bool (.comp as)
  | .constant ty i => Is s t .constant ty (.const i)
  | .rational q => Is s t .arithConst .real (.rat q)
  | .product c x =>
    ∃ c', Is s c' .arithConst .real (.rat c) ∧ Is s t .product .real (.comp [c', x])
  | .poly as => Is s t .poly .real (.comp as)
  | .geqZero u => Is s t .arithGe .bool (.comp [u])
  | .eqZero u => Is s t .arithEq .bool (.comp [u])
  | .binEq a b => Is s t .arithBinEq .bool (.comp [a, b])
  | .ite c u e => Is s t .ite .real (.comp [c, u, e])
  | .app ty as => Is s t .app ty (.comp as)
  | .fresh ty => Is s t .uninterpreted ty .none

/-- The construction of a new uninterpreted constant. -/
def IsFresh : TermOp → Prop
  | .fresh _ => True
  | _ => False

end Yaga.Spec
