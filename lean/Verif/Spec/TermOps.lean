/-
Specification for C38 and C39: the SMT-LIB meaning of the functions of the term manager.
-/
import Verif.Model.TermHistory

namespace Yaga.Spec

/-- The value that the result of an operation must have; `v` gives the values of the arguments. `none` for
a new constant, whose value is up to the interpretation. -/
def meaning (I : Interp) (v : Tm → Val) (tyOf : Tm → Ty) : MgrOp → Option Val
  | .fresh _ => none
  | .rational q => some (.q q)
  | .or as => some (.b (as.any fun a => (v a).bool))
  | .and as => some (.b (as.all fun a => (v a).bool))
  | .implies a b => some (.b (!(v a).bool || (v b).bool))
  | .xor a b => some (.b ((v a).bool != (v b).bool))
  | .ite c t e => some (if (v c).bool then v t else v e)
  | .eq a b => some (.b (decide (v a = v b)))
  | .distinct as => some (.b (decide (as.map v).Nodup))
  | .plus as => some (.q (as.map fun a => (v a).num).sum)
  | .minus a b => some (.q ((v a).num - (v b).num))
  | .neg a => some (.q (-(v a).num))
  | .times as => some (.q (as.map fun a => (v a).num).prod)
  | .divides a b => some (.q ((v a).num / (v b).num))
  | .geq a b => some (.b (decide ((v a).num ≥ (v b).num)))
  | .leq a b => some (.b (decide ((v a).num ≤ (v b).num)))
  | .lt a b => some (.b (decide ((v a).num < (v b).num)))
  | .gt a b => some (.b (decide ((v a).num > (v b).num)))
  | .app f as =>
    if tyOf f = .bool then some (.b (I.fnB f.index (as.map v)))
    else some (.q (I.fnQ f.index (as.map v)))

/-- The Boolean operations of C38. -/
def IsConnective (s : TermTable) : MgrOp → Prop
  | .or _ | .and _ | .implies _ _ | .xor _ _ | .distinct _ => True
  | .ite _ t _ => IsBool s t
  | .eq a _ => IsBool s a
  | _ => False

end Yaga.Spec
