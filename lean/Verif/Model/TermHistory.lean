/-
Histories of the term manager: the tables that can be built by its functions.
-/
import Verif.Model.TermManager
import Verif.Spec.Term

namespace Yaga

open Spec

/-- Functions of `Term_manager`, src/terms/Term_manager.cpp:120-760. (`not` is `Tm.opp` and does not change
the table.) -/
inductive MgrOp where
  | fresh (ty : Ty)
  | rational (q : ℚ)
  | or (as : List Tm)
  | and (as : List Tm)
  | implies (a b : Tm)
  | xor (a b : Tm)
  | ite (c t e : Tm)
  | eq (a b : Tm)
  | distinct (as : List Tm)
  | plus (as : List Tm)
  | minus (a b : Tm)
  | neg (a : Tm)
  | times (as : List Tm)
  | divides (a b : Tm)
  | geq (a b : Tm)
  | leq (a b : Tm)
  | lt (a b : Tm)
  | gt (a b : Tm)
  | app (f : Tm) (as : List Tm)

/-- Effect and result. -/
def MgrOp.run (H : TermHash) (s : TermTable) : MgrOp → Option (TermTable × Tm)
  | .fresh ty => some (s.fresh ty)
  | .rational q => some (s.arithConstant H q)
  | .or as => some (s.mkOr H as)
  | .and as => some (s.mkAnd H as)
  | .implies a b => some (s.mkImplies H a b)
  | .xor a b => some (s.mkXor H a b)
  | .ite c t e => s.mkIte H c t e
  | .eq a b => s.mkBinaryEq H a b
  | .distinct as => s.mkDistinct H as
  | .plus as => s.mkPlus H as
  | .minus a b => s.mkMinus H a b
  | .neg a => s.mkUnaryMinus H a
  | .times as => s.mkTimes H as
  | .divides a b => s.mkDivides H a b
  | .geq a b => s.mkGeq H a b
  | .leq a b => s.mkLeq H a b
  | .lt a b => s.mkLt H a b
  | .gt a b => s.mkGt H a b
  | .app f as => some (s.mkApp H (s.type f) f as)

/-- The arguments have the right types (checked by the parser's caller or by assertions). -/
def MgrOp.Typed (s : TermTable) : MgrOp → Prop
  | .fresh ty => ty ≠ .null
  | .rational _ => True
  | .or as | .and as => ∀ a ∈ as, IsBool s a
  | .implies a b | .xor a b => IsBool s a ∧ IsBool s b
  | .ite c t e => IsBool s c ∧ ((IsBool s t ∧ IsBool s e) ∨ (IsReal s t ∧ IsReal s e))
  | .eq a b => (IsBool s a ∧ IsBool s b) ∨ (IsReal s a ∧ IsReal s b)
  | .distinct as => (∀ a ∈ as, IsBool s a) ∨ (∀ a ∈ as, IsReal s a)
  | .plus as | .times as => ∀ a ∈ as, IsReal s a
  | .neg a => IsReal s a
  | .minus a b | .divides a b | .geq a b | .leq a b | .lt a b | .gt a b => IsReal s a ∧ IsReal s b
  | .app f as => s.kind f = .uninterpreted ∧ f.isNeg = false ∧ ∀ a ∈ as, IsBool s a ∨ IsReal s a

/-- The tables that the term manager can build. -/
inductive TReach (H : TermHash) : TermTable → Prop
  | init : TReach H (TermTable.init H)
  | step {s : TermTable} {op : MgrOp} {r : TermTable × Tm} : TReach H s → op.Typed s →
      op.run H s = some r → TReach H r.1

end Yaga
