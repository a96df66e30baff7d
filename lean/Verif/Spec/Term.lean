/-
Specification: the meaning of terms. A term of the table denotes a Boolean or a rational number in every
interpretation of the uninterpreted constants and functions.
-/
import Verif.Model.Terms

namespace Yaga.Spec

/-- Values of terms. -/
inductive Val where
  | b (v : Bool)
  | q (v : ℚ)
  deriving DecidableEq

/-- The truth value (`false` for a number). -/
def Val.bool : Val → Bool
  | .b v => v
  | .q _ => false

/-- The number (0 for a truth value). -/
def Val.num : Val → ℚ
  | .b _ => 0
  | .q v => v

/-- Negation. -/
def Val.not : Val → Val
  | .b v => .b (!v)
  | .q v => .q v

/-- Interpretation of the uninterpreted constants and functions, which are identified by the index of
their term in the table. -/
structure Interp where
  constB : Nat → Bool
  constQ : Nat → ℚ
  fnB : Nat → List Val → Bool
  fnQ : Nat → List Val → ℚ

/-- The value of the term with index `i` and entry `e`, where `v` gives the values of its arguments. -/
def evalEntry (I : Interp) (i : Nat) (v : Tm → Val) (e : TEntry) : Val :=
  match e.kind, e.descr with
  | .constant, .const n => .b (n == 0)
  | .arithConst, .rat q => .q q
  | .uninterpreted, _ => if e.type = .bool then .b (I.constB i) else .q (I.constQ i)
  | .ite, .comp [c, t, u] => if (v c).bool then v t else v u
  | .app, .comp (f :: as) =>
    if e.type = .bool then .b (I.fnB f.index (as.map v)) else .q (I.fnQ f.index (as.map v))
  | .or, .comp as => .b (as.any fun a => (v a).bool)
  | .arithEq, .comp [t] => .b (decide ((v t).num = 0))
  | .arithGe, .comp [t] => .b (decide (0 ≤ (v t).num))
  | .arithBinEq, .comp [a, b] => .b (decide ((v a).num = (v b).num))
  | .product, .comp [c, x] => .q ((v c).num * (v x).num)
  | .poly, .comp as => .q ((as.map fun a => (v a).num).sum)
  | _, _ => .b false

/-- The value of a handle, from the values of the terms of the table: a negated handle has the negated
value. -/
def lookup (vs : List Val) (t : Tm) : Val :=
  if t.isNeg then (vs.getD t.index (.b false)).not else vs.getD t.index (.b false)

/-- The values of the terms in a list of entries; the arguments of a term precede it. -/
def valsOf (I : Interp) (es : List TEntry) : List Val :=
  es.foldl (fun vs e => vs ++ [evalEntry I vs.length (lookup vs) e]) []

/-- The value of a term of the table. -/
def den (I : Interp) (s : TermTable) (t : Tm) : Val := lookup (valsOf I s.terms) t

/-- Truth value of a Boolean term. -/
def denB (I : Interp) (s : TermTable) (t : Tm) : Bool := (den I s t).bool

/-- Value of a real term. -/
def denQ (I : Interp) (s : TermTable) (t : Tm) : ℚ := (den I s t).num

/-- `t` is a Boolean term of the table. -/
def IsBool (s : TermTable) (t : Tm) : Prop := s.type t = .bool

/-- `t` is a real term of the table (never negated). -/
def IsReal (s : TermTable) (t : Tm) : Prop := s.type t = .real ∧ t.isNeg = false

instance (s : TermTable) (t : Tm) : Decidable (IsBool s t) := by unfold IsBool; infer_instance
instance (s : TermTable) (t : Tm) : Decidable (IsReal s t) := by unfold IsReal; infer_instance

end Yaga.Spec
