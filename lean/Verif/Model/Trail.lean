/-
Model of `src/Model.h` and `src/Trail.h`.
-/
import Verif.Model.Literal
import Mathlib.Data.Rat.Defs

namespace Yaga

/-- `Model<T>`, src/Model.h:50-113 (with `Model_base`, lines 8-66).
`num` is the size of the three vectors; the vectors are functions on ordinals.
Simplification: an access with an ordinal `≥ num` (undefined behaviour in C++) reads the function;
theorems that depend on it carry an explicit range hypothesis. -/
structure PModel (α : Type) where
  num : Nat
  value : Nat → α
  defined : Nat → Bool
  ts : Nat → Int
  globalTs : Nat

namespace PModel
variable {α : Type}

/-- Default constructed model with no variables, src/Model.h:68-113; `z` is `Value{0}`. -/
def empty (z : α) : PModel α := ⟨0, fun _ => z, fun _ => false, fun _ => -1, 0⟩

/-- `clear(int ord)`, src/Model.h:29. -/
def clear (m : PModel α) (ord : Nat) : PModel α :=
  { m with defined := Function.update m.defined ord false }

/-- `clear()`, src/Model.h:35. -/
def clearAll (m : PModel α) : PModel α := { m with defined := fun _ => false }

/-- `resize`, src/Model.h:83-88: new entries get value 0, undefined, time stamp -1;
entries beyond the new size are dropped. -/
def resize (m : PModel α) (z : α) (n : Nat) : PModel α :=
  { num := n
    value := fun i => if i < m.num ∧ i < n then m.value i else z
    defined := fun i => if i < m.num ∧ i < n then m.defined i else false
    ts := fun i => if i < m.num ∧ i < n then m.ts i else -1
    globalTs := m.globalTs }

/-- `set_value`, src/Model.h:102-107. -/
def setValue (m : PModel α) (ord : Nat) (v : α) : PModel α :=
  { m with
    value := Function.update m.value ord v
    defined := Function.update m.defined ord true
    ts := Function.update m.ts ord m.globalTs
    globalTs := m.globalTs + 1 }

end PModel

/-- `eval(model, literal)`, src/Model.h:122-126. -/
def evalLit (m : PModel Bool) (l : Lit) : Option Bool :=
  if m.defined l.ord then some (m.value l.ord == !l.isNeg) else none

/-- Loop of `eval(model, clause)`, src/Model.h:138-151; `n` is `num_assigned`. The result is
`none` for `return true`, otherwise the final count. -/
def evalClauseLoop (m : PModel Bool) : Clause → Nat → Option Nat
  | [], n => some n
  | l :: ls, n =>
    match evalLit m l with
    | some true => none
    | some false => evalClauseLoop m ls (n + 1)
    | none => evalClauseLoop m ls n

/-- `eval(model, clause)`, src/Model.h:136-153. -/
def evalClause (m : PModel Bool) (c : Clause) : Option Bool :=
  match evalClauseLoop m c 0 with
  | none => some true
  | some n => if n ≥ c.length then some false else none

/-- `Trail::Assignment`, src/Trail.h:46-55. `R` is the type of references to reason clauses;
`none` is `nullptr`. -/
structure Asg (R : Type) where
  var : Var
  reason : Option R
  deriving DecidableEq

/-- Value of a variable of either type (`Model<bool>` or `Model<Rational>`). -/
inductive Val where
  | b (x : Bool)
  | q (x : ℚ)
  deriving DecidableEq

/-- `val` is a value for variables of type `t`. -/
def Val.hasType : Val → VType → Bool
  | .b _, .boolean => true
  | .q _, .rational => true
  | _, _ => false

/-- `Trail`, src/Trail.h:44-285. `levels` is the member `trail` (list of assignments per level,
lowest level first), `level` is `var_level` with `none` for -1 (line 274), `reason` is
`var_reason` and `bools`/`rats` are the entries of `var_models`.
Simplifications: the per-type vectors are functions on variables; the dispatcher is not part of
the state. -/
structure Trail (R : Type) where
  levels : List (List (Asg R))
  level : Var → Option Nat
  reason : Var → Option R
  bools : PModel Bool
  rats : PModel ℚ

namespace Trail
variable {R : Type}

/-- Constructor `Trail(dispatcher)`, src/Trail.h:58: one empty level. -/
def init : Trail R := ⟨[[]], fun _ => none, fun _ => none, .empty false, .empty 0⟩

/-- `decision_level()`, src/Trail.h:61. -/
def decisionLevel (t : Trail R) : Nat := t.levels.length - 1

/-- `assigned(level)`, src/Trail.h:98 (and `recent()`, line 88, at the current level). -/
def assigned (t : Trail R) (i : Nat) : List (Asg R) := t.levels.getD i []

/-- Number of variables of a type (`num_vars()` of the type's model), src/Model.h:48. -/
def numVars (t : Trail R) : VType → Nat
  | .boolean => t.bools.num
  | .rational => t.rats.num

/-- Whether the model of the variable's type defines it, src/Model.h:22. -/
def isDefined (t : Trail R) (v : Var) : Bool :=
  match v.type with
  | .boolean => t.bools.defined v.ord
  | .rational => t.rats.defined v.ord

/-- The value stored in the model of the variable's type, src/Model.h:95. -/
def valueOf (t : Trail R) (v : Var) : Val :=
  match v.type with
  | .boolean => .b (t.bools.value v.ord)
  | .rational => .q (t.rats.value v.ord)

/-- `model(type).set_value(ord, val)`, src/Model.h:102 called as documented in src/Trail.h:24-36.
A value of the wrong type cannot be written in C++ (the call does not compile); here it is
ignored. -/
def setValue (t : Trail R) (v : Var) (x : Val) : Trail R :=
  match v.type, x with
  | .boolean, .b y => { t with bools := t.bools.setValue v.ord y }
  | .rational, .q y => { t with rats := t.rats.setValue v.ord y }
  | _, _ => t

/-- `var_models[type]->clear(ord)`, src/Trail.h:227. -/
def clearValue (t : Trail R) (v : Var) : Trail R :=
  match v.type with
  | .boolean => { t with bools := t.bools.clear v.ord }
  | .rational => { t with rats := t.rats.clear v.ord }

/-- `resize`, src/Trail.cpp:6-18: new variables are unassigned, variables beyond the new size are
forgotten. The notification of listeners (line 17) is not modelled. -/
def resize (t : Trail R) (type : VType) (n : Nat) : Trail R :=
  let keep (v : Var) : Bool := v.type != type || (decide (v.ord < t.numVars type) && decide (v.ord < n))
  let t' := { t with
    level := fun v => if keep v then t.level v else none
    reason := fun v => if keep v then t.reason v else none }
  match type with
  | .boolean => { t' with bools := t.bools.resize false n }
  | .rational => { t' with rats := t.rats.resize 0 n }

/-- `decide`, src/Trail.h:177-186. -/
def decide (t : Trail R) (v : Var) : Trail R :=
  { t with
    levels := t.levels ++ [[⟨v, none⟩]]
    level := Function.update t.level v (some t.levels.length)
    reason := Function.update t.reason v none }

/-- Append an element to the lists with index at least `lvl`, the loop of src/Trail.h:203-206. -/
def pushFrom (a : Asg R) : Nat → List (List (Asg R)) → List (List (Asg R))
  | _, [] => []
  | 0, xs :: rest => (xs ++ [a]) :: pushFrom a 0 rest
  | lvl + 1, xs :: rest => xs :: pushFrom a lvl rest

/-- `propagate`, src/Trail.h:196-209; precondition `lvl ≤ decisionLevel` (assert, line 198). -/
def propagate (t : Trail R) (v : Var) (r : Option R) (lvl : Nat) : Trail R :=
  { t with
    levels := pushFrom ⟨v, r⟩ lvl t.levels
    level := Function.update t.level v (some lvl)
    reason := Function.update t.reason v r }

/-- Body of the inner loop of `backtrack`, src/Trail.h:223-228. -/
def unassignAbove (lvl : Nat) (t : Trail R) (a : Asg R) : Trail R :=
  match t.level a.var with
  | some l =>
    if l > lvl then
      clearValue { t with
        level := Function.update t.level a.var none
        reason := Function.update t.reason a.var none } a.var
    else t
  | none => t

/-- One iteration of the outer loop of `backtrack`, src/Trail.h:219-230. -/
def popLevel (lvl : Nat) (t : Trail R) : Trail R :=
  let t' := (t.assigned t.decisionLevel).foldl (unassignAbove lvl) t
  { t' with levels := t'.levels.dropLast }

/-- The outer loop of `backtrack` run `n` times. -/
def popLevels (lvl : Nat) : Nat → Trail R → Trail R
  | 0, t => t
  | n + 1, t => popLevels lvl n (popLevel lvl t)

/-- `backtrack`, src/Trail.h:215-232. -/
def backtrack (t : Trail R) (lvl : Nat) : Trail R := popLevels lvl (t.decisionLevel - lvl) t

/-- `empty`, src/Trail.h:238. -/
def isEmpty (t : Trail R) : Bool := t.levels.length == 1 && (t.assigned 0).isEmpty

/-- `clear`, src/Trail.h:242-270. -/
def clear (t : Trail R) : Trail R :=
  { levels := [[]]
    level := fun _ => none
    reason := fun _ => none
    bools := t.bools.clearAll
    rats := t.rats.clearAll }

end Trail
end Yaga
