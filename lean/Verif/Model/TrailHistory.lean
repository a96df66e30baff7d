/-
Histories of calls to the `Trail` interface.
-/
import Verif.Model.Trail

namespace Yaga

/-- A call sequence of the trail's interface as documented in src/Trail.h:24-36: a decision or
propagation together with the assignment of the value, or `resize`, `backtrack`, `clear`. -/
inductive TOp (R : Type) where
  | resize (type : VType) (n : Nat)
  | decide (v : Var) (x : Val)
  | propagate (v : Var) (r : Option R) (lvl : Nat) (x : Val)
  | backtrack (lvl : Nat)
  | clear

namespace Trail
variable {R : Type}

/-- Effect of one call: src/Trail.cpp:6-18, src/Trail.h:177-186, 196-209, 215-232, 242-270, with
`set_value` (src/Model.h:102-107) for the assigned value. -/
def step (t : Trail R) : TOp R → Trail R
  | .resize ty n => t.resize ty n
  | .decide v x => (t.decide v).setValue v x
  | .propagate v r lvl x => (t.propagate v r lvl).setValue v x
  | .backtrack lvl => t.backtrack lvl
  | .clear => t.clear

/-- Precondition of a call: variables are in range and unassigned when they are assigned (asserts
and documentation of src/Trail.h:170-209), levels exist (asserts at lines 198 and 217, 231), and
`resize` does not drop an assigned variable. -/
def Pre (t : Trail R) : TOp R → Prop
  | .resize ty n => ∀ v l, v.type = ty → t.level v = some l → v.ord < n
  | .decide v x => v.ord < t.numVars v.type ∧ t.level v = none ∧ x.hasType v.type = true
  | .propagate v _ lvl x =>
    v.ord < t.numVars v.type ∧ t.level v = none ∧ x.hasType v.type = true ∧ lvl ≤ t.decisionLevel
  | .backtrack lvl => lvl ≤ t.decisionLevel
  | .clear => True

/-- `Run t ops t'`: the calls `ops`, each made when its precondition holds, lead from `t` to `t'`. -/
inductive Run : Trail R → List (TOp R) → Trail R → Prop where
  | nil (t) : Run t [] t
  | cons {t t' : Trail R} {op ops} : t.Pre op → Run (t.step op) ops t' → Run t (op :: ops) t'

end Trail
end Yaga
