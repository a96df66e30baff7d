/-
Which objects a solver consists of, and how many variables it has, according to the calls that built it.
-/
import Verif.Model.Wiring

namespace Yaga
namespace Spec
open Wiring

/-- The calls with this property, counted from 1. A call that creates an object gives it its number. -/
def positions (p : Op → Bool) (ops : List Op) : List Nat :=
  ((List.range ops.length).filter fun i => (ops[i]?).any p).map (· + 1)

/-- The last call with this property. -/
def lastOf (p : Op → Bool) (ops : List Op) : Option Nat := (positions p ops).getLast?

def isSetTheory : Op → Bool
  | .setTheory _ => true
  | _ => false

def isSetOrder : Op → Bool
  | .setOrder _ => true
  | _ => false

/-- The plugins: the last one that was set, or if it is a combination, those added to it. -/
def theories (ops : List Op) : List Nat :=
  match lastOf isSetTheory ops with
  | none => []
  | some k =>
    if ops[k - 1]? = some (.setTheory true) then (positions (· = .addTheory) ops).filter (k < ·) else [k]

/-- The restart policy: the last one that was set. -/
def restartPolicy (ops : List Op) : List Nat := (lastOf (· = .setRestart) ops).toList

/-- The variable order, if it is not a combination. -/
def plainOrder (ops : List Op) : List Nat :=
  match lastOf isSetOrder ops with
  | none => []
  | some k => if ops[k - 1]? = some (.setOrder true) then [] else [k]

/-- The variable orders in the combination, if there is one. -/
def combinedOrders (ops : List Op) : List Nat :=
  match lastOf isSetOrder ops with
  | none => []
  | some k => if ops[k - 1]? = some (.setOrder true) then (positions (· = .addOrder) ops).filter (k < ·) else []

/-- The number of variables of a type: that of the last call. -/
def varCount (ops : List Op) (ty : VType) : Option Nat :=
  (ops.filterMap fun
    | .setModel ty' n => if ty' = ty then some n else none
    | .resize ty' n => if ty' = ty then some n else none
    | _ => none).getLast?

/-- The number of variables of a type of which an object was told last. -/
def told (log : List (Nat × Ev)) (l : Nat) (ty : VType) : Option Nat :=
  (log.filterMap fun
    | (l', .resize ty' n) => if l' = l ∧ ty' = ty then some n else none
    | _ => none).getLast?

/-- What the orders in a `Combined_order` receive for an event. It should be the event itself. -/
def passedOn : Ev → Ev
  | .resolved c => .learned c
  | e => e

end Spec
end Yaga
