/-
Model of `src/Event_dispatcher.h`.
-/
import Mathlib.Data.List.Basic

namespace Yaga

/-- Calls to a dispatcher: `add`, `remove` or raising an event. `L` are listener addresses, `E`
events with their arguments. -/
inductive DOp (L E : Type) where
  | add (l : L)
  | remove (l : L)
  | raise (e : E)

/-- `Event_dispatcher`: the member `listeners` (src/Event_dispatcher.h:119) and, as observable
effect, the calls made on listeners so far. Simplification: a listener does not call back into the
dispatcher while an event is delivered. -/
structure Dispatcher (L E : Type) where
  listeners : List L
  log : List (L × E)

/-- `add` (src/Event_dispatcher.h:102), `remove` (lines 110-117) and the loops of the `on_*`
methods (lines 21-27, 34-40, 48-54, 62-68, 76-82, 89-95), which are all alike. -/
def Dispatcher.step {L E : Type} [DecidableEq L] (d : Dispatcher L E) : DOp L E → Dispatcher L E
  | .add l => { d with listeners := d.listeners ++ [l] }
  | .remove l => { d with listeners := d.listeners.erase l }
  | .raise e => { d with log := d.log ++ d.listeners.map fun l => (l, e) }

/-- State after a history of calls on a new dispatcher. -/
def Dispatcher.run {L E : Type} [DecidableEq L] (ops : List (DOp L E)) : Dispatcher L E :=
  ops.foldl Dispatcher.step ⟨[], []⟩

end Yaga
