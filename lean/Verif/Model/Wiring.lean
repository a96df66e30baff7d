/-
How the parts of a solver are connected: `Solver` (src/Solver.h:71-132, src/Solver.cpp:5-11, 159-176),
`Event_dispatcher`, `Theory_combination` (src/Theory_combination.h:86-123, src/Theory_combination.cpp:40-90),
`Combined_order` (src/variable_order/Combined_order.h:29-116) and the three set-ups in src/Yaga.cpp:7-57.
-/
import Verif.Model.Literal

namespace Yaga
namespace Wiring

/-- The events, src/Event_listener.h:18-60, with their arguments (the database and the trail are left out). -/
inductive Ev where
  | init
  | resize (ty : VType) (n : Nat)
  | backtrack (level : Nat)
  | learned (c : Clause)
  | resolved (c : Clause)
  | restart
  deriving DecidableEq

/-- Calls that build the solver or raise an event. -/
inductive Op where
  /-- `Trail::set_model`, src/Trail.h:108-124. -/
  | setModel (ty : VType) (n : Nat)
  /-- `Trail::resize`, src/Trail.cpp:6-18. -/
  | resize (ty : VType) (n : Nat)
  /-- `Solver::set_theory`, with `Theory_combination` or with a plugin. -/
  | setTheory (comb : Bool)
  /-- `Theory_combination::add_theory` on the theory of the solver. -/
  | addTheory
  | setRestart
  /-- `Solver::set_variable_order`, with `Combined_order` or with another order. -/
  | setOrder (comb : Bool)
  /-- `Combined_order::add` on the variable order of the solver. -/
  | addOrder
  /-- `Solver::init`. -/
  | init
  /-- Another event of the dispatcher, src/Solver.cpp:27, 85, 99, 180, 185. -/
  | raise (e : Ev)
  deriving DecidableEq

/-- A theory or a variable order: an object that is a listener itself, or a combination of such objects.
Objects have numbers instead of addresses; numbers are not used again. -/
inductive Node where
  | plain (id : Nat)
  | comb (id : Nat) (subs : List Nat)
  deriving DecidableEq

def Node.id : Node → Nat
  | .plain i => i
  | .comb i _ => i

/-- The members of `Solver` (src/Solver.h:178-187) that take part, the numbers of variables in the trail, and
`current_num_vars` of the theory if it is a combination (src/Theory_combination.h:122; a missing entry is `0`).
`log` has the events that each object received, combinations excepted. `clock` counts the calls. -/
structure State where
  clock : Nat := 0
  listeners : List Nat := [0]
  theory : Option Node := none
  order : Option Node := none
  restart : Option Nat := none
  models : VType → Option Nat := fun _ => none
  nums : VType → Nat := fun _ => 0
  log : List (Nat × Ev) := []

/-- A solver after its constructor, src/Solver.cpp:5-9: object 0 is the subsumption. -/
def start : State := {}

/-- What `Combined_order` calls for an event, src/variable_order/Combined_order.h:44-116: for
`on_conflict_resolved` it is `on_learned_clause` (line 101). -/
def Ev.combined : Ev → Ev
  | .resolved c => .learned c
  | e => e

/-- The call of an event in one listener. For combinations see src/Theory_combination.cpp:40-90 and
src/variable_order/Combined_order.h:44-116. A listener that is no theory and no order gets the event itself. -/
def notify (e : Ev) (s : State) (l : Nat) : State :=
  match s.theory with
  | some (.comb i subs) =>
    if i = l then
      { s with
        nums := match e with
          | .resize ty n => Function.update s.nums ty n
          | _ => s.nums
        log := s.log ++ subs.map fun x => (x, e) }
    else notifyOrder e s l
  | _ => notifyOrder e s l
where
  notifyOrder (e : Ev) (s : State) (l : Nat) : State :=
    match s.order with
    | some (.comb i subs) =>
      if i = l then { s with log := s.log ++ subs.map fun x => (x, e.combined) }
      else { s with log := s.log ++ [(l, e)] }
    | _ => { s with log := s.log ++ [(l, e)] }

/-- The loops of `Event_dispatcher`, src/Event_dispatcher.h:21-95. -/
def dispatch (s : State) (e : Ev) : State := s.listeners.foldl (notify e) s

/-- `Event_dispatcher::remove`, src/Event_dispatcher.h:110-117, of the object a `unique_ptr` owns. -/
def unlink (s : State) (x : Option Nat) : List Nat :=
  match x with
  | some i => s.listeners.erase i
  | none => s.listeners

/-- `Trail::models`, src/Trail.h:148-161. -/
def allModels (s : State) : List (VType × Nat) :=
  [VType.boolean, .rational].filterMap fun ty => (s.models ty).map fun n => (ty, n)

/-- One call; `none` if there is nothing it could be called on, or if the assertion in src/Trail.cpp:8 fails. A new
object gets the number of the call. -/
def step (s : State) (op : Op) : Option State :=
  let k := s.clock + 1
  let t := { s with clock := k }
  match op with
  | .setModel ty n => some (dispatch { t with models := Function.update s.models ty (some n) } (.resize ty n))
  | .resize ty n =>
    match s.models ty with
    | none => none
    | some _ => some (dispatch { t with models := Function.update s.models ty (some n) } (.resize ty n))
  | .setTheory c =>
    -- src/Solver.h:84-94: remove the old one, tell the new one about the variables, replace, add
    let ms := allModels s
    some { t with
      listeners := unlink s (s.theory.map Node.id) ++ [k]
      theory := some (if c then .comb k [] else .plain k)
      nums := if c then ms.foldl (fun f m => Function.update f m.1 m.2) (fun _ => 0) else fun _ => 0
      log := if c then s.log else s.log ++ ms.map fun m => (k, .resize m.1 m.2) }
  | .addTheory =>
    -- src/Theory_combination.h:97-111
    match s.theory with
    | some (.comb i subs) => some { t with
        theory := some (.comb i (subs ++ [k]))
        log := s.log ++ ([VType.boolean, .rational].filter fun ty => decide (s.nums ty > 0)).map
          fun ty => (k, .resize ty (s.nums ty)) }
    | _ => none
  | .setRestart =>
    -- src/Solver.h:127-132
    some { t with listeners := unlink s s.restart ++ [k], restart := some k }
  | .setOrder c =>
    -- src/Solver.h:108-113
    some { t with
      listeners := unlink s (s.order.map Node.id) ++ [k]
      order := some (if c then .comb k [] else .plain k) }
  | .addOrder =>
    -- src/variable_order/Combined_order.h:29-37
    match s.order with
    | some (.comb i subs) => some { t with order := some (.comb i (subs ++ [k])) }
    | _ => none
  | .init =>
    -- src/Solver.cpp:162-175
    some (dispatch ((allModels s).foldl (fun s m => dispatch s (.resize m.1 m.2)) t) .init)
  | .raise e =>
    match e with
    | .init | .resize .. => none
    | e => some (dispatch t e)

/-- A history of calls. -/
def run (ops : List Op) : Option State := ops.foldlM step start

/-- `Propositional::setup`, src/Yaga.cpp:7-14. -/
def propositional : List Op := [.setModel .boolean 0, .setTheory false, .setRestart, .setOrder false]

/-- `Qf_lra::setup`, src/Yaga.cpp:16-34. -/
def qfLra : List Op :=
  [.setModel .boolean 0, .setModel .rational 0, .setTheory true, .addTheory, .addTheory, .setRestart,
    .setOrder false]

/-- `Qf_uflra::setup`, src/Yaga.cpp:36-57. -/
def qfUflra : List Op :=
  [.setModel .boolean 0, .setModel .rational 0, .setTheory true, .addTheory, .addTheory, .addTheory, .setRestart,
    .setOrder false]

/-- The counters of a solver, src/Solver.h:193-197. -/
structure Stats where
  conflicts : Nat := 0
  conflictClauses : Nat := 0
  learned : Nat := 0
  restarts : Nat := 0
  decisions : Nat := 0
  deriving DecidableEq

/-- What is counted: `init` (src/Solver.cpp:172-174), a conflict (line 17), a conflict clause (line 22), a learned
clause (line 81), a restart (line 182) and a decision (line 155). -/
inductive Tick where
  | init
  | conflict
  | conflictClause
  | learned
  | restart
  | decision
  deriving DecidableEq

/-- The counters after a step, src/Solver.cpp: lines as for `Tick`; `init` does not reset all of them. -/
def Stats.tick (s : Stats) : Tick → Stats
  | .init => { s with conflicts := 0, decisions := 0, restarts := 0 }
  | .conflict => { s with conflicts := s.conflicts + 1 }
  | .conflictClause => { s with conflictClauses := s.conflictClauses + 1 }
  | .learned => { s with learned := s.learned + 1 }
  | .restart => { s with restarts := s.restarts + 1 }
  | .decision => { s with decisions := s.decisions + 1 }

/-- The counters of a solver after these steps. -/
def Stats.run (ts : List Tick) : Stats := ts.foldl Stats.tick {}

end Wiring
end Yaga
