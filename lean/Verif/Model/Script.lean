/-
Scripts with several `check-sat` commands: `Smt2_command_context::parse_command`,
src/parser/Smt2_parser.cpp:184-414, as far as `assert` and `check-sat` are concerned.
-/
import Verif.Model.Internalizer
import Verif.Model.TermHistory

namespace Yaga

/-- The states a script can reach: the term table, the vector `assertions` and the state of the
internalizer. `term`: parsing a declaration or a term calls the term manager (src/parser/Smt2_parser.cpp:
196-204, 216-247); `assert`: lines 196-206; `check`: lines 209-214, which passes all assertions so far to
`Solver_wrapper::check`. Commands that end with an exception are left out. -/
inductive Script (H : TermHash) (cfg : ICfg) : TermTable → List Tm → IState → Prop
  | init : Script H cfg (TermTable.init H) [] IState.init
  | term {s : TermTable} {as : List Tm} {st : IState} {op : MgrOp} {r : TermTable × Tm} :
      Script H cfg s as st → op.Typed s → op.run H s = some r → Script H cfg r.1 as st
  | assert {s : TermTable} {as : List Tm} {st : IState} {a : Tm} :
      Script H cfg s as st → Spec.IsBool s a → Script H cfg s (as ++ [a]) st
  | check {s : TermTable} {as : List Tm} {st st' : IState} :
      Script H cfg s as st → Internalizer.check cfg s st as = some (some st') → Script H cfg s as st'

end Yaga
