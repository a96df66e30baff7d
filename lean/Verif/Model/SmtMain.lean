/-
Model of the program `smt`, src/smt_solver.cpp:23-91, with src/Options.h and the passing of the options to the
plugins, src/Yaga.cpp:7-67: from the words of the command line to the lines on the standard output and the exit
code.
-/
import Verif.Model.Commands
import Verif.Model.LraPlugin
import Verif.Model.BoolTheory

namespace Yaga
namespace SmtMain

/-- `Options`, src/Options.h:10-31, with its default values. -/
structure Opts where
  propRational : Bool := false
  deduceBounds : Bool := false
  printStats : Bool := false
  phase : Phase := .positive
  deriving DecidableEq

/-- The values of `--phase`, src/smt_solver.cpp:47-58. -/
def phaseOf (v : String) : Option Phase :=
  if v = "positive" then some .positive
  else if v = "negative" then some .negative
  else if v = "cache" then some .cache
  else none

/-- The end of the loop over the words: an unrecognized option, or the options and `input_path`. -/
inductive Args where
  | bad (arg : String)
  | done (o : Opts) (path : String)
  deriving DecidableEq

/-- The loop over `argv` from the second word on, src/smt_solver.cpp:27-70. A word is a string. -/
def scan (o : Opts) (path : String) : List String → Args
  | [] => .done o path
  | a :: rest =>
    if a = "--prop-rational" then scan { o with propRational := true } path rest
    else if a = "--deduce-bounds" then scan { o with deduceBounds := true } path rest
    else if a = "--print-stats" then scan { o with printStats := true } path rest
    else if a = "--phase" then
      match rest with
      | [] => .done o path
      | v :: rest => scan { o with phase := (phaseOf v).getD o.phase } path rest
    else if a.toList.head? = some '-' then .bad a
    else scan o a rest

/-- The options of the plugin for linear arithmetic, src/Yaga.cpp:25-29 and 45-49; `return_all_conflicts` keeps its
default value, src/lra/Linear_arithmetic.h:48. -/
def laOpts (o : Opts) : LaOpts := ⟨o.deduceBounds, true, o.propRational⟩

/-- The lines with the counters, src/parser/Solver_wrapper.cpp:71-75. -/
def counters (n : Nat → Nat) : List String :=
  ["Conflicts = " ++ toString (n 0), "Conflict clauses = " ++ toString (n 1), "Learned clauses = " ++ toString (n 2),
    "Decisions = " ++ toString (n 3), "Restarts = " ++ toString (n 4)]

/-- The lines of a script together with the counters, src/parser/Solver_wrapper.cpp:69-76: with `--print-stats` they
come before the line with an answer. They do not when an assertion is the constant false (lines 25-28); here this is
left open. The counters themselves are arbitrary here. -/
inductive WithStats (stats : Bool) : List String → List String → Prop
  | nil : WithStats stats [] []
  | line {l : String} {ls out : List String} : WithStats stats ls out → WithStats stats (l :: ls) (l :: out)
  | counted {l : String} {ls out : List String} (n : Nat → Nat) : stats = true → l = "sat" ∨ l = "unsat" →
      WithStats stats ls out → WithStats stats (l :: ls) (counters n ++ l :: out)

/-- The lines on the standard output and the exit code for the words after the name of the program,
src/smt_solver.cpp:23-91. The solver `E` depends on the options; `files` is what can be opened. What is written to the
standard error is not modelled. The exit code is that of a program in which no assertion fails and in which every
search ends. -/
inductive Prints (H : TermHash) (E : Opts → Oracle) (files : String → Option (List Char)) (args : List String) :
    List String × Int → Prop
  /-- src/smt_solver.cpp:60-65. -/
  | unknown {a : String} : scan {} "" args = .bad a → Prints H E files args ([], -1)
  /-- src/smt_solver.cpp:72-76. -/
  | noPath {o : Opts} : scan {} "" args = .done o "" → Prints H E files args ([], -1)
  /-- src/smt_solver.cpp:84-87, src/parser/Smt2_parser.cpp:441-443. -/
  | noFile {o : Opts} {p : String} : scan {} "" args = .done o p → p ≠ "" → files p = none →
      Prints H E files args ([], 0)
  /-- src/smt_solver.cpp:78-83, 88-91: also when `execute` ends with an exception. -/
  | script {o : Opts} {p : String} {text : List Char} {out : List String} : scan {} "" args = .done o p → p ≠ "" →
      files p = some text → WithStats o.printStats (Shell.run H (E o) text).lines out → Prints H E files args (out, 0)

end SmtMain
end Yaga
