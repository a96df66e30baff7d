/-
What the words of the command line of `smt` mean, according to the text printed by `print_help`
(src/smt_solver.cpp:13-21).
-/
import Verif.Model.SmtMain

namespace Yaga
namespace Spec

/-- One element of a command line. -/
inductive Arg where
  | propRational
  | deduceBounds
  | printStats
  | phase (value : String)
  | path (p : String)
  deriving DecidableEq

/-- The words of an element. -/
def Arg.words : Arg → List String
  | .propRational => ["--prop-rational"]
  | .deduceBounds => ["--deduce-bounds"]
  | .printStats => ["--print-stats"]
  | .phase v => ["--phase", v]
  | .path p => [p]

/-- A path does not look like an option. -/
def Arg.Valid : Arg → Prop
  | .path p => p.toList.head? ≠ some '-'
  | _ => True

/-- The words of a command line. -/
def cmdLine (as : List Arg) : List String := as.flatMap Arg.words

def Arg.path? : Arg → Option String
  | .path p => some p
  | _ => none

def Arg.phase? : Arg → Option Phase
  | .phase "positive" => some .positive
  | .phase "negative" => some .negative
  | .phase "cache" => some .cache
  | _ => none

/-- The file that is read: the last path. -/
def inputOf (as : List Arg) : Option String := (as.filterMap Arg.path?).getLast?

/-- The phase: the last one that is given, or else the default. -/
def phaseOf (as : List Arg) : Phase := ((as.filterMap Arg.phase?).getLast?).getD .positive

/-- The output has the answer `l` first, or after five lines with counters. -/
def Answers (as : List Arg) (out : List String) (l : String) : Prop :=
  out.head? = some l ∨
  Arg.printStats ∈ as ∧ ∃ (a b c d e : Nat) (rest : List String),
    out = s!"Conflicts = {a}" :: s!"Conflict clauses = {b}" :: s!"Learned clauses = {c}" ::
      s!"Decisions = {d}" :: s!"Restarts = {e}" :: l :: rest

end Spec
end Yaga
