/-
Model of the program `sat`, src/sat_solver.cpp:16-155: reading a DIMACS file, calling the solver, the
answer and the exit code.
-/
import Verif.Model.Dimacs
import Verif.Model.Propositional

namespace Yaga
namespace SatMain
open Check

/-- `is_satisfying`, src/sat_solver.cpp:16-25: in the asserted clauses of the database, as they are when
the solver stops. -/
def isSatisfying (s : BS) : Bool :=
  (s.cls.take s.na).all fun c => c.any fun l =>
    s.t.bools.defined l.ord && (s.t.bools.value l.ord == !l.isNeg)

variable (S : Type) [LinearOrder S] [ScoreOps S]

/-- The solver when `check` enters its loop for the first time: `set_model` gave the trail `n` variables
(src/sat_solver.cpp:73), the clauses were given to `assert_clause` (src/sat_solver.cpp:101), and `init`
(src/Solver.cpp:159-176) told the order about both. -/
def start (n : Nat) (cls : List Clause) : CS (Evsids S) :=
  ⟨{ BS.new with cls := cls, na := cls.length, t := (Trail.init.resize .boolean n).clear }, 0,
    (Evsids.new.step (.resize n)).step (.init cls)⟩

/-- First line written to the standard output, if there is one, and the exit code. The statistics after the
answer (src/sat_solver.cpp:148-152) are not modelled; neither is a wrong number of arguments
(lines 29-33), nor a file that cannot be opened, which is read as a file without lines. -/
abbrev Out := Option String × Int

/-- The answers of the program for a file with these lines, src/sat_solver.cpp:27-155. The restart policy
is arbitrary here (src/sat_solver.cpp:38). -/
inductive Prints (lines : List (List Char)) : Out → Prop
  /-- src/sat_solver.cpp:62-63, 69-71, 82-83, 87-88, 116-118, 123-124. -/
  | error : readDimacs lines = .error → Prints lines (none, -1)
  /-- src/sat_solver.cpp:93-97. -/
  | empty : readDimacs lines = .unsat → Prints lines (some "UNSAT", 0)
  /-- src/sat_solver.cpp:131-136, 154. -/
  | sat {n cls s} : readDimacs lines = .solve n cls → Returns (propEnv S) (start S n cls) (.sat s) →
      isSatisfying s = true → Prints lines (some "SAT", 1)
  /-- src/sat_solver.cpp:137-141. -/
  | wrong {n cls s} : readDimacs lines = .solve n cls → Returns (propEnv S) (start S n cls) (.sat s) →
      isSatisfying s = false → Prints lines (some "ERROR", -2)
  /-- src/sat_solver.cpp:143-146, 154. -/
  | unsat {n cls} : readDimacs lines = .solve n cls → Returns (propEnv S) (start S n cls) .unsat →
      Prints lines (some "UNSAT", 0)

/-- The call of the solver for a file with these lines goes on for ever. -/
def Endless (lines : List (List Char)) : Prop :=
  ∃ n cls, readDimacs lines = .solve n cls ∧
    ∃ f : Nat → CS (Evsids S), f 0 = start S n cls ∧ ∀ i, Iter (propEnv S) (f i) (.run (f (i + 1)))

end SatMain
end Yaga
