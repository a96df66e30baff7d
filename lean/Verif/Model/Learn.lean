/-
Model of `Solver::analyze_conflicts` (selection of clauses) and `Solver::learn`, src/Solver.cpp.
-/
import Verif.Model.Analysis
import Verif.Model.Subsumption

namespace Yaga
variable {R : Type}

/-- `std::vector<Literal>` compared with `<`: lexicographic on `Literal::operator<=>`. -/
def clauseLexLt : Clause → Clause → Bool
  | [], [] => false
  | [], _ :: _ => true
  | _ :: _, [] => false
  | a :: as, b :: bs => decide (a.index < b.index) || (a.index == b.index && clauseLexLt as bs)

/-- Comparison of the sort in `learn`, src/Solver.cpp:53-66: by size, then lexicographic. -/
def clauseLt (a b : Clause) : Bool :=
  decide (a.length < b.length) || (a.length == b.length && clauseLexLt a b)

/-- `is_semantic_split`, src/Solver.cpp:91-95. Precondition: the first two literals are assigned
(`optional::value()` throws otherwise). -/
def isSemanticSplit (t : Trail R) : Clause → Bool
  | a :: b :: _ => t.level a.var == t.level b.var
  | _ => false

/-- The clauses `learn` adds to the database, in this order, src/Solver.cpp:50-77. -/
def learnSelect (t : Trail R) (clauses : List Clause) : List Clause :=
  let cs := uniq (sortBy clauseLt clauses)
  if cs.any fun c => !isSemanticSplit t c then cs.filter fun c => !isSemanticSplit t c else cs

/-- `learn`, src/Solver.cpp:50-89, on the learned part of the database: the new learned clauses and
the returned range. The events (line 85) are raised once per added clause in this order. -/
def learn (t : Trail R) (learned : List Clause) (clauses : List Clause) :
    List Clause × List Clause :=
  let cs := learnSelect t clauses
  (learned ++ cs, cs)

/-- Loop of `analyze_conflicts`, src/Solver.cpp:20-46, after analysis and minimisation of each
conflict: keep the clauses with the lowest level seen so far. `none` is the initial level
`numeric_limits<int>::max()`. -/
def selectLowest : List (Clause × Int) → List Clause × Option Int → List Clause × Option Int
  | [], acc => acc
  | (c, l) :: rest, (_, none) => selectLowest rest ([c], some l)
  | (c, l) :: rest, (cs, some lvl) =>
    if l < lvl then selectLowest rest ([c], some l)
    else if l = lvl then selectLowest rest (cs ++ [c], some lvl)
    else selectLowest rest (cs, some lvl)

/-- Analysis of one conflict, src/Solver.cpp:25-33. -/
def analyzeOne (deref : R → Clause) (t : Trail R) (conflict : Clause) : Option (Clause × Int) :=
  (analyze deref t conflict).map fun (c, l) => (if c = [] then c else minimize deref t c, l)

/-- `analyze_conflicts`, src/Solver.cpp:15-48. `none`: an exception in the analysis. -/
def analyzeConflicts (deref : R → Clause) (t : Trail R) (conflicts : List Clause) :
    Option (List Clause × Option Int) :=
  (conflicts.mapM (analyzeOne deref t)).map fun rs => selectLowest rs ([], none)

end Yaga
