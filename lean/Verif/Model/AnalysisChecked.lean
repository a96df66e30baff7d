/-
Model of `src/Conflict_analysis.h`, `src/Conflict_analysis.cpp` and of `Solver::analyze_conflicts` and
`Solver::learn` (src/Solver.cpp) with every undefined behaviour: `none` means a failed `assert`, `value()` of an
empty `optional`, an access outside a vector, or `erase(end())`.
-/
import Verif.Model.Learn
import Verif.Model.SubsumptionChecked

namespace Yaga
variable {R : Type}

/-- The Boolean variables of the literals exist: `var_level`, `var_reason` and the model are vectors of the size of
the model (src/Trail.cpp:6-18). -/
def Trail.knows (t : Trail R) (c : Clause) : Bool := c.all fun l => Nat.blt l.ord t.bools.num

namespace CA

/-- `init`, src/Conflict_analysis.cpp:5-18, with `value()` in lines 12 and 16. -/
def initC (t : Trail R) (clause : Clause) : Option CA :=
  if t.knows clause then
    (initLoop t clause [] 0).bind fun r =>
      if r.1.all fun l => (t.level l.var).isSome then some ⟨r.1, r.2, countLevel t r.1 r.2⟩ else none
  else none

/-- `resolve`, src/Conflict_analysis.cpp:20-40, with the assertions in lines 22 and 36 and the iterator of
line 38. -/
def resolveC (t : Trail R) (c : CA) (other : Clause) (lit : Lit) : Option CA :=
  if c.canResolve lit && t.knows other then
    let c' := resolveLoop t lit other c
    if t.level lit.var = some c.topLevel then
      if lit ∈ c'.conflict then
        some { c' with conflict := c'.conflict.erase lit, numTop := c'.numTop - 1 }
      else none
    else none
  else none

/-- Loop of `analyze`, src/Conflict_analysis.h:40-55; `value()` in line 45 is only reached for a Boolean variable with
a reason. -/
def loopC (deref : R → Clause) (t : Trail R) : List (Asg R) → CA → Option CA
  | [], c => some c
  | a :: as, c =>
    if c.canBacktrack then some c
    else
      match a.reason with
      | none => loopC deref t as c
      | some r =>
        if a.var.type = .boolean then
          match t.level a.var with
          | none => none
          | some n =>
            if n = c.topLevel then
              let lit := Lit.ofVal a.var.ord (!t.bools.value a.var.ord)
              if c.canResolve lit then (c.resolveC t (deref r) lit).bind (loopC deref t as)
              else loopC deref t as c
            else loopC deref t as c
        else loopC deref t as c

/-- `finish`, src/Conflict_analysis.cpp:42-66, with the assertion in line 58 and `value()` in line 65. -/
def finishC (t : Trail R) (c : CA) : Option (Clause × Int) :=
  if c.conflict = [] then some ([], -1)
  else
    let clause := sortBy (before t) c.conflict
    if t.knows clause && decide (evalClause t.bools clause = some false) then
      if c.numTop ≥ 2 then some (clause, (c.topLevel : Int) - 1)
      else
        match clause with
        | _ :: second :: _ =>
          match t.level second.var with
          | none => none
          | some l => some (clause, (l : Int))
        | _ => some (clause, 0)
    else none

end CA

/-- `analyze`, src/Conflict_analysis.h:32-58, with the assertion in line 36; `assigned(top_level)` is an element of a
vector (src/Trail.h:98). -/
def analyzeC (deref : R → Clause) (t : Trail R) (conflict : Clause) : Option (Clause × Int) :=
  if t.knows conflict && decide (evalClause t.bools conflict = some false) then
    (CA.initC t conflict).bind fun c =>
      if c.topLevel < t.levels.length then
        (CA.loopC deref t (t.assigned c.topLevel).reverse c).bind (CA.finishC t)
      else none
  else none

/-- Analysis and minimisation of one conflict, src/Solver.cpp:25-33; `bits` is the size of the bitset of
`Subsumption`. -/
def analyzeOneC (bits : Nat) (deref : R → Clause) (t : Trail R) (conflict : Clause) : Option (Clause × Int) :=
  (analyzeC deref t conflict).bind fun r =>
    if r.1 = [] then some r else (Subs.minimizeC bits deref t r.1).map fun c => (c, r.2)

/-- `analyze_conflicts`, src/Solver.cpp:15-48. -/
def analyzeConflictsC (bits : Nat) (deref : R → Clause) (t : Trail R) (conflicts : List Clause) :
    Option (List Clause × Option Int) :=
  (conflicts.mapM (analyzeOneC bits deref t)).map fun rs => selectLowest rs ([], none)

/-- `is_semantic_split`, src/Solver.cpp:91-95, with both `value()`. -/
def isSemanticSplitC (t : Trail R) : Clause → Option Bool
  | a :: b :: _ =>
    match t.level a.var, t.level b.var with
    | some m, some n => some (m == n)
    | _, _ => none
  | _ => some false

/-- `std::any_of`, src/Solver.cpp:70-72. -/
def anyUipC (t : Trail R) : List Clause → Option Bool
  | [] => some false
  | c :: cs =>
    match isSemanticSplitC t c with
    | none => none
    | some false => some true
    | some true => anyUipC t cs

/-- `std::remove_if`, src/Solver.cpp:74-76. -/
def filterUipC (t : Trail R) : List Clause → Option (List Clause)
  | [] => some []
  | c :: cs =>
    match isSemanticSplitC t c, filterUipC t cs with
    | some true, some r => some r
    | some false, some r => some (c :: r)
    | _, _ => none

/-- The clauses `learn` adds to the database, src/Solver.cpp:50-77. -/
def learnSelectC (t : Trail R) (clauses : List Clause) : Option (List Clause) :=
  let cs := uniq (sortBy clauseLt clauses)
  (anyUipC t cs).bind fun b => if b then filterUipC t cs else some cs

end Yaga
