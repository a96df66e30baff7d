/-
Model of `Solver::backtrack_with` (src/Solver.cpp:97-148) on the trail with every undefined behaviour: `none` means a
failed `assert` (also those of src/Trail.h), `value()` of an empty `optional`, or an access outside a vector.
-/
import Verif.Model.AnalysisChecked
import Verif.Model.BoolHistory
import Verif.Model.QfLra

namespace Yaga
variable {R : Type}

namespace Trail

/-- `backtrack`, src/Trail.h:215-232, with the assertions in lines 217 and 231. Simplification: the accesses to
`var_level`, `var_reason` and the models concern variables of the trail and are not checked. -/
def backtrackC (t : Trail R) (lvl : Int) : Option (Trail R) :=
  if 0 ≤ lvl then
    if (t.backtrack lvl.toNat).decisionLevel = lvl.toNat then some (t.backtrack lvl.toNat) else none
  else none

/-- `decide`, src/Trail.h:177-186; the variable exists. -/
def decideC (t : Trail R) (v : Var) : Option (Trail R) :=
  if v.ord < t.numVars v.type then some (t.decide v) else none

/-- `propagate`, src/Trail.h:196-209, with the assertion in line 198; the variable exists. -/
def propagateC (t : Trail R) (v : Var) (r : Option R) (lvl : Int) : Option (Trail R) :=
  if 0 ≤ lvl ∧ lvl ≤ t.decisionLevel ∧ v.ord < t.numVars v.type then some (t.propagate v r lvl.toNat) else none

end Trail

/-- The loop of src/Solver.cpp:111-118 with the assertion in line 114; `before` is `variable_order->is_before`. -/
def pickTopC (before : Var → Var → Bool) (t : Trail R) (top : Nat) : List Lit → Lit → Option Lit
  | [], best => some best
  | y :: ys, best =>
    if t.level y.var = some top then
      if (t.reason y.var).isNone then pickTopC before t top ys (if before y.var best.var then y else best) else none
    else some best

/-- The assertions in src/Solver.cpp:104-106 and 133-135: all clauses are of the same sort as the first one. -/
def allSplitC (t : Trail R) (b : Bool) : List Clause → Option Unit
  | [] => some ()
  | c :: cs => if isSemanticSplitC t c = some b then allSplitC t b cs else none

/-- The loop of src/Solver.cpp:139-147; `r` is the position of the first clause in the database. -/
def propHeadsC (lvl : Int) : List Clause → Nat → Trail Nat → Option (Trail Nat)
  | [], _, t => some t
  | [] :: _, _, _ => none
  | (x :: _) :: cs, r, t =>
    if x.ord < t.bools.num then
      if t.bools.defined x.ord then propHeadsC lvl cs (r + 1) t
      else (t.propagateC x.var (some r) lvl).bind fun t =>
        propHeadsC lvl cs (r + 1) (t.setValue x.var (.b (!x.isNeg)))
    else none

/-- `backtrack_with`, src/Solver.cpp:97-148, without the event of line 99. -/
def backtrackWithC (before : Var → Var → Bool) (t : Trail Nat) (ls : List Clause) (r : Nat) (lvl : Int) :
    Option (Trail Nat) :=
  match ls with
  | [] => none
  | d :: _ =>
    (isSemanticSplitC t d).bind fun b =>
    (allSplitC t b ls).bind fun _ =>
    if b then
      match d with
      | [] => none
      | x :: xs =>
        match t.level x.var with
        | none => none
        | some top =>
          (pickTopC before t top xs x).bind fun y =>
          if lvl + 1 ≤ t.decisionLevel then
            match (t.assigned (lvl + 1).toNat).head? with
            | none => none
            | some a =>
              if a.var.type = .boolean then none
              else (t.backtrackC lvl).bind fun t => (t.decideC y.var).bind fun t =>
                some (t.setValue y.var (.b (!y.isNeg)))
          else none
    else (t.backtrackC lvl).bind (propHeadsC lvl ls r)

/-- What `check` does with conflicts, src/Solver.cpp:194-215, without restarts (line 210) and events; the result
`some none` is the answer unsat. `bits` is the size of the bit vectors of `Subsumption`, `r` the position of the first
learned clause in the database. Using `level` when `analyze_conflicts` was given no conflict is `none`. -/
def conflictC (before : Var → Var → Bool) (bits : Nat) (s : BS) (cs : List Clause) (r : Nat) :
    Option (Option (Trail Nat)) :=
  if s.t.decisionLevel = 0 then some none
  else
    (analyzeConflictsC bits s.clause s.t cs).bind fun a =>
      if [] ∈ a.1 then some none
      else
        match a.2 with
        | none => none
        | some lvl => (learnSelectC s.t a.1).bind fun ls => (backtrackWithC before s.t ls r lvl).map some

/-- The trail after `backtrack_with` (src/Solver.cpp:97-148) as the unchecked models `BS.backtrackUip` and `Qf.Iter`
describe it: after backtracking, some literal from the top level of the first clause is decided, or all first literals
are propagated. -/
def AfterBacktrack (s : BS) (ls : List Clause) (L r : Nat) (t : Trail Nat) : Prop :=
  (∃ d ∈ ls.head?, isSemanticSplit s.t d = true ∧ ∃ y ∈ Qf.topLits s.t d,
      t = ((s.t.backtrack L).decide y.var).setValue y.var (.b (!y.isNeg))) ∨
    ((∀ d ∈ ls, isSemanticSplit s.t d = false) ∧ t = (BS.propHeads L ls r (s.backtrackTo L)).t)

end Yaga
