/-
An executable version of the check loop for QF_LRA, for examples. The variable order picks the first
variable that is not assigned, there are no restarts.
-/
import Verif.Model.QfLra

namespace Yaga
namespace Qf

/-- Order for examples: any declared variable that is not assigned, `none` if there is none. -/
def anyOrder : QOrder Unit where
  pick _ la v _ la' := la' = la ∧ match v with
    | some v => v.ord < la.trail.numVars v.type ∧ la.trail.level v = none
    | none => ∀ v : Var, v.ord < la.trail.numVars v.type → la.trail.level v ≠ none
  events _ _ _ _ := True
  queried h := h.1 ▸ .refl

/-- The first variable that is not assigned, Boolean variables first. -/
def firstFree (t : Trail Nat) : Option Var :=
  ((List.range t.bools.num).map Var.bool ++ (List.range t.rats.num).map Var.rat).find? fun v => (t.level v).isNone

variable (hv : Nat → Nat) (hc : ℚ → Nat) (op : LaOpts)

/-- Executable `QProp`, src/Theory_combination.cpp:8-29. -/
def propRun : Nat → QS → Option (List Clause × QS)
  | 0, _ => none
  | fuel + 1, q =>
    match BS.propLoop fuel q.s.initProp with
    | none => none
    | some (some c, s) => some ([c], ⟨s, withTrail q.la s.t⟩)
    | some (none, s) =>
      let r := (withTrail q.la s.t).propagate hv hc op
      if r.2 ≠ [] then some (r.2, ⟨follow s r.1, r.1⟩)
      else if recentSize q.s.t = recentSize r.1.trail then some ([], ⟨follow s r.1, r.1⟩)
      else propRun fuel ⟨follow s r.1, r.1⟩

/-- Executable `backtrack_with`, src/Solver.cpp:97-148, for a level that is not negative. -/
def backtrackRun (q : QS) (ls : List Clause) (L : Nat) : Option QS :=
  match ls.head? with
  | none => none
  | some c0 =>
    if isSemanticSplit q.s.t c0 then
      match (topLits q.s.t c0).head? with
      | none => none
      | some x => if ((q.s.t.backtrack L).level x.var).isNone then some (Qf.split q ls L x) else none
    else some (Qf.uip q ls L)

/-- Executable `Iter`, src/Solver.cpp:192-227. -/
def iterRun (fuel : Nat) (c : QC Unit) : Option (Out Unit) :=
  match propRun hv hc op fuel c.q with
  | none => none
  | some ([], q) =>
    match firstFree q.la.trail with
    | none => some (.sat q)
    | some ⟨.boolean, n⟩ => some (.run ⟨⟨q.s.decide (.bool n), withTrail q.la (q.s.decide (.bool n)).t⟩, c.old, ()⟩)
    | some ⟨.rational, n⟩ =>
      (q.la.decide fuel n).map fun la => .run ⟨⟨{ q.s with t := la.trail }, la⟩, c.old, ()⟩
  | some (cs, q) =>
    if q.s.t.decisionLevel = 0 then some .unsat
    else match analyzeConflicts q.s.clause q.s.t cs with
      | none => none
      | some (learned, lvl) =>
        if [] ∈ learned then some .unsat
        else match lvl with
          | some (.ofNat L) =>
            (backtrackRun q (learnSelect q.s.t learned) L).map fun q' => .run ⟨q', c.old, ()⟩
          | _ => none

/-- Executable loop of `check`, src/Solver.cpp:188-228. -/
def checkRun (fuel : Nat) : Nat → QC Unit → Option (Out Unit)
  | 0, _ => none
  | n + 1, c =>
    match iterRun hv hc op fuel c with
    | some (.run c') => checkRun fuel n c'
    | r => r

/-- Creation of a variable (`true`: rational) or a constraint, for examples. -/
inductive BAct where
  | vars (ty : VType) (n : Nat)
  | cons (ts : List (Nat × ℚ)) (p : Pred) (r : ℚ)

/-- Executable `Built`. -/
def buildRun : List BAct → LA Nat × List QAtom → Option (LA Nat × List QAtom)
  | [], r => some r
  | .vars ty n :: as, (la, P) => if la.trail.numVars ty ≤ n then buildRun as (la.resize ty n, P) else none
  | .cons ts p r :: as, (la, P) =>
    if (ts.map (·.1)).Nodup ∧ (∃ q ∈ ts, q.2 ≠ 0) ∧ ∀ q ∈ ts, q.1 < la.trail.rats.num then
      buildRun as ((la.constraint hv hc ts p r).1, P ++ [⟨ts, p, r, (la.constraint hv hc ts p r).2.lit⟩])
    else none

/-- The first state of `check` for the asserted clauses. -/
def startRun (as : List BAct) (A : List Clause) : Option (QC Unit × List QAtom) :=
  match buildRun hv hc as (LA.init, []) with
  | none => none
  | some (la, P) =>
    if A.all fun c => !c.isEmpty && c.all fun l => decide (l.ord < la.trail.bools.num) then
      some (⟨⟨{ BS.new with cls := A, na := A.length, t := la.trail }, la⟩, 0, ()⟩, P)
    else none

end Qf
end Yaga
