/-
An executable version of the check loop for QF_LRA with `Generalized_vsids`, for examples.
-/
import Verif.Model.QfOrder
import Verif.Model.QfRun

namespace Yaga
namespace Qf
variable {S : Type} [LinearOrder S] [ScoreOps S]

/-- The first state of `check` with the order, for a state without one: `Solver::init`,
src/Solver.cpp:159-176. -/
def gvStart (A : List Clause) (c : QC Unit) : QC (GVsids S) :=
  ⟨c.q, c.old, (((GVsids.new : GVsids S).resize .boolean c.q.la.trail.bools.num).resize .rational
    c.q.la.trail.rats.num).onInit c.q.la.cvars A⟩

/-- The order after the events for learned clauses and `on_before_backtrack`, src/Solver.cpp:85 and 99. -/
def gvEvents (o : GVsids S) (la : LA Nat) (ls : List Clause) (L : Nat) : GVsids S :=
  (ls.foldl (GVsids.onLearned la.cvars) (o.sync la.trail)).onBeforeBacktrack la.trail L

variable (hv : Nat → Nat) (hc : ℚ → Nat) (op : LaOpts)

/-- Executable `Iter`, src/Solver.cpp:192-227; `rs` is the answer of the restart policy. -/
def gvIterRun (fuel : Nat) (rs : Bool) (c : QC (GVsids S)) : Option (Out (GVsids S)) :=
  match propRun hv hc op fuel c.q with
  | none => none
  | some ([], q) =>
    match (c.o.sync q.la.trail).pickLa q.la with
    | none => none
    | some (_, none, la) => some (.sat ⟨q.s, la⟩)
    | some (o, some ⟨.boolean, n⟩, la) =>
      some (.run ⟨⟨q.s.decide (.bool n), withTrail la (q.s.decide (.bool n)).t⟩, c.old, o⟩)
    | some (o, some ⟨.rational, n⟩, la0) =>
      (la0.decide fuel n).map fun la => .run ⟨⟨{ q.s with t := la.trail }, la⟩, c.old, o⟩
  | some (cs, q) =>
    if q.s.t.decisionLevel = 0 then some .unsat
    else match analyzeConflicts q.s.clause q.s.t cs with
      | none => none
      | some (learned, lvl) =>
        if [] ∈ learned then some .unsat
        else match lvl with
          | some (.ofNat L) =>
            let ls := learnSelect q.s.t learned
            if rs then
              let q' := Qf.restart q ls c.old
              some (.run ⟨q', (q'.s.cls.drop q.s.na).length, gvEvents c.o q.la ls 0⟩)
            else (backtrackRun q ls L).map fun q' => .run ⟨q', c.old, gvEvents c.o q.la ls L⟩
          | _ => none

/-- Executable loop of `check`, src/Solver.cpp:188-228, with the answers of the restart policy. -/
def gvCheckRun (fuel : Nat) : List Bool → QC (GVsids S) → Option (Out (GVsids S))
  | [], _ => none
  | rs :: rss, c =>
    match gvIterRun hv hc op fuel rs c with
    | some (.run c') => gvCheckRun fuel rss c'
    | r => r

/-- Whether an assertion of the order fails in one of the next iterations. -/
def gvFails (fuel : Nat) : Nat → QC (GVsids S) → Bool
  | 0, _ => false
  | n + 1, c =>
    match propRun hv hc op fuel c.q with
    | some ([], q) =>
      if ((c.o.sync q.la.trail).pickLa q.la).isNone then true
      else match gvIterRun hv hc op fuel false c with
        | some (.run c') => gvFails fuel n c'
        | _ => false
    | _ => false

end Qf
end Yaga
