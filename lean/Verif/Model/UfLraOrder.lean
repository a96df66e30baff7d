/-
`Generalized_vsids` as the variable order of the solver for QF_UFLRA (`Qf_uflra::setup`, src/Yaga.cpp:38-60).
-/
import Verif.Model.QfOrder
import Verif.Model.QfOrderRun
import Verif.Model.UfLraRun

namespace Yaga
namespace Ufl
variable {S : Type} [LinearOrder S] [ScoreOps S]

/-- The order at the first call of `check` after `Solver::init` (src/Solver.cpp:159-176): it knows the declared
variables, and `on_init` bumped the variables of the asserted clauses. -/
def OrderStart (E : Env) (c : UC (GVsids S)) : Prop := Qf.OrderStart E.st.clauses (⟨c.u.q, c.old, c.o⟩ : QC (GVsids S))

/-- The first state of `check` with the order, for a state without one: `Solver::init`, src/Solver.cpp:159-176. -/
def gvStart (E : Env) (c : UC Unit) : UC (GVsids S) :=
  ⟨c.u, c.old, (Qf.gvStart E.st.clauses ⟨c.u.q, c.old, c.o⟩).o⟩

variable (E : Env)

/-- Executable `Iter` with the order, src/Solver.cpp:192-227; `rs` is the answer of the restart policy. -/
def gvIterRun (fuel : Nat) (rs : Bool) (c : UC (GVsids S)) : Option (Out (GVsids S)) :=
  match propRun E fuel c.u with
  | none => none
  | some ([], x) =>
    match (c.o.sync x.q.la.trail).pickLa x.q.la with
    | none => none
    | some (_, none, la) => some (.sat ⟨⟨x.q.s, la⟩, x.f⟩)
    | some (o, some ⟨.boolean, n⟩, la) =>
      some (.run ⟨⟨⟨x.q.s.decide (.bool n), Qf.withTrail la (x.q.s.decide (.bool n)).t⟩, x.f⟩, c.old, o⟩)
    | some (o, some ⟨.rational, n⟩, la0) =>
      (la0.decide fuel n).map fun la => .run ⟨⟨⟨{ x.q.s with t := la.trail }, la⟩, x.f⟩, c.old, o⟩
  | some (cs, x) =>
    if x.q.s.t.decisionLevel = 0 then some .unsat
    else match analyzeConflicts x.q.s.clause x.q.s.t cs with
      | none => none
      | some (learned, lvl) =>
        if [] ∈ learned then some .unsat
        else match lvl with
          | some (.ofNat L) =>
            let ls := learnSelect x.q.s.t learned
            if rs then
              let q' := Qf.restart x.q ls c.old
              some (.run ⟨⟨q', x.f.back 0⟩, (q'.s.cls.drop x.q.s.na).length, Qf.gvEvents c.o x.q.la ls 0⟩)
            else (Qf.backtrackRun x.q ls L).map fun q' => .run ⟨⟨q', x.f.back L⟩, c.old, Qf.gvEvents c.o x.q.la ls L⟩
          | _ => none

/-- Executable loop of `check`, src/Solver.cpp:188-228, for given answers of the restart policy. -/
def gvCheckRun (fuel : Nat) : List Bool → UC (GVsids S) → Option (Out (GVsids S))
  | [], _ => none
  | rs :: rss, c =>
    match gvIterRun E fuel rs c with
    | some (.run c') => gvCheckRun fuel rss c'
    | r => r

end Ufl
end Yaga
