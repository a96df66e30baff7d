/-
An executable version of the check loop for QF_UFLRA, for examples. The variable order picks the first
variable of a list that is not assigned, there are no restarts.
-/
import Verif.Model.QfRun
import Verif.Model.UfLra

namespace Yaga
namespace Ufl

/-- The first variable of a list that is declared and not assigned, or any such variable. -/
def firstOf (prio : List Var) (t : Trail Nat) : Option Var :=
  match prio.find? fun v => decide (v.ord < t.numVars v.type) && (t.level v).isNone with
  | some v => some v
  | none => Qf.firstFree t

variable (E : Env) (prio : List Var)

/-- Executable `UProp`, src/Theory_combination.cpp:8-29. -/
def propRun : Nat → US → Option (List Clause × US)
  | 0, _ => none
  | fuel + 1, x =>
    match BS.propLoop fuel x.q.s.initProp with
    | none => none
    | some (some c, s) => some ([c], ⟨⟨s, Qf.withTrail x.q.la s.t⟩, x.f⟩)
    | some (none, s) =>
      let r := E.lra x.q s
      if r.2 ≠ [] then some (r.2, ⟨⟨Qf.follow s r.1, r.1⟩, x.f⟩)
      else match UF.propagate E.cfg E.s (view E.st r.1 x.f) with
        | none => none
        | some (u, cs) =>
          let x' : US := ⟨⟨Qf.follow s (absorb r.1 u), absorb r.1 u⟩, .of u⟩
          if cs ≠ [] then some (cs, x')
          else if Qf.recentSize x.q.s.t = Qf.recentSize u.trail then some ([], x')
          else propRun fuel x'

/-- Executable `Iter`, src/Solver.cpp:192-227. -/
def iterRun (fuel : Nat) (c : UC Unit) : Option (Out Unit) :=
  match propRun E fuel c.u with
  | none => none
  | some ([], x) =>
    match firstOf prio x.q.la.trail with
    | none => some (.sat x)
    | some ⟨.boolean, n⟩ =>
      some (.run ⟨⟨⟨x.q.s.decide (.bool n), Qf.withTrail x.q.la (x.q.s.decide (.bool n)).t⟩, x.f⟩, c.old, ()⟩)
    | some ⟨.rational, n⟩ =>
      (x.q.la.decide fuel n).map fun la => .run ⟨⟨⟨{ x.q.s with t := la.trail }, la⟩, x.f⟩, c.old, ()⟩
  | some (cs, x) =>
    if x.q.s.t.decisionLevel = 0 then some .unsat
    else match analyzeConflicts x.q.s.clause x.q.s.t cs with
      | none => none
      | some (learned, lvl) =>
        if [] ∈ learned then some .unsat
        else match lvl with
          | some (.ofNat L) =>
            (Qf.backtrackRun x.q (learnSelect x.q.s.t learned) L).map fun q' => .run ⟨⟨q', x.f.back L⟩, c.old, ()⟩
          | _ => none

/-- Executable loop of `check`, src/Solver.cpp:188-228. -/
def checkRun (fuel : Nat) : Nat → UC Unit → Option (Out Unit)
  | 0, _ => none
  | n + 1, c =>
    match iterRun E prio fuel c with
    | some (.run c') => checkRun fuel n c'
    | r => r

/-- Some iterations of the loop. -/
def stepsRun (fuel : Nat) : Nat → UC Unit → Option (UC Unit)
  | 0, c => some c
  | n + 1, c =>
    match iterRun E prio fuel c with
    | some (.run c') => stepsRun fuel n c'
    | _ => none

/-- The first state of `check` for a script. -/
def startRun (as : List Qf.BAct) : Option (UC Unit × List QAtom) :=
  match Qf.startRun E.cfg.hv E.cfg.hc as E.st.clauses with
  | none => none
  | some (c, P) =>
    if c.q.la.store.vars = E.st.store.vars ∧ c.q.la.store.coefs = E.st.store.coefs ∧
        c.q.la.store.cons = E.st.store.cons ∧ c.q.la.store.set = E.st.store.set ∧
        c.q.la.trail.bools.num = E.st.numBool ∧ c.q.la.trail.rats.num = E.st.numRat then
      some (⟨⟨c.q, .start E.s E.st⟩, c.old, c.o⟩, P)
    else none

end Ufl
end Yaga
