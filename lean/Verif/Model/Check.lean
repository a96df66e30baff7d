/-
Model of the main loop `Solver::check`, src/Solver.cpp:188-228, with `Theory_combination::propagate`,
src/Theory_combination.cpp:8-29. The plugins other than the Boolean one, the variable order and the
restart policy are described by relations: what they may do.
-/
import Verif.Model.BoolHistory

namespace Yaga

/-- What the other plugins and the variable order may do in a state. `assign`: `Trail::propagate`
without a reason (all calls in src/lra and src/uf pass `nullptr`); `resize`: declaration of new
variables for new constraints; `conflict`: a conflict clause they return; `choose`: a value decided
for a rational variable; `pick`: an answer of `Variable_order::pick` with the new state of the order;
`events`: changes of the order by events. -/
structure Env (O : Type) where
  assign : BS → Var → Val → Nat → Prop
  resize : BS → VType → Nat → Prop
  conflict : BS → Clause → Prop
  choose : BS → Var → Val → Prop
  pick : O → BS → Option Var → O → Prop
  events : O → O → Prop

/-- State of the solver: Boolean plugin, database and trail; `old_size` of the subsumption
(src/Subsumption.h:81); state of the variable order. -/
structure CS (O : Type) where
  s : BS
  old : Nat
  o : O

namespace Check
variable {O : Type} (E : Env O)

/-- Declarations of new variables by other plugins. -/
inductive Resizes : BS → BS → Prop where
  | refl (s : BS) : Resizes s s
  | bool {s s' : BS} {n : Nat} : E.resize s .boolean n → s.t.bools.num ≤ n →
      Resizes (s.resizeBool n) s' → Resizes s s'
  | rat {s s' : BS} {n : Nat} : E.resize s .rational n → s.t.rats.num ≤ n →
      Resizes { s with t := s.t.resize .rational n } s' → Resizes s s'

/-- What the other plugins do in one round of propagation. -/
inductive Others : BS → BS → Prop where
  | resizes {s s' : BS} : Resizes E s s' → Others s s'
  | assign {s s1 s' : BS} {v : Var} {x : Val} {lvl : Nat} : Resizes E s s1 → E.assign s1 v x lvl →
      s1.t.Pre (.propagate v none lvl x) → Others (s1.assignOther v x lvl) s' → Others s s'

/-- `propagate`, src/Theory_combination.cpp:8-29 (for a single Boolean plugin,
src/Solver.cpp:190-193 calls it directly; that is `boolConflict` and `done`): conflicts and the state
at the end. The Boolean plugin is called first in every round. -/
inductive PropRun : BS → List Clause → BS → Prop where
  | boolConflict {s s' : BS} {c : Clause} : s.Propagates (some c) s' → PropRun s [c] s'
  | otherConflict {s s1 s' : BS} {cs : List Clause} : s.Propagates none s1 → Others E s1 s' →
      cs ≠ [] → (∀ c ∈ cs, E.conflict s' c) → PropRun s cs s'
  | done {s s1 s' : BS} : s.Propagates none s1 → Resizes E s1 s' → PropRun s [] s'
  | again {s s1 s2 s' : BS} {cs : List Clause} : s.Propagates none s1 → Others E s1 s2 →
      PropRun s2 cs s' → PropRun s cs s'

/-- `restart`, src/Solver.cpp:178-186, for the Boolean plugin, the trail, and the learned clauses
(src/Subsumption.cpp:30). -/
def restart (s : BS) (old : Nat) : BS :=
  { s.onBeforeBacktrack 0 with
    t := s.t.clear
    cls := s.cls.take s.na ++ removeSubsumed (s.cls.drop s.na) old }

/-- Result of one iteration of the loop. -/
inductive Out (O : Type) where
  | unsat
  | sat (s : BS)
  | run (c : CS O)

/-- The clauses that `analyze_conflicts` and `learn` produce from conflicts and the level to
backtrack to, src/Solver.cpp:203-209; no clause is empty. -/
structure Learned (s : BS) (cs : List Clause) (ls : List Clause) (lvl : Int) : Prop where
  analysed : ∃ learned, analyzeConflicts s.clause s.t cs = some (learned, some lvl) ∧
    [] ∉ learned ∧ ls = learnSelect s.t learned

/-- One iteration of the loop of `check`, src/Solver.cpp:192-227. The choice between `restart` and
`backtrack_with` (restart policy) is arbitrary. In `split` the literal is one of the first literals
of the first clause, all of the same level (src/Solver.cpp:108-118); which one depends on the
variable order. Executions that violate a precondition of `Trail::backtrack` or `Trail::decide` (a
negative level, an assigned variable) have no result here. -/
inductive Iter : CS O → Out O → Prop where
  | unsatZero {c : CS O} {cs : List Clause} {s : BS} : PropRun E c.s cs s → cs ≠ [] →
      s.t.decisionLevel = 0 → Iter c .unsat
  | unsatEmpty {c : CS O} {cs : List Clause} {s : BS} {learned : List Clause} {lvl : Option Int} :
      PropRun E c.s cs s → cs ≠ [] → s.t.decisionLevel ≠ 0 →
      analyzeConflicts s.clause s.t cs = some (learned, lvl) → [] ∈ learned → Iter c .unsat
  | restart {c : CS O} {cs : List Clause} {s : BS} {ls : List Clause} {lvl : Int} {o : O} :
      PropRun E c.s cs s → cs ≠ [] → s.t.decisionLevel ≠ 0 → Learned s cs ls lvl → E.events c.o o →
      Iter c (.run ⟨Check.restart (s.learnAll ls) c.old,
        ((Check.restart (s.learnAll ls) c.old).cls.drop s.na).length, o⟩)
  | uip {c : CS O} {cs : List Clause} {s : BS} {ls : List Clause} {L : Nat} {o : O} :
      PropRun E c.s cs s → cs ≠ [] → s.t.decisionLevel ≠ 0 → Learned s cs ls L → E.events c.o o →
      L ≤ s.t.decisionLevel → ls.head?.any (isSemanticSplit s.t) = false →
      Iter c (.run ⟨(s.learnAll ls).backtrackUip ls L, c.old, o⟩)
  | split {c : CS O} {cs : List Clause} {s : BS} {ls : List Clause} {L : Nat} {o : O}
      {c0 : Clause} {x : Lit} :
      PropRun E c.s cs s → cs ≠ [] → s.t.decisionLevel ≠ 0 → Learned s cs ls L → E.events c.o o →
      L ≤ s.t.decisionLevel → ls.head? = some c0 → isSemanticSplit s.t c0 = true → x ∈ c0 →
      (s.t.backtrack L).Pre (.decide x.var (.b (!x.isNeg))) →
      Iter c (.run ⟨((s.learnAll ls).backtrackTo L).decideOther x.var (.b (!x.isNeg)), c.old, o⟩)
  | sat {c : CS O} {s : BS} {o : O} : PropRun E c.s [] s → E.pick c.o s none o → Iter c (.sat s)
  | decideBool {c : CS O} {s : BS} {o : O} {n : Nat} : PropRun E c.s [] s →
      E.pick c.o s (some (.bool n)) o → Iter c (.run ⟨s.decide (.bool n), c.old, o⟩)
  | decideRat {c : CS O} {s : BS} {o : O} {n : Nat} {x : Val} : PropRun E c.s [] s →
      E.pick c.o s (some (.rat n)) o → E.choose s (.rat n) x → x.hasType .rational = true →
      Iter c (.run ⟨s.decideOther (.rat n) x, c.old, o⟩)

/-- States of the loop. -/
inductive Reach (c0 : CS O) : CS O → Prop where
  | refl : Reach c0 c0
  | step {c c' : CS O} : Reach c0 c → Iter E c (.run c') → Reach c0 c'

/-- `check` started in `c0` returns this. -/
def Returns (c0 : CS O) (out : Out O) : Prop := ∃ c, Reach E c0 c ∧ Iter E c out

/-- State at the first call of `check` for the asserted clauses `A`: nothing is assigned or learned,
no clause is empty and all its variables are declared. (`init`, src/Solver.cpp:159-176, tells the
Boolean plugin the number of variables; `propagate` builds the watch lists because the trail is
empty.) -/
structure Start (A : List Clause) (c : CS O) : Prop where
  empty : c.s.t = c.s.t.clear
  cls : c.s.cls = A
  na : c.s.na = A.length
  old : c.old = 0
  db : c.s.DbOk

end Check
end Yaga
