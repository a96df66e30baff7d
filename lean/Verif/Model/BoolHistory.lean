/-
Histories of calls to the Boolean plugin, and the parts of `Solver::learn` and
`Solver::backtrack_with` that change the state the plugin works on.
-/
import Verif.Model.BoolTheory
import Verif.Model.Learn

namespace Yaga
namespace BS

/-- The loop of `learn` that adds the clauses, src/Solver.cpp:79-86, with the event for the Boolean
plugin. -/
def learnAll (s : BS) (cs : List Clause) : BS := cs.foldl learnClause s

/-- `set_value` and `Trail::propagate` for a literal, src/Solver.cpp:144-145 and
src/bool/Bool_theory.cpp:136-138. -/
def assignLit (s : BS) (l : Lit) (r : Option Nat) (lvl : Nat) : BS :=
  { s with t := (s.t.propagate l.var r lvl).setValue l.var (.b (!l.isNeg)) }

/-- Propagation of the first literals of the learned clauses, src/Solver.cpp:139-147; `r` is the
index of the first of them in the database. -/
def propHeads (lvl : Nat) : List Clause → Nat → BS → BS
  | [], _, s => s
  | [] :: cs, r, s => propHeads lvl cs (r + 1) s   -- undefined behaviour, learned clauses are not empty
  | (x :: _) :: cs, r, s =>
    propHeads lvl cs (r + 1) (if s.t.bools.defined x.ord then s else s.assignLit x (some r) lvl)

/-- `on_before_backtrack` followed by `Trail::backtrack`, src/Solver.cpp:99, 125 and 136. -/
def backtrackTo (s : BS) (lvl : Nat) : BS :=
  { s.onBeforeBacktrack lvl with t := s.t.backtrack lvl }

/-- `backtrack_with` for clauses that are not semantic splits, src/Solver.cpp:97-100, 130-148. The
clauses are the last ones of the database. -/
def backtrackUip (s : BS) (cs : List Clause) (lvl : Nat) : BS :=
  propHeads lvl cs (s.cls.length - cs.length) (s.backtrackTo lvl)

/-- A value of a variable set by another plugin (`Trail::propagate` without a reason and
`set_value`, e.g. src/lra/Linear_arithmetic.cpp:361-378). -/
def assignOther (s : BS) (v : Var) (x : Val) (lvl : Nat) : BS :=
  { s with t := (s.t.propagate v none lvl).setValue v x }

/-- A decision (src/bool/Bool_theory.cpp:5-27, src/lra/Linear_arithmetic.cpp:506-545 or the semantic
split of src/Solver.cpp:126-128). -/
def decideOther (s : BS) (v : Var) (x : Val) : BS :=
  { s with t := (s.t.decide v).setValue v x }

/-- New variables: `Trail::resize` (src/Trail.cpp:6-18) with the event for the Boolean plugin. -/
def resizeBool (s : BS) (n : Nat) : BS :=
  { s with t := s.t.resize .boolean n }.onResize s.t.bools.num n

/-- The database has no empty clause and only declared variables. -/
structure DbOk (s : BS) : Prop where
  ne : ∀ r < s.cls.length, s.clause r ≠ []
  range : ∀ r < s.cls.length, ∀ l ∈ s.clause r, l.ord < s.t.bools.num

/-- A clause that may be given to the database. -/
def ClauseOk (s : BS) (c : Clause) : Prop := c ≠ [] ∧ ∀ l ∈ c, l.ord < s.t.bools.num

/-- Histories of calls that only respect the preconditions of each single call. The solver starts
with an empty trail and any database without empty clauses (this covers restarts, which empty the
trail, and clauses that are asserted while the trail is empty), calls `propagate`, and from then on
propagates, decides, assigns, learns, backtracks and declares variables in any order. The flag says
whether `propagate` was called since the start. -/
inductive AnyHist : Bool → BS → Prop where
  | start (s : BS) : s.t = s.t.clear → DbOk s → AnyHist false s
  | propagate {b : Bool} {s s' : BS} {c : Option Clause} :
      AnyHist b s → Propagates s c s' → AnyHist true s'
  | assign {s : BS} {v : Var} {r : Option Nat} {lvl : Nat} {x : Val} :
      AnyHist true s → s.t.Pre (.propagate v r lvl x) →
      AnyHist true { s with t := s.t.step (.propagate v r lvl x) }
  | decide {s : BS} {v : Var} {x : Val} :
      AnyHist true s → s.t.Pre (.decide v x) → AnyHist true { s with t := s.t.step (.decide v x) }
  | learn {s : BS} {c : Clause} : AnyHist true s → ClauseOk s c → AnyHist true (s.learnClause c)
  | backtrack {s : BS} {lvl : Nat} :
      AnyHist true s → lvl ≤ s.t.decisionLevel → AnyHist true (s.backtrackTo lvl)
  | resizeBool {s : BS} {n : Nat} :
      AnyHist true s → s.t.bools.num ≤ n → AnyHist true (s.resizeBool n)
  | resizeRat {s : BS} {n : Nat} :
      AnyHist true s → s.t.rats.num ≤ n → AnyHist true { s with t := s.t.resize .rational n }

/-- A clause from which the solver can backtrack to level `lvl` (C06): its first literal is undone,
all other literals stay false, and the second one was assigned at this level. -/
def Asserting (s : BS) (lvl : Nat) (c : Clause) : Prop :=
  ∃ x rest, c = x :: rest ∧ (∃ k, s.t.level x.var = some k ∧ lvl < k) ∧
    (∀ m ∈ rest, evalLit s.t.bools m = some false ∧ ∃ k ≤ lvl, s.t.level m.var = some k) ∧
    (rest = [] → lvl = 0) ∧ (∀ y ys, rest = y :: ys → s.t.level y.var = some lvl)

/-- A clause from which the solver makes a semantic split at level `lvl` (C06): its first two literals
are undone. -/
def Splitting (s : BS) (lvl : Nat) (c : Clause) : Prop :=
  ∃ x y rest, c = x :: y :: rest ∧ (∃ k, s.t.level x.var = some k ∧ lvl < k) ∧
    ∃ k, s.t.level y.var = some k ∧ lvl < k

/-- What happened last: `fresh` the trail is empty and watches are not built; `ready` propagation
is to be called; `conflict` a plugin found a conflict; `complete` the Boolean plugin propagated
without conflict and nothing changed since. -/
inductive Stage where
  | fresh | ready | conflict | complete
  deriving DecidableEq

/-- Histories of the check loop (src/Solver.cpp:188-228 with src/Theory_combination.cpp:8-29):
propagation is repeated while other plugins assign variables (at any level) or declare variables,
decisions are made when the Boolean plugin has nothing left to propagate, and after a conflict the solver
learns asserting clauses and backtracks, restarts, or makes a semantic split. In a semantic split no
false watched literal that stays was propagated late, that is, listed above its level; `C59` shows this
for QF_LRA. -/
inductive Hist : Stage → BS → Prop where
  | start (s : BS) : s.t = s.t.clear → DbOk s → Hist .fresh s
  | propFresh {s s' : BS} {c : Option Clause} : Hist .fresh s → Propagates s c s' →
      Hist (if c = none then .complete else .conflict) s'
  | prop {s s' : BS} {c : Option Clause} : Hist .ready s → Propagates s c s' →
      Hist (if c = none then .complete else .conflict) s'
  | relax {s : BS} : Hist .complete s → Hist .ready s
  | assign {s : BS} {v : Var} {lvl : Nat} {x : Val} : Hist .ready s →
      s.t.Pre (.propagate v none lvl x) → Hist .ready (s.assignOther v x lvl)
  | resizeBool {s : BS} {n : Nat} : Hist .ready s → s.t.bools.num ≤ n → Hist .ready (s.resizeBool n)
  | resizeRat {s : BS} {n : Nat} : Hist .ready s → s.t.rats.num ≤ n →
      Hist .ready { s with t := s.t.resize .rational n }
  | otherConflict {s : BS} : Hist .ready s → Hist .conflict s
  | decide {s : BS} {v : Var} {x : Val} : Hist .complete s → s.t.Pre (.decide v x) →
      Hist .ready (s.decideOther v x)
  | jump {s : BS} {cs : List Clause} {lvl : Nat} : Hist .conflict s → lvl < s.t.decisionLevel →
      (∀ c ∈ cs, ClauseOk s c ∧ Asserting s lvl c) →
      Hist .ready ((s.learnAll cs).backtrackUip cs lvl)
  | split {s : BS} {cs : List Clause} {lvl : Nat} {v : Var} {x : Val} : Hist .conflict s →
      lvl < s.t.decisionLevel → (∀ c ∈ cs, ClauseOk s c ∧ Splitting s lvl c) →
      (∀ r < s.cls.length, ∀ w ∈ (s.clause r).take 2, evalLit s.t.bools w = some false →
        ∀ k ≤ lvl, s.t.level w.var = some k → ∀ a ∈ s.t.assigned (lvl + 1), a.var ≠ w.var) →
      ((s.learnAll cs).backtrackTo lvl).t.Pre (.decide v x) →
      Hist .ready (((s.learnAll cs).backtrackTo lvl).decideOther v x)

end BS
end Yaga
