/-
Model of `Solver::check` (src/Solver.cpp:188-228) for the logic QF_LRA as `Qf_lra::setup` configures it
(src/Yaga.cpp:17-36): the Boolean plugin and the plugin for linear arithmetic on one trail.
-/
import Verif.Model.Check
import Verif.Model.LraPluginHistory

namespace Yaga

/-- State of the two plugins. `s` has the clause database. Both have the trail; they agree on it. -/
structure QS where
  s : BS
  la : LA Nat

/-- State of the solver: the plugins, `old_size` of the subsumption (src/Subsumption.h:81) and the
variable order. -/
structure QC (O : Type) where
  q : QS
  old : Nat
  o : O

/-- What a variable order may do to the plugin for linear arithmetic: `is_effectively_decided`
(src/lra/Linear_arithmetic.h:168-184), which removes obsolete bounds, and `effectively_decided`
(Linear_arithmetic.h:186-191), which takes the list of variables with one permitted value. -/
inductive Queried (la : LA Nat) : LA Nat → Prop where
  | refl : Queried la la
  | ask {la' : LA Nat} (h : Queried la la') (x : Nat) : Queried la (la'.effectivelyDecided x).1
  | take {la' : LA Nat} (h : Queried la la') : Queried la la'.takeDecided

/-- The variable order: answers of `Variable_order::pick` with the new states of the order and of the
plugin for linear arithmetic, and changes of the order by the events between a conflict and the end of
backtracking. The number is the level the solver backtracks to, `none` for a restart. `Generalized_vsids`
asks the plugin for linear arithmetic in `pick` (src/variable_order/Generalized_vsids.cpp:78-102). -/
structure QOrder (O : Type) where
  pick : O → LA Nat → Option Var → O → LA Nat → Prop
  events : O → LA Nat → Option Nat → O → Prop
  queried : ∀ {o la v o' la'}, pick o la v o' la' → Queried la la'

/-- A linear constraint `Σ ts pred rhs` and the literal `Linear_arithmetic::constraint` returned for it. -/
structure QAtom where
  ts : List (Nat × ℚ)
  pred : Pred
  rhs : ℚ
  lit : Lit

namespace Qf

/-- The plugin looks at the trail that the other one changed. -/
def withTrail (la : LA Nat) (t : Trail Nat) : LA Nat := { la with trail := t }

/-- The Boolean plugin looks at the trail that the plugin for linear arithmetic changed. The events for
the variables of derived constraints (src/Trail.cpp:16, src/bool/Bool_theory.cpp:29-36) are one event;
they do not depend on the trail. -/
def follow (s : BS) (la : LA Nat) : BS :=
  { s with t := la.trail }.onResize s.t.bools.num la.trail.bools.num

/-- The user declares variables (`Yaga::make`, src/Yaga.cpp) and creates constraints
(src/lra/Linear_arithmetic.h:103-126) before the first check. A constraint has declared, distinct
variables, and a coefficient that is not zero (`watch` has undefined behaviour otherwise). The list has
the created constraints. -/
inductive Built (hv : Nat → Nat) (hc : ℚ → Nat) : LA Nat → List QAtom → Prop where
  | init : Built hv hc LA.init []
  | resize {la P} (h : Built hv hc la P) (ty : VType) (n : Nat) (hn : la.trail.numVars ty ≤ n) :
      Built hv hc (la.resize ty n) P
  | cons {la P} (h : Built hv hc la P) (ts : List (Nat × ℚ)) (p : Pred) (r : ℚ)
      (hnd : (ts.map (·.1)).Nodup) (hne : ∃ q ∈ ts, q.2 ≠ 0) (hdom : ∀ q ∈ ts, q.1 < la.trail.rats.num) :
      Built hv hc (la.constraint hv hc ts p r).1 (P ++ [⟨ts, p, r, (la.constraint hv hc ts p r).2.lit⟩])

/-- State at the first call of `check`: the plugin for linear arithmetic has the constraints `P`, the
database has the asserted clauses `A`, none empty and with declared variables only, nothing is learned. -/
structure Start {O : Type} (hv : Nat → Nat) (hc : ℚ → Nat) (A : List Clause) (P : List QAtom) (c : QC O) :
    Prop where
  built : Built hv hc c.q.la P
  trail : c.q.s.t = c.q.la.trail
  cls : c.q.s.cls = A
  na : c.q.s.na = A.length
  old : c.old = 0
  cur : c.q.s.curLevel ≤ 0
  db : c.q.s.DbOk

variable {O : Type} (hv : Nat → Nat) (hc : ℚ → Nat) (op : LaOpts) (W : QOrder O)

/-- Number of assignments of the current level, `trail.recent().size()`. -/
def recentSize (t : Trail Nat) : Nat := (t.assigned t.decisionLevel).length

/-- `Theory_combination::propagate`, src/Theory_combination.cpp:8-29, for the two plugins: the conflicts
and the state at the end. -/
inductive QProp : QS → List Clause → QS → Prop where
  | boolConflict {q : QS} {s : BS} {c : Clause} (h : q.s.Propagates (some c) s) :
      QProp q [c] ⟨s, withTrail q.la s.t⟩
  | lraConflict {q : QS} {s : BS} {la : LA Nat} {cs : List Clause} (h : q.s.Propagates none s)
      (hp : (withTrail q.la s.t).propagate hv hc op = (la, cs)) (hne : cs ≠ []) :
      QProp q cs ⟨follow s la, la⟩
  | done {q : QS} {s : BS} {la : LA Nat} (h : q.s.Propagates none s)
      (hp : (withTrail q.la s.t).propagate hv hc op = (la, []))
      (hz : recentSize q.s.t = recentSize la.trail) : QProp q [] ⟨follow s la, la⟩
  | again {q q' : QS} {s : BS} {la : LA Nat} {cs : List Clause} (h : q.s.Propagates none s)
      (hp : (withTrail q.la s.t).propagate hv hc op = (la, []))
      (hz : recentSize q.s.t ≠ recentSize la.trail) (hr : QProp ⟨follow s la, la⟩ cs q') : QProp q cs q'

/-- `backtrack_with` for clauses that are no semantic splits, src/Solver.cpp:97-148, after `learn`. -/
def uip (q : QS) (ls : List Clause) (L : Nat) : QS :=
  ⟨(q.s.learnAll ls).backtrackUip ls L,
    withTrail q.la.onBeforeBacktrack ((q.s.learnAll ls).backtrackUip ls L).t⟩

/-- `backtrack_with` for semantic splits, src/Solver.cpp:97-128, after `learn`; `x` is the literal that is
decided. -/
def split (q : QS) (ls : List Clause) (L : Nat) (x : Lit) : QS :=
  ⟨((q.s.learnAll ls).backtrackTo L).decideOther x.var (.b (!x.isNeg)),
    withTrail q.la.onBeforeBacktrack
      (((q.s.learnAll ls).backtrackTo L).decideOther x.var (.b (!x.isNeg))).t⟩

/-- `restart`, src/Solver.cpp:178-186, after `learn`. -/
def restart (q : QS) (ls : List Clause) (old : Nat) : QS :=
  ⟨Check.restart (q.s.learnAll ls) old,
    withTrail q.la.onBeforeBacktrack (Check.restart (q.s.learnAll ls) old).t⟩

/-- The first literals of the clause, all of the same level as the first one, src/Solver.cpp:108-111. -/
def topLits (t : Trail Nat) : Clause → List Lit
  | [] => []
  | x :: c => x :: c.takeWhile fun y => t.level y.var == t.level x.var

/-- Result of one iteration of the loop. -/
inductive Out (O : Type) where
  | unsat
  | sat (q : QS)
  | run (c : QC O)

/-- One iteration of the loop of `check`, src/Solver.cpp:192-227. The choice between `restart` and
`backtrack_with` (restart policy) is arbitrary. In `split` which of the first literals is decided depends
on the variable order (lines 112-118) and is arbitrary here. `decide` of the plugin for linear arithmetic
need not end (src/lra/Variable_bounds.cpp); then the iteration has no result. Executions in which
`analyze_conflicts` throws, or returns a negative level together with clauses that are not empty, or in
which the decided literal is assigned after backtracking, have no result either; see `C60`. -/
inductive Iter : QC O → Out O → Prop where
  | unsatZero {c : QC O} {cs : List Clause} {q : QS} (h : QProp hv hc op c.q cs q) (hne : cs ≠ [])
      (h0 : q.s.t.decisionLevel = 0) : Iter c .unsat
  | unsatEmpty {c : QC O} {cs : List Clause} {q : QS} {learned : List Clause} {lvl : Option Int}
      (h : QProp hv hc op c.q cs q) (hne : cs ≠ []) (h0 : q.s.t.decisionLevel ≠ 0)
      (ha : analyzeConflicts q.s.clause q.s.t cs = some (learned, lvl)) (he : [] ∈ learned) :
      Iter c .unsat
  | restart {c : QC O} {cs : List Clause} {q : QS} {ls : List Clause} {lvl : Int} {o : O}
      (h : QProp hv hc op c.q cs q) (hne : cs ≠ []) (h0 : q.s.t.decisionLevel ≠ 0)
      (hl : Check.Learned q.s cs ls lvl) (ho : W.events c.o q.la none o) :
      Iter c (.run ⟨Qf.restart q ls c.old, ((Qf.restart q ls c.old).s.cls.drop q.s.na).length, o⟩)
  | uip {c : QC O} {cs : List Clause} {q : QS} {ls : List Clause} {L : Nat} {o : O}
      (h : QProp hv hc op c.q cs q) (hne : cs ≠ []) (h0 : q.s.t.decisionLevel ≠ 0)
      (hl : Check.Learned q.s cs ls L) (ho : W.events c.o q.la (some L) o)
      (hs : ls.head?.any (isSemanticSplit q.s.t) = false) : Iter c (.run ⟨Qf.uip q ls L, c.old, o⟩)
  | split {c : QC O} {cs : List Clause} {q : QS} {ls : List Clause} {L : Nat} {o : O} {c0 : Clause} {x : Lit}
      (h : QProp hv hc op c.q cs q) (hne : cs ≠ []) (h0 : q.s.t.decisionLevel ≠ 0)
      (hl : Check.Learned q.s cs ls L) (ho : W.events c.o q.la (some L) o) (hc0 : ls.head? = some c0)
      (hs : isSemanticSplit q.s.t c0 = true) (hx : x ∈ topLits q.s.t c0)
      (hu : (q.s.t.backtrack L).level x.var = none) : Iter c (.run ⟨Qf.split q ls L x, c.old, o⟩)
  | sat {c : QC O} {q : QS} {o : O} {la : LA Nat} (h : QProp hv hc op c.q [] q)
      (hp : W.pick c.o q.la none o la) : Iter c (.sat ⟨q.s, la⟩)
  | decideBool {c : QC O} {q : QS} {o : O} {la : LA Nat} {n : Nat} (h : QProp hv hc op c.q [] q)
      (hp : W.pick c.o q.la (some (.bool n)) o la) :
      Iter c (.run ⟨⟨q.s.decide (.bool n), withTrail la (q.s.decide (.bool n)).t⟩, c.old, o⟩)
  | decideRat {c : QC O} {q : QS} {o : O} {la0 : LA Nat} {n fuel : Nat} {la : LA Nat} (h : QProp hv hc op c.q [] q)
      (hp : W.pick c.o q.la (some (.rat n)) o la0) (hd : la0.decide fuel n = some la) :
      Iter c (.run ⟨⟨{ q.s with t := la.trail }, la⟩, c.old, o⟩)

/-- States of the loop. -/
inductive Reach (c0 : QC O) : QC O → Prop where
  | refl : Reach c0 c0
  | step {c c' : QC O} (h : Reach c0 c) (hi : Iter hv hc op W c (.run c')) : Reach c0 c'

/-- `check` started in `c0` returns this. -/
def Returns (c0 : QC O) (out : Out O) : Prop := ∃ c, Reach hv hc op W c0 c ∧ Iter hv hc op W c out

/-- Assumption on the variable order: it picks declared variables that are not assigned
(src/Generalized_vsids.h: pick). -/
def PicksFree (c : QC O) : Prop :=
  ∀ q v o' la', QProp hv hc op c.q [] q → W.pick c.o q.la (some v) o' la' →
    v.ord < q.la.trail.numVars v.type ∧ q.la.trail.level v = none

/-- Assumption on the variable order: it answers `nullopt` only when all variables are assigned. -/
def PicksAll (c : QC O) : Prop :=
  ∀ q o' la', QProp hv hc op c.q [] q → W.pick c.o q.la none o' la' →
    ∀ v : Var, v.ord < q.la.trail.numVars v.type → q.la.trail.level v ≠ none

/-- Assumption on the variable order: it handles its events after a conflict. -/
def Handles (c : QC O) : Prop :=
  ∀ cs q L, QProp hv hc op c.q cs q → cs ≠ [] → ∃ o', W.events c.o q.la L o'

/-- Assumption on the variable order: it answers when it is asked for a variable. -/
def Answers (c : QC O) : Prop := ∀ q, QProp hv hc op c.q [] q → ∃ v o' la', W.pick c.o q.la v o' la'

end Qf
end Yaga
