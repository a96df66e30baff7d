/-
Model of `Solver::check` (src/Solver.cpp:188-228) for the logic QF_UFLRA as `Qf_uflra::setup` configures it
(src/Yaga.cpp:38-60): the Boolean plugin, the plugin for linear arithmetic and the plugin for uninterpreted
functions on one trail, called in this order.
-/
import Verif.Model.QfLra
import Verif.Model.UfHistory

namespace Yaga

/-- The members of the plugin for uninterpreted functions, src/uf/Uninterpreted_functions.h:128-129. -/
structure FS where
  watch : List WList
  fns : List FApp

/-- State of the three plugins. -/
structure US where
  q : QS
  f : FS

/-- State of the solver: the plugins, `old_size` of the subsumption (src/Subsumption.h:81) and the
variable order. -/
structure UC (O : Type) where
  u : US
  old : Nat
  o : O

namespace Ufl

/-- What the plugin for uninterpreted functions works with: its members, the maps from terms to variables
made by the internalizer (`st`; they do not change during a check), and the trail, the constraints and the
watch lists of the plugin for linear arithmetic. -/
def view (st : IState) (la : LA Nat) (f : FS) : UF Nat where
  ist := { st with store := la.store, numBool := la.trail.bools.num, clauses := [] }
  trail := la.trail
  watch := f.watch
  fns := f.fns
  lraWatch := la.watched

/-- The plugin for linear arithmetic after `linear_constraint` and `propagate` were called by the plugin for
uninterpreted functions, src/uf/Uninterpreted_functions.cpp:285-311. -/
def absorb (la : LA Nat) (u : UF Nat) : LA Nat :=
  { la with trail := u.trail, store := u.ist.store, watched := u.lraWatch }

/-- The members of the plugin. -/
def _root_.Yaga.FS.of (u : UF Nat) : FS := ⟨u.watch, u.fns⟩

/-- `on_before_backtrack`, src/uf/Uninterpreted_functions.cpp:139-151. -/
def _root_.Yaga.FS.back (f : FS) (lvl : Nat) : FS := ⟨f.watch, f.fns.filter fun e => !decide (e.level > lvl)⟩

/-- The members when `check` starts: the applications are registered (`make_function_application`,
src/Yaga.cpp:101-107), there are no entries. -/
def _root_.Yaga.FS.start (s : TermTable) (st : IState) : FS := ⟨st.apps.map fun p => UF.watchFor s st p.1 p.2, []⟩

/-- What is fixed during a check: `cfg` has the hash functions and the build type, `s` the terms, `st` the
maps of the internalizer, `op` the options of the plugin for linear arithmetic. -/
structure Env where
  cfg : ICfg
  s : TermTable
  st : IState
  op : LaOpts

variable {O : Type} (E : Env) (W : QOrder O)

/-- `Linear_arithmetic::propagate` after `Bool_theory::propagate` without conflict. -/
def Env.lra (E : Env) (q : QS) (s : BS) : LA Nat × List Clause :=
  (Qf.withTrail q.la s.t).propagate E.cfg.hv E.cfg.hc E.op

/-- `Theory_combination::propagate`, src/Theory_combination.cpp:8-29, for the three plugins: the conflicts
and the state at the end. `Uninterpreted_functions::propagate` is called only if the other two plugins have
found no conflict. -/
inductive UProp : US → List Clause → US → Prop where
  | boolConflict {x : US} {s : BS} {c : Clause} (h : x.q.s.Propagates (some c) s) :
      UProp x [c] ⟨⟨s, Qf.withTrail x.q.la s.t⟩, x.f⟩
  | lraConflict {x : US} {s : BS} {la : LA Nat} {cs : List Clause} (h : x.q.s.Propagates none s)
      (hp : E.lra x.q s = (la, cs)) (hne : cs ≠ []) : UProp x cs ⟨⟨Qf.follow s la, la⟩, x.f⟩
  | ufConflict {x : US} {s : BS} {la : LA Nat} {u : UF Nat} {cs : List Clause} (h : x.q.s.Propagates none s)
      (hp : E.lra x.q s = (la, [])) (hu : UF.propagate E.cfg E.s (view E.st la x.f) = some (u, cs)) (hne : cs ≠ []) :
      UProp x cs ⟨⟨Qf.follow s (absorb la u), absorb la u⟩, .of u⟩
  | done {x : US} {s : BS} {la : LA Nat} {u : UF Nat} (h : x.q.s.Propagates none s)
      (hp : E.lra x.q s = (la, [])) (hu : UF.propagate E.cfg E.s (view E.st la x.f) = some (u, []))
      (hz : Qf.recentSize x.q.s.t = Qf.recentSize u.trail) :
      UProp x [] ⟨⟨Qf.follow s (absorb la u), absorb la u⟩, .of u⟩
  | again {x x' : US} {s : BS} {la : LA Nat} {u : UF Nat} {cs : List Clause} (h : x.q.s.Propagates none s)
      (hp : E.lra x.q s = (la, [])) (hu : UF.propagate E.cfg E.s (view E.st la x.f) = some (u, []))
      (hz : Qf.recentSize x.q.s.t ≠ Qf.recentSize u.trail)
      (hr : UProp ⟨⟨Qf.follow s (absorb la u), absorb la u⟩, .of u⟩ cs x') : UProp x cs x'

/-- A round of the loop in `Theory_combination::propagate` in which no plugin finds a conflict,
src/Theory_combination.cpp:13-26. -/
def Round (x x' : US) : Prop :=
  ∃ (s : BS) (la : LA Nat) (u : UF Nat), x.q.s.Propagates none s ∧ E.lra x.q s = (la, []) ∧
    UF.propagate E.cfg E.s (view E.st la x.f) = some (u, []) ∧
    x' = ⟨⟨Qf.follow s (absorb la u), absorb la u⟩, .of u⟩

/-- Result of one iteration of the loop. -/
inductive Out (O : Type) where
  | unsat
  | sat (x : US)
  | run (c : UC O)

/-- One iteration of the loop of `check`, src/Solver.cpp:192-227. See `Qf.Iter` for what is arbitrary and for
the executions without result. `Uninterpreted_functions::decide` does nothing
(src/uf/Uninterpreted_functions.cpp:61-63). -/
inductive Iter : UC O → Out O → Prop where
  | unsatZero {c : UC O} {cs : List Clause} {x : US} (h : UProp E c.u cs x) (hne : cs ≠ [])
      (h0 : x.q.s.t.decisionLevel = 0) : Iter c .unsat
  | unsatEmpty {c : UC O} {cs : List Clause} {x : US} {learned : List Clause} {lvl : Option Int}
      (h : UProp E c.u cs x) (hne : cs ≠ []) (h0 : x.q.s.t.decisionLevel ≠ 0)
      (ha : analyzeConflicts x.q.s.clause x.q.s.t cs = some (learned, lvl)) (he : [] ∈ learned) :
      Iter c .unsat
  | restart {c : UC O} {cs : List Clause} {x : US} {ls : List Clause} {lvl : Int} {o : O}
      (h : UProp E c.u cs x) (hne : cs ≠ []) (h0 : x.q.s.t.decisionLevel ≠ 0)
      (hl : Check.Learned x.q.s cs ls lvl) (ho : W.events c.o x.q.la none o) :
      Iter c (.run ⟨⟨Qf.restart x.q ls c.old, x.f.back 0⟩,
        ((Qf.restart x.q ls c.old).s.cls.drop x.q.s.na).length, o⟩)
  | uip {c : UC O} {cs : List Clause} {x : US} {ls : List Clause} {L : Nat} {o : O}
      (h : UProp E c.u cs x) (hne : cs ≠ []) (h0 : x.q.s.t.decisionLevel ≠ 0)
      (hl : Check.Learned x.q.s cs ls L) (ho : W.events c.o x.q.la (some L) o)
      (hs : ls.head?.any (isSemanticSplit x.q.s.t) = false) :
      Iter c (.run ⟨⟨Qf.uip x.q ls L, x.f.back L⟩, c.old, o⟩)
  | split {c : UC O} {cs : List Clause} {x : US} {ls : List Clause} {L : Nat} {o : O} {c0 : Clause} {y : Lit}
      (h : UProp E c.u cs x) (hne : cs ≠ []) (h0 : x.q.s.t.decisionLevel ≠ 0)
      (hl : Check.Learned x.q.s cs ls L) (ho : W.events c.o x.q.la (some L) o) (hc0 : ls.head? = some c0)
      (hs : isSemanticSplit x.q.s.t c0 = true) (hx : y ∈ Qf.topLits x.q.s.t c0)
      (hu : (x.q.s.t.backtrack L).level y.var = none) :
      Iter c (.run ⟨⟨Qf.split x.q ls L y, x.f.back L⟩, c.old, o⟩)
  | sat {c : UC O} {x : US} {o : O} {la : LA Nat} (h : UProp E c.u [] x)
      (hp : W.pick c.o x.q.la none o la) : Iter c (.sat ⟨⟨x.q.s, la⟩, x.f⟩)
  | decideBool {c : UC O} {x : US} {o : O} {la : LA Nat} {n : Nat} (h : UProp E c.u [] x)
      (hp : W.pick c.o x.q.la (some (.bool n)) o la) :
      Iter c (.run ⟨⟨⟨x.q.s.decide (.bool n), Qf.withTrail la (x.q.s.decide (.bool n)).t⟩, x.f⟩, c.old, o⟩)
  | decideRat {c : UC O} {x : US} {o : O} {la0 : LA Nat} {n fuel : Nat} {la : LA Nat} (h : UProp E c.u [] x)
      (hp : W.pick c.o x.q.la (some (.rat n)) o la0) (hd : la0.decide fuel n = some la) :
      Iter c (.run ⟨⟨⟨{ x.q.s with t := la.trail }, la⟩, x.f⟩, c.old, o⟩)

/-- States of the loop. -/
inductive Reach (c0 : UC O) : UC O → Prop where
  | refl : Reach c0 c0
  | step {c c' : UC O} (h : Reach c0 c) (hi : Iter E W c (.run c')) : Reach c0 c'

/-- `check` started in `c0` returns this. -/
def Returns (c0 : UC O) (out : Out O) : Prop := ∃ c, Reach E W c0 c ∧ Iter E W c out

/-- State at the first call of `check`, after the internalizer has made variables, constraints and
applications. -/
structure Start (P : List QAtom) (c : UC O) : Prop where
  qf : Qf.Start E.cfg.hv E.cfg.hc E.st.clauses P (⟨c.u.q, c.old, c.o⟩ : QC O)
  store : c.u.q.la.store = E.st.store
  bools : c.u.q.la.trail.bools.num = E.st.numBool
  rats : c.u.q.la.trail.rats.num = E.st.numRat
  fs : c.u.f = .start E.s E.st

/-- Assumption on the variable order: it picks declared variables that are not assigned. -/
def PicksFree (c : UC O) : Prop :=
  ∀ x v o' la', UProp E c.u [] x → W.pick c.o x.q.la (some v) o' la' →
    v.ord < x.q.la.trail.numVars v.type ∧ x.q.la.trail.level v = none

/-- Assumption on the variable order: it answers `nullopt` only when all variables are assigned. -/
def PicksAll (c : UC O) : Prop :=
  ∀ x o' la', UProp E c.u [] x → W.pick c.o x.q.la none o' la' →
    ∀ v : Var, v.ord < x.q.la.trail.numVars v.type → x.q.la.trail.level v ≠ none

/-- Assumption on the variable order: it handles its events after a conflict. -/
def Handles (c : UC O) : Prop :=
  ∀ cs x L, UProp E c.u cs x → cs ≠ [] → ∃ o', W.events c.o x.q.la L o'

/-- Assumption on the variable order: it answers when it is asked for a variable. -/
def Answers (c : UC O) : Prop := ∀ x, UProp E c.u [] x → ∃ v o' la', W.pick c.o x.q.la v o' la'

end Ufl
end Yaga
