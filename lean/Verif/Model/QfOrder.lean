/-
Model of `Generalized_vsids` (src/variable_order/Generalized_vsids.h and .cpp) as the variable order of the
solver for QF_LRA (`Qf_lra::setup`, src/Yaga.cpp:17-36), where it asks the plugin for linear arithmetic.
-/
import Verif.Model.VarOrder
import Verif.Model.QfLra

namespace Yaga

/-- The variables of the constraint of a Boolean variable, `lra->constraint(ord).vars()` in
`Generalized_vsids::bump` (src/variable_order/Generalized_vsids.h). -/
def LA.cvars (la : LA Nat) (ord : Nat) : List Nat := la.store.varsOf (la.store.get ord)

namespace GVsids
variable {S : Type} [LinearOrder S] [ScoreOps S]

/-- Events `on_variable_resize` for the Boolean variables of constraints that the plugin for linear
arithmetic derived (src/Trail.cpp:16). Simplification: the events since the last call of a method of the
order are one event before the next call. -/
def sync (g : GVsids S) (t : Trail Nat) : GVsids S := g.resize .boolean t.bools.num

/-- The loop of `pick_effectively_decided`, Generalized_vsids.cpp:89-94. The number bounds the
iterations. -/
def popEff : Nat → PQ S → LA Nat → PQ S × LA Nat
  | 0, q, la => (q, la)
  | n + 1, q, la =>
    if 0 < q.size then
      if (la.trail.level q.top).isSome then popEff n q.pop la
      else
        let d := la.effectivelyDecided q.top.ord
        if d.2 then (q, d.1) else popEff n q.pop d.1
    else (q, la)

/-- `pick`, Generalized_vsids.cpp:78-127: the new state of the order, the picked variable and the new state
of the plugin for linear arithmetic, or `none` if an assertion of `push` fails. -/
def pickLa (g : GVsids S) (la : LA Nat) : Option (GVsids S × Option Var × LA Nat) :=
  (pushEff g la.decided).map fun g =>
    let e := popEff g.eff.size g.eff la.takeDecided
    let g := { g with eff := e.1 }
    if 0 < e.1.size then (g, some e.1.top, e.2)
    else
      let vars := popWhile (fun v => (e.2.trail.level v).isSome) g.vars.size g.vars
      let g := { g with vars := vars }
      (g, if 0 < vars.size then some vars.top else none, e.2)

/-- Any number of the events `on_conflict_resolved` and `on_learned_clause` for any clauses,
Generalized_vsids.cpp:56-71. -/
inductive Bumped (cvars : Nat → List Nat) (g : GVsids S) : GVsids S → Prop where
  | refl : Bumped cvars g g
  | resolved {g' : GVsids S} (h : Bumped cvars g g') (c : Clause) : Bumped cvars g (g'.onResolved cvars c)
  | learned {g' : GVsids S} (h : Bumped cvars g g') (c : Clause) : Bumped cvars g (g'.onLearned cvars c)

/-- The order after the user declared variables, src/Trail.cpp:7-18. -/
inductive Declared : GVsids S → Prop where
  | new : Declared .new
  | resize {g : GVsids S} (h : Declared g) (ty : VType) (n : Nat) (hn : g.num ty ≤ n) : Declared (g.resize ty n)

omit [ScoreOps S] in
theorem popEff_queried (la0 : LA Nat) : ∀ (n : Nat) (q : PQ S) (la : LA Nat), Queried la0 la →
    Queried la0 (popEff n q la).2
  | 0, _, _, h => h
  | n + 1, q, la, h => by
    simp only [popEff]
    split
    · split
      · exact popEff_queried la0 n _ _ h
      · split
        · exact h.ask _
        · exact popEff_queried la0 n _ _ (h.ask _)
    · exact h

omit [ScoreOps S] in
theorem pickLa_queried {g g' : GVsids S} {la la' : LA Nat} {v : Option Var}
    (h : g.pickLa la = some (g', v, la')) : Queried la la' := by
  simp only [pickLa, Option.map_eq_some_iff] at h
  obtain ⟨g1, -, h⟩ := h
  have hq := popEff_queried la g1.eff.size g1.eff la.takeDecided (Queried.refl.take)
  split at h
  · simp only [Prod.mk.injEq] at h
    rw [← h.2.2]; exact hq
  · simp only [Prod.mk.injEq] at h
    rw [← h.2.2]; exact hq

end GVsids

namespace Qf
variable {S : Type} [LinearOrder S] [ScoreOps S]

/-- `Generalized_vsids` as the variable order of the solver. After a conflict the clauses of the events are
arbitrary; then `on_before_backtrack` is called, src/Solver.cpp:99 and 180. -/
def gvOrder (S : Type) [LinearOrder S] [ScoreOps S] : QOrder (GVsids S) where
  pick o la v o' la' := (o.sync la.trail).pickLa la = some (o', v, la')
  events o la L o' := ∃ g, GVsids.Bumped la.cvars (o.sync la.trail) g ∧
    o' = g.onBeforeBacktrack la.trail (L.getD 0)
  queried h := GVsids.pickLa_queried h

/-- The order at the first call of `check` after `Solver::init` (src/Solver.cpp:159-176): it knows the
declared variables, and `on_init` bumped the variables of the asserted clauses. -/
def OrderStart (A : List Clause) (c : QC (GVsids S)) : Prop :=
  ∃ g : GVsids S, g.Declared ∧ g.num = c.q.la.trail.numVars ∧ c.o = g.onInit c.q.la.cvars A

end Qf
end Yaga
