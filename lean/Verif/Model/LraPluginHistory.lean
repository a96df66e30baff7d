/-
Histories of the plugin `Linear_arithmetic` in the loop of the solver.
-/
import Verif.Model.LraPlugin

namespace Yaga

/-- Where the solver is between two changes of the plugin's state. `settled`: the plugin has looked at
every assignment of the current level and found no conflict. `changed`: it may not have looked at all of
them. `decided`: it has just decided the value of a rational variable and has not propagated yet.
`conflict`: it has returned conflict clauses and the solver has not backtracked yet. -/
inductive Stage where
  | settled
  | changed
  | decided
  | conflict
  deriving DecidableEq

namespace LA
variable {R : Type}

/-- A constraint is created for assigned variables and its literal is propagated if it is not on the
trail: `Fm_elimination::finish` (src/lra/Lra_conflict_analysis.cpp:120-134) and `assert_equality`
(src/uf/Uninterpreted_functions.cpp:282-311). Simplification: the latter propagates the literal at the
level of the two compared terms; here it is the level of the variables of their difference (the code differs only if variables cancel,
see `C66_levels_false`). -/
def derive (hv : Nat → Nat) (hc : ℚ → Nat) (la : LA R) (ts : List (Nat × ℚ)) (pred : Pred)
    (rhs : ℚ) : LA R :=
  let r := la.constraint hv hc ts pred rhs
  if r.1.trail.bools.defined r.2.lit.ord then r.1 else r.1.propagateCons r.2

/-- Another theory or the solver propagates a boolean variable: `trail.propagate` (src/Trail.h:196-209)
and `set_value`. -/
def setBool (la : LA R) (o : Nat) (b : Bool) (r : Option R) (lvl : Nat) : LA R :=
  { la with trail := (la.trail.propagate ⟨.boolean, o⟩ r lvl).setValue ⟨.boolean, o⟩ (.b b) }

/-- A boolean variable is decided: `trail.decide` (src/Trail.h:177-186) and `set_value`, called by
`Bool_theory::decide` and by `Solver::backtrack_with` (src/Solver.cpp:126-128). -/
def decideBool (la : LA R) (o : Nat) (b : Bool) : LA R :=
  { la with trail := (la.trail.decide ⟨.boolean, o⟩).setValue ⟨.boolean, o⟩ (.b b) }

/-- `on_before_backtrack` and `trail.backtrack`, src/Solver.cpp:99 and 125, 136. -/
def backtrack (la : LA R) (k : Nat) : LA R :=
  { la.onBeforeBacktrack with trail := la.trail.backtrack k }

/-- `restart`, src/Solver.cpp:178-186. -/
def restart (la : LA R) : LA R := { la.onBeforeBacktrack with trail := la.trail.clear }

/-- The boolean variable `o` is in the list of level `k`. -/
def Listed (t : Trail R) (k o : Nat) : Prop := ∃ a ∈ t.assigned k, a.var = ⟨.boolean, o⟩

/-- The constraint of the variable `v` has only variables assigned at level `k` or below. A variable
without constraint satisfies this. -/
def Assigned (la : LA R) (k v : Nat) : Prop :=
  ∀ x ∈ la.store.varsOf (la.store.get v), ∃ l ≤ k, la.level x = some l

/-- The solver loop seen from the plugin (src/Solver.cpp:188-228, src/Theory_combination.cpp). If
`timely` holds, a literal that is propagated below the current level is not the literal of a constraint
with unassigned variables. -/
inductive Reach (hv : Nat → Nat) (hc : ℚ → Nat) (o : LaOpts) (timely : Prop) : LA R → Stage → Prop where
  | init : Reach hv hc o timely LA.init .changed
  /-- A variable is created. -/
  | resize {la s} (h : Reach hv hc o timely la s) (ty : VType) (n : Nat) (hn : la.trail.numVars ty ≤ n) :
      Reach hv hc o timely (la.resize ty n) s
  /-- The user creates a constraint; its variables exist and are not assigned. -/
  | cons {la s} (h : Reach hv hc o timely la s) (ts : List (Nat × ℚ)) (p : Pred) (r : ℚ)
      (hnd : (ts.map (·.1)).Nodup) (hne : ∃ q ∈ ts, q.2 ≠ 0)
      (hdom : ∀ q ∈ ts, q.1 < la.trail.rats.num) (hun : ∀ q ∈ ts, la.level q.1 = none) :
      Reach hv hc o timely (la.constraint hv hc ts p r).1 s
  /-- A conflict analysis creates a constraint; its variables are assigned and sorted by level. -/
  | derive {la s} (h : Reach hv hc o timely la s) (hs : s = .settled ∨ s = .changed)
      (ts : List (Nat × ℚ)) (p : Pred) (r : ℚ)
      (hnd : (ts.map (·.1)).Nodup) (hne : ∃ q ∈ ts, q.2 ≠ 0)
      (has : ∀ q ∈ ts, (la.level q.1).isSome = true)
      (hsrt : ts.Pairwise fun a b => la.sortLevel b.1 ≤ la.sortLevel a.1) :
      Reach hv hc o timely (la.derive hv hc ts p r) .changed
  | setBool {la s} (h : Reach hv hc o timely la s) (hs : s = .settled ∨ s = .changed)
      (v : Nat) (b : Bool) (r : Option R)
      (lvl : Nat) (hv' : v < la.trail.bools.num) (hu : la.trail.level ⟨.boolean, v⟩ = none)
      (hl : lvl ≤ la.trail.decisionLevel)
      (ht : timely → lvl = la.trail.decisionLevel ∨ la.Assigned lvl v) :
      Reach hv hc o timely (la.setBool v b r lvl) .changed
  | decideBool {la} (h : Reach hv hc o timely la .settled) (v : Nat) (b : Bool)
      (hv' : v < la.trail.bools.num) (hu : la.trail.level ⟨.boolean, v⟩ = none) :
      Reach hv hc o timely (la.decideBool v b) .changed
  | decideRat {la la'} (h : Reach hv hc o timely la .settled) (x fuel : Nat) (hx : x < la.trail.rats.num)
      (hu : la.level x = none) (hd : la.decide fuel x = some la') : Reach hv hc o timely la' .decided
  | propagate {la s} (h : Reach hv hc o timely la s) (hs : s ≠ .conflict) :
      Reach hv hc o timely (la.propagate hv hc o).1
        (if (la.propagate hv hc o).2 ≠ [] then .conflict
          else if (la.propagate hv hc o).1.nextIndex =
            ((la.propagate hv hc o).1.trail.assigned
              (la.propagate hv hc o).1.trail.decisionLevel).length
          then .settled else .changed)
  | backtrack {la s} (h : Reach hv hc o timely la s) (k : Nat) (hk : k < la.trail.decisionLevel) :
      Reach hv hc o timely (la.backtrack k) .changed
  /-- Backtracking followed by a decision, without propagation in between (src/Solver.cpp:125-128). The
  variables in the list of level `k` that are also in the list of level `k + 1` were propagated after
  the decision of level `k + 1`. The precondition, which the code does not ensure, is that none of them
  is the literal of a constraint with an unassigned variable; in a timely history this is the case. -/
  | split {la s} (h : Reach hv hc o timely la s) (k : Nat) (hk : k < la.trail.decisionLevel)
      (hlate : ∀ v, Listed la.trail k v → Listed la.trail (k + 1) v → la.Assigned k v)
      (v : Nat) (b : Bool) (hv' : v < la.trail.bools.num)
      (hu : (la.backtrack k).trail.level ⟨.boolean, v⟩ = none) :
      Reach hv hc o timely ((la.backtrack k).decideBool v b) .changed
  | restart {la s} (h : Reach hv hc o timely la s) : Reach hv hc o timely la.restart .changed
  /-- The variable order asks whether a variable is effectively decided; this drops obsolete bounds. -/
  | query {la s} (h : Reach hv hc o timely la s) (x : Nat) : Reach hv hc o timely (la.effectivelyDecided x).1 s
  /-- The variable order takes the list of effectively decided variables. -/
  | take {la s} (h : Reach hv hc o timely la s) : Reach hv hc o timely la.takeDecided s

end LA
end Yaga
