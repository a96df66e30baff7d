/-
C55: watch lists of the plugin for linear arithmetic.
-/
import Verif.Proofs.LraRun

namespace Yaga
open Spec

/-- C55. In every reachable state every watch is justified: it is a constraint of the repository that has
the watched variable at one of its first two places, and the index where the search for a replacement
goes on is inside the constraint and not one of the first two places. -/
theorem C55_watch_sound {R : Type} (hv : Nat → Nat) (hc : ℚ → Nat) (o : LaOpts) (timely : Prop)
    (la : LA R) (s : Stage) (h : LA.Reach hv hc o timely la s) (x : Nat) (c : LinCons) (i : Nat)
    (hw : (c, i) ∈ la.watched x) :
    IsCons la.store c ∧ x ∈ (la.store.varsOf c).take 2 ∧ (2 < c.size → 2 ≤ i ∧ i < c.size) := by
  obtain ⟨w, hg⟩ := h.good
  exact hg.keep.wat.mem x c i hw

/-- C55. In every reachable state every constraint is watched exactly once by each of its first two
variables. -/
theorem C55_watched_once {R : Type} (hv : Nat → Nat) (hc : ℚ → Nat) (o : LaOpts) (timely : Prop)
    (la : LA R) (s : Stage) (h : LA.Reach hv hc o timely la s) (e : LinCons) (he : e ∈ la.store.set)
    (x : Nat) (hx : x ∈ (la.store.varsOf e).take 2) :
    ∃! c, c ∈ (la.watched x).map (·.1) ∧ c.lit.ord = e.lit.ord := by
  obtain ⟨w, hg⟩ := h.good
  obtain ⟨c, i, h1, h2⟩ := hg.keep.wat.cov e he x hx
  refine ⟨c, ⟨List.mem_map.mpr ⟨_, h1, rfl⟩, h2⟩, ?_⟩
  rintro d ⟨hd, hde⟩
  obtain ⟨⟨d', j⟩, h3, rfl⟩ := List.mem_map.mp hd
  have hn := hg.keep.wat.uniq x
  obtain ⟨a, ha⟩ := List.getElem?_of_mem h1
  obtain ⟨b, hb⟩ := List.getElem?_of_mem h3
  have e1 : ((la.watched x).map (·.1.lit.ord))[a]? = some e.lit.ord := by
    rw [List.getElem?_map, ha]; exact congrArg some h2
  have e2 : ((la.watched x).map (·.1.lit.ord))[b]? = some e.lit.ord := by
    rw [List.getElem?_map, hb]; exact congrArg some hde
  obtain ⟨la1, _⟩ := List.getElem?_eq_some_iff.mp e1
  have hab := (List.getElem?_inj la1 hn).mp (e1.trans e2.symm)
  subst hab
  rw [ha] at hb
  cases hb
  rfl

/-- C55. The first two variables of a constraint are the last ones that were assigned: if the variable at
the first or second place is assigned at level `l`, all variables after it are assigned at level `l` or
below. The only exception is the time between a decision of the plugin and the next propagation. With
the two theorems above these are the assertions of `check_watch_consistency`
(src/lra/Linear_arithmetic.cpp:616-644). -/
theorem C55_watch_order {R : Type} (hv : Nat → Nat) (hc : ℚ → Nat) (o : LaOpts) (timely : Prop)
    (la : LA R) (s : Stage) (h : LA.Reach hv hc o timely la s) (hs : s ≠ .decided) (e : LinCons)
    (he : e ∈ la.store.set) (i j x y l : Nat) (hi : i < 2) (hij : i < j)
    (hx : (la.store.varsOf e)[i]? = some x) (hy : (la.store.varsOf e)[j]? = some y)
    (hl : la.level x = some l) : ∃ l' ≤ l, la.level y = some l' := by
  obtain ⟨w, hg⟩ := h.good
  have hw := hg.normal hs
  subst hw
  have hwi : LA.WI (LA.lev la.trail) (la.store.varsOf e) := hg.keep.wat.wi e he
  generalize la.store.varsOf e = vs at *
  have key : ∃ m, LA.lev la.trail y = some m ∧ m ≤ l := by
    match vs, hwi with
    | [], _ => simp at hx
    | [v], _ =>
      have : j = 0 := by
        by_contra hj
        rw [List.getElem?_eq_none (by simp; omega)] at hy
        cases hy
      omega
    | v0 :: v1 :: rest, hwi =>
      rcases i with _ | _ | i
      · simp only [List.getElem?_cons_zero, Option.some.injEq] at hx
        subst hx
        obtain ⟨m, h1, h2⟩ := hwi.1 l hl
        rcases j with _ | _ | j
        · omega
        · simp only [List.getElem?_cons_succ, List.getElem?_cons_zero, Option.some.injEq] at hy
          subst hy
          exact ⟨m, h1, h2⟩
        · simp only [List.getElem?_cons_succ] at hy
          obtain ⟨m', h3, h4⟩ := hwi.2 y (List.mem_of_getElem? hy) m h1
          exact ⟨m', h3, h4.trans h2⟩
      · simp only [List.getElem?_cons_succ, List.getElem?_cons_zero, Option.some.injEq] at hx
        subst hx
        rcases j with _ | _ | j
        · omega
        · omega
        · simp only [List.getElem?_cons_succ] at hy
          exact hwi.2 y (List.mem_of_getElem? hy) l hl
      · omega
  obtain ⟨m, h1, h2⟩ := key
  exact ⟨m, h2, h1⟩

/-- C55. No assertion of the plugin fails in any history: neither the ones about the places of watched
variables nor the ones about the values of constraints and decided variables
(src/lra/Linear_arithmetic.cpp:57, 61, 128, 135, 148, 153, 185, 205, 209, 221, 293, 363, 370, 542). -/
theorem C55_assertions {R : Type} (hv : Nat → Nat) (hc : ℚ → Nat) (o : LaOpts) (timely : Prop)
    (la : LA R) (s : Stage) (h : LA.Reach hv hc o timely la s) : la.ok = true := by
  obtain ⟨w, hg⟩ := h.good
  exact hg.keep.ok

/-- C55. The plugin uses its bounds and its repository only as the theorems about them (C28 to C34)
presuppose. -/
theorem C55_core {R : Type} (hv : Nat → Nat) (hc : ℚ → Nat) (o : LaOpts) (timely : Prop)
    (la : LA R) (s : Stage) (h : LA.Reach hv hc o timely la s) : Lra.Reach hv hc la.core := by
  obtain ⟨w, hg⟩ := h.good
  exact hg.keep.base.reach

/-- Three variables, `x₀ + x₁ + x₂ ≤ 5`, `x₀ - x₁ < 0` and `x₂ = 3`; the first two constraints are true,
`x₂` and `x₀` are decided. -/
def LA.exActs : List LA.Act :=
  [.resize .rational 3, .cons [(0, 1), (1, 1), (2, 1)] .leq 5, .cons [(0, 1), (1, -1)] .lt 0,
    .cons [(2, 1)] .eq 3, .propagate, .decideBool 0 true, .propagate, .setBool 1 true 1, .propagate,
    .decideRat 2, .propagate, .propagate, .decideRat 0, .propagate]

/-- All options. -/
def LA.exOpts : LaOpts := ⟨true, false, true⟩

/-- The first constraint has moved `x₁`, the only unassigned variable, to the front; `x₁` watches the
first two constraints. -/
example : ∃ la : LA Nat, LA.Reach id (fun _ => 0) LA.exOpts True la .settled ∧
    la.store.set.map la.store.varsOf = [[1, 0, 2], [1, 0], [2]] ∧
    (la.watched 1).map (·.1.lit.ord) = [0, 1] ∧ la.level 0 = some 3 ∧ la.level 2 = some 2 ∧
    la.level 1 = none := by
  obtain ⟨la, h1, h2⟩ := LA.start_get (o := LA.exOpts) (timely := true) (as := LA.exActs)
    (s := .settled) (by decide +kernel)
  have e : (LA.start LA.exOpts true LA.exActs).map (fun r => (r.1.store.set.map r.1.store.varsOf,
      (r.1.watched 1).map (·.1.lit.ord), r.1.level 0, r.1.level 2, r.1.level 1)) =
      some ([[1, 0, 2], [1, 0], [2]], [0, 1], some 3, some 2, none) := by decide +kernel
  rw [h1] at e
  simp only [Option.map_some, Option.some.injEq, Prod.mk.injEq] at e
  exact ⟨la, by simpa using h2, e.1, e.2.1, e.2.2.1, e.2.2.2.1, e.2.2.2.2⟩

#print axioms C55_watch_sound
#print axioms C55_watched_once
#print axioms C55_watch_order
#print axioms C55_assertions
#print axioms C55_core

end Yaga
