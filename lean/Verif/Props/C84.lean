/-
C84: the consistency checks of the arithmetic plugin succeed.
-/
import Verif.Proofs.LraChecks
import Verif.Proofs.QfModel
import Verif.Props.C55
import Verif.Props.C57
import Verif.Props.C62

namespace Yaga
open Spec

/-- C84. After propagation without conflict the recorded upper bound is at least as strong as what any constraint
on the trail says whose other variables are assigned: if such a constraint permits only values up to `u`, there is an
upper bound, and it is at most `u`. -/
theorem C84_upper {R : Type} (hv : Nat → Nat) (hc : ℚ → Nat) (o : LaOpts) (la : LA R)
    (h : LA.Reach hv hc o True la .settled) (c : LinCons) (hcc : IsCons la.store c)
    (ht : evalLit la.trail.bools c.lit = some true) (x : Nat) (hx : x ∈ la.store.varsOf c)
    (hu : la.trail.rats.defined x = false)
    (hd : ∀ y ∈ la.store.varsOf c, y ≠ x → la.trail.rats.defined y = true) (u : ℚ)
    (hb : ∀ q, ConsTrue la.store c (Function.update la.trail.rats.value x q) → q ≤ u) :
    ∃ b, ((la.bnd.vb x).upper la.store la.models).2 = some b ∧ b.value ≤ u := by
  obtain ⟨q0, h0⟩ := C62_value hv hc o la .settled h (by rintro ⟨⟩) x
  exact VBounds.upper_tight h0 fun q hq => hb q (C57_units hv hc o True la h c hcc ht x hx hu hd q hq)

/-- C84. The same for lower bounds. -/
theorem C84_lower {R : Type} (hv : Nat → Nat) (hc : ℚ → Nat) (o : LaOpts) (la : LA R)
    (h : LA.Reach hv hc o True la .settled) (c : LinCons) (hcc : IsCons la.store c)
    (ht : evalLit la.trail.bools c.lit = some true) (x : Nat) (hx : x ∈ la.store.varsOf c)
    (hu : la.trail.rats.defined x = false)
    (hd : ∀ y ∈ la.store.varsOf c, y ≠ x → la.trail.rats.defined y = true) (l : ℚ)
    (hb : ∀ q, ConsTrue la.store c (Function.update la.trail.rats.value x q) → l ≤ q) :
    ∃ b, ((la.bnd.vb x).lower la.store la.models).2 = some b ∧ l ≤ b.value := by
  obtain ⟨q0, h0⟩ := C62_value hv hc o la .settled h (by rintro ⟨⟩) x
  exact VBounds.lower_tight h0 fun q hq => hb q (C57_units hv hc o True la h c hcc ht x hx hu hd q hq)

/-- C84. So `check_bounds_consistency` succeeds after propagation without conflict. -/
theorem C84_bounds_check {R : Type} (hv : Nat → Nat) (hc : ℚ → Nat) (o : LaOpts) (la : LA R)
    (h : LA.Reach hv hc o True la .settled) : la.boundsConsistent = true := by
  obtain ⟨w, hg⟩ := h.good
  exact LA.boundsConsistent_of hg.keep.base.inv
    (fun c hcc ht x hx hu hd q hq => C57_units hv hc o True la h c hcc ht x hx hu hd q hq)
    (C62_value hv hc o la .settled h (by rintro ⟨⟩))

/-- C84. `check_watch_consistency` succeeds always, except between a decision of the plugin and the next propagation. -/
theorem C84_watch_check {R : Type} (hv : Nat → Nat) (hc : ℚ → Nat) (o : LaOpts) (timely : Prop)
    (la : LA R) (s : Stage) (h : LA.Reach hv hc o timely la s) (hs : s ≠ .decided) : la.watchConsistent = true := by
  obtain ⟨w, hg⟩ := h.good
  have hdef : ∀ x, la.trail.rats.defined x = true ↔ ∃ l, la.level x = some l := by
    intro x
    rw [← Option.isSome_iff_exists, ← not_iff_not, Bool.not_eq_true, Bool.not_eq_true, Option.isSome_eq_false_iff,
      Option.isNone_iff_eq_none]
    exact hg.keep.undefined
  have hI := hg.keep.base.inv
  unfold LA.watchConsistent
  rw [List.all_eq_true]
  intro c hcm
  cases he : c.isEmpty with
  | true => rfl
  | false =>
    have hset : c ∈ la.store.set := by
      obtain ⟨k, hk⟩ := List.getElem?_of_mem hcm
      rcases hI.dflt k c hk with h | h
      · exact h.1
      · rw [h] at he; exact absurd he (by decide)
    have hlen := LA.varsOf_length hI hset
    have hord : ∀ i j x y, i < 2 → i < j → (la.store.varsOf c)[i]? = some x → (la.store.varsOf c)[j]? = some y →
        la.trail.rats.defined x = true → la.trail.rats.defined y = true := by
      intro i j x y hi hij hx hy hd
      obtain ⟨l, hl⟩ := (hdef x).mp hd
      obtain ⟨l', -, hl'⟩ := C55_watch_order hv hc o timely la s h hs c hset i j x y l hi hij hx hy hl
      exact (hdef y).mpr ⟨l', hl'⟩
    have hcov : ∀ x ∈ (la.store.varsOf c).take 2, ((la.watched x).any fun w => w.1.lit.ord == c.lit.ord) = true := by
      intro x hx
      obtain ⟨d, ⟨h1, h2⟩, -⟩ := C55_watched_once hv hc o timely la s h c hset x hx
      obtain ⟨w, hw, rfl⟩ := List.mem_map.mp h1
      exact List.any_eq_true.mpr ⟨w, hw, by simp [h2]⟩
    dsimp only
    rw [Bool.false_or, Bool.and_eq_true, Bool.and_eq_true]
    generalize la.store.varsOf c = vs at *
    refine ⟨⟨?_, ?_⟩, List.all_eq_true.mpr hcov⟩
    · cases hx : la.trail.rats.defined (vs.getD 0 0) with
      | false => rfl
      | true =>
        rw [Bool.not_true, Bool.false_or, List.all_eq_true]
        intro y hy
        obtain ⟨j, hj⟩ := List.getElem?_of_mem hy
        cases vs with
        | nil => cases hy
        | cons v0 vs =>
          rcases j with _ | j
          · simp at hj; subst hj; exact hx
          · exact hord 0 (j + 1) v0 y (by omega) (by omega) rfl hj hx
    · cases hx : la.trail.rats.defined (vs.getD 1 0) with
      | false => simp
      | true =>
        cases hsz : Nat.blt 1 c.size with
        | false => rfl
        | true =>
          rw [Bool.not_true, Bool.or_self, Bool.false_or, List.all_eq_true]
          have hs2 : 1 < vs.length := by
            rw [hlen]
            exact Nat.le_of_ble_eq_true hsz
          intro y hy
          obtain ⟨j, hj⟩ := List.getElem?_of_mem hy
          rw [List.getElem?_drop] at hj
          match vs, hs2, hx, hj with
          | v0 :: v1 :: r, _, hx, hj => exact hord 1 (2 + j) v1 y (by omega) (by omega) rfl hj hx

/-- C84. In every run of the solver for QF_LRA both checks succeed whenever propagation has found no conflict. -/
theorem C84_runs {O : Type} (hv : Nat → Nat) (hc : ℚ → Nat) (op : LaOpts) (W : QOrder O)
    (A : List Clause) (P : List QAtom) (c0 : QC O) (h : Qf.Start hv hc A P c0)
    (hW : ∀ c, Qf.Reach hv hc op W c0 c → Qf.PicksFree hv hc op W c)
    (c : QC O) (hr : Qf.Reach hv hc op W c0 c) (q : QS) (hp : Qf.QProp hv hc op c.q [] q) :
    q.la.boundsConsistent = true ∧ q.la.watchConsistent = true := by
  obtain ⟨b, st, hs, hC, -⟩ := Qf.all_reach h hW hr
  obtain ⟨st', h1, h3, _⟩ := Qf.core_prop hp hC hs
  rw [h3 rfl] at h1
  exact ⟨C84_bounds_check hv hc op q.la h1.reach, C84_watch_check hv hc op True q.la _ h1.reach (by rintro ⟨⟩)⟩

/-- `x₀ < 0` is false and propagated, then `x₀ < 1` becomes false. -/
def LA.exChecks : List LA.Act :=
  [.resize .rational 2, .cons [(0, 1)] .lt 0, .cons [(0, 1)] .lt 1, .cons [(0, 1), (1, 1)] .leq 3, .propagate,
    .decideBool 0 false, .propagate, .setBool 1 false 1]

/-- The checks are not vacuous: before the second constraint is propagated the bound of the first one is weaker than it,
and the check fails. -/
example : ∃ la : LA Nat, LA.Reach id (fun _ => 0) LA.exOpts True la .changed ∧ la.boundsConsistent = false := by
  obtain ⟨la, h1, h2⟩ := LA.start_get (o := LA.exOpts) (timely := true) (as := LA.exChecks)
    (s := .changed) (by decide +kernel)
  have e : (LA.start LA.exOpts true LA.exChecks).map (fun r => r.1.boundsConsistent) = some false := by decide +kernel
  rw [h1] at e
  simp only [Option.map_some, Option.some.injEq] at e
  exact ⟨la, by simpa using h2, e⟩

/-- After propagation both succeed and there is a bound. -/
example : ∃ la : LA Nat, LA.Reach id (fun _ => 0) LA.exOpts True la .settled ∧
    ((la.bnd.vb 0).lower la.store la.models).2.map (·.value) = some 1 ∧
    la.boundsConsistent = true ∧ la.watchConsistent = true := by
  obtain ⟨la, h1, h2⟩ := LA.start_get (o := LA.exOpts) (timely := true) (as := LA.exChecks ++ [.propagate])
    (s := .settled) (by decide +kernel)
  have e : (LA.start LA.exOpts true (LA.exChecks ++ [.propagate])).map
      (fun r => ((r.1.bnd.vb 0).lower r.1.store r.1.models).2.map (·.value)) = some (some 1) := by decide +kernel
  rw [h1] at e
  simp only [Option.map_some, Option.some.injEq] at e
  have hr : LA.Reach id (fun _ => 0) LA.exOpts True la .settled := by simpa using h2
  exact ⟨la, hr, e, C84_bounds_check _ _ _ la hr, C84_watch_check _ _ _ _ la _ hr (by rintro ⟨⟩)⟩

/-- Between a decision and the next propagation the other check can fail: the first variable is assigned, the second one
is not. -/
example : ∃ la : LA Nat, LA.Reach id (fun _ => 0) LA.exOpts True la .decided ∧ la.watchConsistent = false := by
  obtain ⟨la, h1, h2⟩ := LA.start_get (o := LA.exOpts) (timely := true)
    (as := LA.exChecks ++ [.propagate, .decideRat 0]) (s := .decided) (by decide +kernel)
  have e : (LA.start LA.exOpts true (LA.exChecks ++ [.propagate, .decideRat 0])).map
      (fun r => r.1.watchConsistent) = some false := by decide +kernel
  rw [h1] at e
  simp only [Option.map_some, Option.some.injEq] at e
  exact ⟨la, by simpa using h2, e⟩

#print axioms C84_upper
#print axioms C84_lower
#print axioms C84_bounds_check
#print axioms C84_watch_check
#print axioms C84_runs

end Yaga
