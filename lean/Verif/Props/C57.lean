/-
C57: the bounds of unassigned variables are complete.
-/
import Verif.Props.C56
import Verif.Props.C33

namespace Yaga
open Spec

/-- C57. When the plugin has looked at every assignment of the current level without a conflict, a value
that the bounds of an unassigned variable allow satisfies every constraint whose literal is assigned and
whose other variables are assigned. The bounds may be tighter than these constraints, they are never
weaker. This includes what `check_bounds_consistency` asserts (src/lra/Linear_arithmetic.cpp:547-614). -/
theorem C57_units {R : Type} (hv : Nat → Nat) (hc : ℚ → Nat) (o : LaOpts) (timely : Prop)
    (la : LA R) (h : LA.Reach hv hc o timely la .settled) (c : LinCons) (hcc : IsCons la.store c)
    (ht : evalLit la.trail.bools c.lit = some true) (x : Nat) (hx : x ∈ la.store.varsOf c)
    (hu : la.trail.rats.defined x = false)
    (hd : ∀ y ∈ la.store.varsOf c, y ≠ x → la.trail.rats.defined y = true) (q : ℚ)
    (hq : Allows la.store la.models (la.bnd.vb x) q) :
    ConsTrue la.store c (Function.update la.trail.rats.value x q) := by
  obtain ⟨w, hg⟩ := h.good
  have hw := hg.normal (by rintro ⟨⟩)
  subst hw
  have hC := hg.keep.sem.comp la.trail.decisionLevel (le_refl _) c.lit.ord (by
    rintro (⟨h1, _⟩ | ⟨_, h2⟩ | h1)
    · omega
    · rw [hg.settled rfl] at h2; cases h2
    · exact LA.not_fresh h1)
  rw [LA.cut_top hg.keep.base.tinv] at hC
  refine hC c hcc rfl ht x hx hu hd q ?_
  exact LA.permits_of_allowed (st := la.core) hg.keep.base.linv
    ((VBounds.isAllowed_iff (la.bnd.vb x) q).mpr hq)

/-- C57. When all variables of the constraints are assigned and the plugin has not just decided the last
one, the values of the rational variables satisfy every constraint whose literal is true and no constraint
whose literal is false, and every literal of a constraint is assigned. -/
theorem C57_model {R : Type} (hv : Nat → Nat) (hc : ℚ → Nat) (o : LaOpts) (timely : Prop)
    (la : LA R) (s : Stage) (h : LA.Reach hv hc o timely la s) (hs : s ≠ .decided)
    (hd : ∀ x < la.trail.rats.num, la.trail.rats.defined x = true)
    (hdom : ∀ c, IsCons la.store c → ∀ x ∈ la.store.varsOf c, x < la.trail.rats.num) :
    SatTrail la.store la.models la.trail.rats.value ∧
    ∀ c, IsCons la.store c → (evalLit la.trail.bools c.lit).isSome = true := by
  have key : ∀ c, IsCons la.store c → ∃ v, evalLit la.trail.bools c.lit = some v ∧
      (v = true ↔ ConsTrue la.store c la.trail.rats.value) := fun c hcc =>
    C56_evaluated hv hc o timely la s h hs c hcc fun x hx => hd x (hdom c hcc x hx)
  refine ⟨fun c hcc ht => ?_, fun c hcc => ?_⟩
  · obtain ⟨v, h1, h2⟩ := key c hcc
    have h3 : evalLit la.trail.bools c.lit = some true := ht
    rw [h1] at h3
    cases h3
    exact h2.mp rfl
  · obtain ⟨v, h1, _⟩ := key c hcc
    rw [h1]; rfl

/-- After the decisions of `LA.exActs` the constraints `x₀ + x₁ + x₂ ≤ 5` and `x₀ - x₁ < 0` are unit in
`x₁`; the values between 0 (not allowed) and 5 (allowed) are allowed. -/
example : ∃ la : LA Nat, LA.Reach id (fun _ => 0) LA.exOpts True la .settled ∧
    la.trail.rats.defined 1 = false ∧
    ((la.bnd.vb 1).isAllowed la.store la.models 0).2 = false ∧
    ((la.bnd.vb 1).isAllowed la.store la.models (1/2)).2 = true ∧
    ((la.bnd.vb 1).isAllowed la.store la.models 5).2 = true ∧
    ((la.bnd.vb 1).isAllowed la.store la.models 6).2 = false := by
  obtain ⟨la, h1, h2⟩ := LA.start_get (o := LA.exOpts) (timely := true) (as := LA.exActs)
    (s := .settled) (by decide +kernel)
  have e : (LA.start LA.exOpts true LA.exActs).map (fun r => (r.1.trail.rats.defined 1,
      ((r.1.bnd.vb 1).isAllowed r.1.store r.1.models 0).2,
      ((r.1.bnd.vb 1).isAllowed r.1.store r.1.models (1/2)).2,
      ((r.1.bnd.vb 1).isAllowed r.1.store r.1.models 5).2,
      ((r.1.bnd.vb 1).isAllowed r.1.store r.1.models 6).2)) =
      some (false, false, true, true, false) := by decide +kernel
  rw [h1] at e
  simp only [Option.map_some, Option.some.injEq, Prod.mk.injEq] at e
  exact ⟨la, by simpa using h2, e.1, e.2.1, e.2.2.1, e.2.2.2.1, e.2.2.2.2⟩

/-- `x₀ ≤ 3` (variable 2), `x₀ ≤ 5` (variable 3), `x₀ < 6` (variable 4). The variable 0 is decided at level
1 and `x₁` at level 2. Then variable 2 is propagated at level 2, and variable 3 is propagated late, at
level 1. -/
def LA.exLate : List LA.Act :=
  [.resize .rational 2, .resize .boolean 2, .cons [(0, 1)] .leq 3, .cons [(0, 1)] .leq 5,
    .cons [(0, 1)] .lt 6, .propagate, .decideBool 0 true, .propagate, .decideRat 1, .propagate,
    .setBool 2 true 2, .propagate, .setBool 3 true 1, .propagate]

/-- What happens after the split. -/
def LA.exLateCheck (la : LA Nat) : Bool :=
  Decidable.decide (1 < la.trail.decisionLevel) && Decidable.decide (4 < la.trail.bools.num) &&
  ((la.backtrack 1).trail.level ⟨.boolean, 4⟩).isNone &&
  (match ((la.backtrack 1).decideBool 4 false).propagate id (fun _ => 0) LA.exOpts with
  | (l1, cls) => cls.isEmpty && Decidable.decide (l1.nextIndex = (l1.trail.assigned l1.trail.decisionLevel).length) &&
    (l1.decide 100 0).any fun l2 => l2.ok && !(l2.propagate id (fun _ => 0) LA.exOpts).1.ok)

/-- C57 fails without the precondition of the history on late propagations before a semantic split. The
bound of `x₀ ≤ 5` is not recorded because `x₀ ≤ 3` is tighter, and after the split to level 1 it is not
offered again, as the plugin looks only at the assignments of level 2. So when `x₀ ≥ 6` is decided the
conflict is not found, and the value that the plugin decides for `x₀` violates an assertion: the literal
of `x₀ ≤ 5` is true but the constraint is false. -/
theorem C57_late_split : ∃ la : LA Nat, LA.Reach id (fun _ => 0) LA.exOpts False la .settled ∧
    1 < la.trail.decisionLevel ∧ 4 < la.trail.bools.num ∧
    (la.backtrack 1).trail.level ⟨.boolean, 4⟩ = none ∧
    ∃ l1, ((la.backtrack 1).decideBool 4 false).propagate id (fun _ => 0) LA.exOpts = (l1, []) ∧
      l1.nextIndex = (l1.trail.assigned l1.trail.decisionLevel).length ∧
      ∃ l2, l1.decide 100 0 = some l2 ∧ l2.ok = true ∧
        (l2.propagate id (fun _ => 0) LA.exOpts).1.ok = false := by
  obtain ⟨la, h1, h2⟩ := LA.start_get (o := LA.exOpts) (timely := false) (as := LA.exLate)
    (s := .settled) (by decide +kernel)
  have e : (LA.start LA.exOpts false LA.exLate).map (fun r => LA.exLateCheck r.1) = some true := by
    decide +kernel
  rw [h1] at e
  have e' : LA.exLateCheck la = true := by simpa using e
  unfold LA.exLateCheck at e'
  obtain ⟨e0, e4⟩ := Bool.and_eq_true_iff.mp e'
  obtain ⟨e0, e3⟩ := Bool.and_eq_true_iff.mp e0
  obtain ⟨e1, e2⟩ := Bool.and_eq_true_iff.mp e0
  refine ⟨la, by simpa using h2, of_decide_eq_true e1, of_decide_eq_true e2,
    Option.isNone_iff_eq_none.mp e3, ?_⟩
  generalize ((la.backtrack 1).decideBool 4 false).propagate id (fun _ => 0) LA.exOpts = r at e4 ⊢
  obtain ⟨l1, cls⟩ := r
  dsimp only at e4
  obtain ⟨e4, e6⟩ := Bool.and_eq_true_iff.mp e4
  obtain ⟨e4, e5⟩ := Bool.and_eq_true_iff.mp e4
  obtain ⟨l2, e7, e8⟩ := (Option.any_eq_true _ _).mp e6
  obtain ⟨e8, e9⟩ := Bool.and_eq_true_iff.mp e8
  exact ⟨l1, by rw [List.isEmpty_iff.mp e4], of_decide_eq_true e5, l2, e7, e8, by simpa using e9⟩

#print axioms C57_units
#print axioms C57_model
#print axioms C57_late_split

end Yaga
