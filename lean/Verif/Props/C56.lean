/-
C56: literals and values of linear constraints agree.
-/
import Verif.Props.C55

namespace Yaga
open Spec

/-- C56. In every reachable state a constraint all of whose variables are assigned does not have a literal
assigned to the opposite of its value. This is the hypothesis of C29 and C30. -/
theorem C56_consistent {R : Type} (hv : Nat → Nat) (hc : ℚ → Nat) (o : LaOpts) (timely : Prop)
    (la : LA R) (s : Stage) (h : LA.Reach hv hc o timely la s) :
    ValuesConsistent la.store la.models := by
  obtain ⟨w, hg⟩ := h.good
  exact hg.keep.sem.vals

/-- C56. The literal of a constraint all of whose variables are assigned has a value, and it is the value
of the constraint. The only exception is the time between a decision of the plugin and the next
propagation. -/
theorem C56_evaluated {R : Type} (hv : Nat → Nat) (hc : ℚ → Nat) (o : LaOpts) (timely : Prop)
    (la : LA R) (s : Stage) (h : LA.Reach hv hc o timely la s) (hs : s ≠ .decided) (c : LinCons)
    (hcc : IsCons la.store c) (hd : ∀ x ∈ la.store.varsOf c, la.trail.rats.defined x = true) :
    ∃ v, evalLit la.trail.bools c.lit = some v ∧ (v = true ↔ ConsTrue la.store c la.trail.rats.value) := by
  obtain ⟨w, hg⟩ := h.good
  have hw := hg.normal hs
  subst hw
  obtain ⟨e, he, hce⟩ := hcc
  have heo : e.lit.ord = c.lit.ord := by
    rcases hce with rfl | rfl
    · rfl
    · exact (Lit.ord_neg _).symm
  have hF := hg.keep.sem.full la.trail.decisionLevel (le_refl _) c.lit.ord LA.not_fresh e he heo
    (fun y hy => by
      rw [LA.cut_top hg.keep.base.tinv]
      refine hd y ?_
      rcases hce with rfl | rfl
      · exact hy
      · exact hy)
  rw [LA.cut_top hg.keep.base.tinv] at hF
  have hF' : la.trail.bools.defined c.lit.ord = true := hF
  obtain ⟨v, hvv⟩ : ∃ v, evalLit la.trail.bools c.lit = some v := by
    unfold evalLit; rw [hF']; exact ⟨_, rfl⟩
  refine ⟨v, hvv, hg.keep.sem.vals c ⟨e, he, hce⟩ (fun p hp => ?_) v hvv⟩
  refine hd p.1 ?_
  have hcc : IsCons la.store c := ⟨e, he, hce⟩
  rw [hcc.varsOf hg.keep.base.inv]
  exact List.mem_map.mpr ⟨p, hp, rfl⟩

/-- C56. Each clause that the plugin returns is true under every valuation of the rational variables, all
its literals stand for linear constraints and are false on the trail after the call. -/
theorem C56_conflicts {R : Type} (hv : Nat → Nat) (hc : ℚ → Nat) (o : LaOpts) (timely : Prop)
    (la : LA R) (s : Stage) (h : LA.Reach hv hc o timely la s) (cl : Clause)
    (hcl : cl ∈ (la.propagate hv hc o).2) :
    (∀ σ, ∃ l ∈ cl, LitMeans (la.propagate hv hc o).1.store l σ) ∧
    ∀ l ∈ cl, evalLit (la.propagate hv hc o).1.trail.bools l = some false ∧
      ∃ c, IsCons (la.propagate hv hc o).1.store c ∧ c.lit.ord = l.ord := by
  obtain ⟨w, hg⟩ := h.good
  have := (hg.propagate (o := o)).2.2 cl hcl
  exact ⟨this.valid, fun l hl => ⟨this.false l hl, this.real l hl⟩⟩

/-- C56. Propagation keeps the assignments of the trail and the meaning of the constraints, so that the two
theorems above are about the assignment the solver had. -/
theorem C56_kept {R : Type} (hv : Nat → Nat) (hc : ℚ → Nat) (o : LaOpts) (timely : Prop)
    (la : LA R) (s : Stage) (h : LA.Reach hv hc o timely la s) :
    (la.propagate hv hc o).1.trail.rats = la.trail.rats ∧
    (∀ l v, evalLit la.trail.bools l = some v →
      evalLit (la.propagate hv hc o).1.trail.bools l = some v) ∧
    ∀ c, IsCons la.store c → IsCons (la.propagate hv hc o).1.store c ∧
      ∀ σ, ConsTrue (la.propagate hv hc o).1.store c σ ↔ ConsTrue la.store c σ := by
  obtain ⟨w, hg⟩ := h.good
  obtain ⟨h1, h2, _⟩ := hg.propagate (o := o)
  refine ⟨h2.rats, fun l v hl => ?_, fun c hcc => ⟨(hcc.kept h2.kept).1, fun σ => consTrue_kept h2.kept hcc σ⟩⟩
  exact LA.Frame.evalLit (la := la.takeAssigned.1) (Lf := LA.levs la w) (X := LA.Fresh la w)
    (Y := LA.Pending la w) ⟨hg.keep.base, hg.keep.ok, hg.keep.sem, hg.keep.wat⟩ h1.keep h2 hl

/-- `x₀ + x₁ ≤ 1`, `x₀ ≥ 1` and `x₁ > 0` are decided to be true. -/
def LA.exConflict : List LA.Act :=
  [.resize .rational 2, .cons [(0, 1), (1, 1)] .leq 1, .cons [(0, 1)] .lt 1, .cons [(1, 1)] .leq 0, .propagate,
    .decideBool 1 false, .propagate, .decideBool 0 true, .propagate, .decideBool 2 false]

/-- The clause says that one of the three constraints is false. -/
example : ∃ la : LA Nat, LA.Reach id (fun _ => 0) LA.exOpts True la .changed ∧
    (la.propagate id (fun _ => 0) LA.exOpts).2 = [[(Lit.pos 0).neg, .pos 1, .pos 2]] := by
  obtain ⟨la, h1, h2⟩ := LA.start_get (o := LA.exOpts) (timely := true) (as := LA.exConflict)
    (s := .changed) (by decide +kernel)
  have e : (LA.start LA.exOpts true LA.exConflict).map
      (fun r => (r.1.propagate id (fun _ => 0) LA.exOpts).2) = some [[(Lit.pos 0).neg, .pos 1, .pos 2]] := by decide +kernel
  rw [h1] at e
  exact ⟨la, by simpa using h2, by simpa using e⟩

/-- All variables of the second constraint of `LA.exActs` are assigned after the last decision and the
propagation that follows it. -/
example : ∃ la : LA Nat, LA.Reach id (fun _ => 0) LA.exOpts True la .settled ∧
    la.trail.rats.defined 0 = true ∧ la.trail.rats.defined 1 = true ∧
    evalLit la.trail.bools (la.store.get 1).lit = some true := by
  obtain ⟨la, h1, h2⟩ := LA.start_get (o := LA.exOpts) (timely := true)
    (as := LA.exActs ++ [.decideRat 1, .propagate]) (s := .settled) (by decide +kernel)
  have e : (LA.start LA.exOpts true (LA.exActs ++ [.decideRat 1, .propagate])).map (fun r =>
      (r.1.trail.rats.defined 0, r.1.trail.rats.defined 1,
        evalLit r.1.trail.bools (r.1.store.get 1).lit)) = some (true, true, some true) := by decide +kernel
  rw [h1] at e
  simp only [Option.map_some, Option.some.injEq, Prod.mk.injEq] at e
  exact ⟨la, by simpa using h2, e.1, e.2.1, e.2.2⟩

#print axioms C56_consistent
#print axioms C56_evaluated
#print axioms C56_conflicts
#print axioms C56_kept

end Yaga
