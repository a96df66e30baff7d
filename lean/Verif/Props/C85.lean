/-
C85: propagation of constraints that are not on the trail.
-/
import Verif.Proofs.LraUnassigned
import Verif.Props.C84

namespace Yaga
open Spec

/-- C85. Where `propagate` calls it, `propagate_unassigned` only adds assignments of Boolean variables: each belongs to a
constraint with the variable decided last, gets the current level and no reason, and is in the trail and the models
consistently (the state is again one that the operations of the theory can reach). -/
theorem C85_adds {R : Type} (hv : Nat → Nat) (hc : ℚ → Nat) (o : LaOpts) (timely : Prop) (la : LA R) (s : Stage)
    (h : LA.Reach hv hc o timely la s) (l l' : LA R) (hl : l = la.handled o) (hl' : l' = l.propagateUnassigned) :
    Lra.Reach hv hc l'.core ∧ l'.trail.Inv ∧ l'.store = l.store ∧ l'.trail.rats = l.trail.rats ∧
    l'.trail.decisionLevel = l.trail.decisionLevel ∧
    (∀ x, l'.trail.level ⟨.rational, x⟩ = l.trail.level ⟨.rational, x⟩) ∧
    (∀ b, l.trail.bools.defined b = true → l'.trail.bools.defined b = true ∧
      l'.trail.bools.value b = l.trail.bools.value b ∧
      l'.trail.level ⟨.boolean, b⟩ = l.trail.level ⟨.boolean, b⟩ ∧
      l'.trail.reason ⟨.boolean, b⟩ = l.trail.reason ⟨.boolean, b⟩) ∧
    (∀ b, l.trail.bools.defined b = false → l'.trail.bools.defined b = true →
      l'.trail.level ⟨.boolean, b⟩ = some l.trail.decisionLevel ∧ l'.trail.reason ⟨.boolean, b⟩ = none ∧
      0 < l.trail.decisionLevel ∧
      ∃ e ∈ l.store.set, e.lit.ord = b ∧ ∃ x ∈ l.store.varsOf e,
        l.trail.level ⟨.rational, x⟩ = some l.trail.decisionLevel) := by
  subst hl hl'
  obtain ⟨w, hg⟩ := h.good
  have hB := LA.Good.handled_base hg o
  obtain ⟨b, st, _⟩ := LA.propagateUnassigned_spec hB
  refine ⟨b.reach, b.tinv, st.store, st.rats, st.dl, fun x => (st.other _ (Or.inl rfl)).1, ?_, ?_⟩
  · intro i hi
    obtain ⟨k, hk⟩ := (LA.def_b hB.tinv).mp hi
    obtain ⟨a1, a2⟩ := st.other ⟨.boolean, i⟩ (Or.inr (by rw [hk]; rfl))
    exact ⟨(st.old i hi).1, (st.old i hi).2, a1, a2⟩
  · intro i h0 h1
    obtain ⟨⟨e, he, ⟨x, hx, hd, hh⟩, hi⟩, h2, h3⟩ := st.new i h0 h1
    refine ⟨h2, h3, hd, e, he, hi.symm, x, hx, ?_⟩
    cases hxs : ((la.handled o).trail.assigned (la.handled o).trail.decisionLevel) with
    | nil => rw [hxs] at hh; cases hh
    | cons a as =>
      rw [hxs] at hh
      simp only [List.head?_cons, Option.map_some, Option.some.injEq] at hh
      have hget : (la.handled o).trail.levels[(la.handled o).trail.decisionLevel]? = some (a :: as) := by
        unfold Trail.assigned at hxs
        rw [List.getD_eq_getElem?_getD] at hxs
        cases hq : (la.handled o).trail.levels[(la.handled o).trail.decisionLevel]? with
        | none => rw [hq] at hxs; cases hxs
        | some ys => rw [hq] at hxs; simpa using hxs
      have := (hB.rat _ _ a hget (List.mem_cons_self ..) (by rw [hh])).1
      rw [hh] at this
      exact this

/-- C85. If no equality has the variable decided last, every literal set is implied: a valuation that agrees with the
assigned rational variables and satisfies the constraints on the trail satisfies all constraints on the new trail.
What is missing: equalities, for which the claim is false (`C85_equality_wrong`). -/
theorem C85_implied_partial {R : Type} (hv : Nat → Nat) (hc : ℚ → Nat) (o : LaOpts) (timely : Prop) (la : LA R)
    (s : Stage) (h : LA.Reach hv hc o timely la s) (l l' : LA R) (hl : l = la.handled o)
    (hl' : l' = l.propagateUnassigned)
    (hp : ∀ e ∈ l.store.set, (∃ x ∈ l.store.varsOf e,
      l.trail.level ⟨.rational, x⟩ = some l.trail.decisionLevel) → e.pred ≠ .eq)
    (σ : Nat → ℚ) (hσ : AgreesWith l.models σ) (hS : SatTrail l.store l.models σ) :
    SatTrail l.store l'.models σ := by
  subst hl hl'
  obtain ⟨w, hg⟩ := h.good
  have hB := LA.Good.handled_base hg o
  refine (LA.propagateUnassigned_spec hB).2.2 ?_ σ hσ hS
  rintro e he ⟨x, hx, hd, hh⟩
  refine hp e he ⟨x, hx, ?_⟩
  cases hxs : ((la.handled o).trail.assigned (la.handled o).trail.decisionLevel) with
  | nil => rw [hxs] at hh; cases hh
  | cons a as =>
    rw [hxs] at hh
    simp only [List.head?_cons, Option.map_some, Option.some.injEq] at hh
    have hget : (la.handled o).trail.levels[(la.handled o).trail.decisionLevel]? = some (a :: as) := by
      unfold Trail.assigned at hxs
      rw [List.getD_eq_getElem?_getD] at hxs
      cases hq : (la.handled o).trail.levels[(la.handled o).trail.decisionLevel]? with
      | none => rw [hq] at hxs; cases hxs
      | some ys => rw [hq] at hxs; simpa using hxs
    have := (hB.rat _ _ a hget (List.mem_cons_self ..) (by rw [hh])).1
    rw [hh] at this
    exact this

/-- `x₀ ≤ 5` is true, `x₁` is decided, and `x₀ + x₁ < 7` (or `x₀ + x₁ = 5`) is not assigned. -/
def LA.exUnassigned (p : Pred) (r : ℚ) : List LA.Act :=
  [.resize .rational 2, .cons [(0, 1)] .leq 5, .cons [(0, 1), (1, 1)] p r, .propagate, .decideBool 0 true, .propagate,
    .decideRat 1]

/-- C85 is false for equalities: with `x₀ ≤ 5` on the trail and `x₁ = 0` decided, `x₀ + x₁ = 5` is set to true, but
`x₀ = 0` satisfies the trail and not the equality. -/
theorem C85_equality_wrong :
    ∃ la : LA Nat, LA.Reach id (fun _ => 0) LA.exOpts True la .decided ∧
      ∃ σ, AgreesWith (la.handled LA.exOpts).models σ ∧
        SatTrail (la.handled LA.exOpts).store (la.handled LA.exOpts).models σ ∧
        ¬ SatTrail (la.handled LA.exOpts).store (la.handled LA.exOpts).propagateUnassigned.models σ := by
  obtain ⟨la, h1, h2⟩ := LA.start_get (o := LA.exOpts) (timely := true) (as := LA.exUnassigned .eq 5)
    (s := .decided) (by decide +kernel)
  have key : (LA.start LA.exOpts true (LA.exUnassigned .eq 5)).map (fun r =>
      let l := r.1.handled LA.exOpts
      (l.models.rats.defined 0, l.store.set.all fun e => [e, e.neg].all fun c =>
        !(evalLit l.models.bools c.lit == some true) || l.store.eval (l.models.rats.setValue 0 0) c,
        l.store.set.all fun e => [e, e.neg].all fun c =>
        !(evalLit l.propagateUnassigned.models.bools c.lit == some true) || l.store.eval (l.models.rats.setValue 0 0) c)) =
      some (false, true, false) := by decide +kernel
  rw [h1] at key
  simp only [Option.map_some, Option.some.injEq, Prod.mk.injEq] at key
  obtain ⟨k1, k2, k3⟩ := key
  refine ⟨la, by simpa using h2, ((la.handled LA.exOpts).models.rats.setValue 0 0).value, ?_, ?_, ?_⟩
  · intro y hy
    have : y ≠ 0 := by rintro rfl; rw [k1] at hy; cases hy
    simp [PModel.setValue, this]
  · rintro c ⟨e, he, hce⟩ ht
    rw [List.all_eq_true] at k2
    have := k2 e he
    rw [List.all_eq_true] at this
    have := this c (by rcases hce with rfl | rfl <;> simp)
    rw [ht] at this
    simp only [beq_self_eq_true, Bool.not_true, Bool.false_or] at this
    rwa [LinStore.eval_iff] at this
  · intro hS
    rw [List.all_eq_false] at k3
    obtain ⟨e, he, hn⟩ := k3
    refine hn ?_
    rw [List.all_eq_true]
    intro c hc
    rw [Bool.or_eq_true]
    by_cases ht : evalLit (la.handled LA.exOpts).propagateUnassigned.models.bools c.lit = some true
    · right
      have hcc : IsCons (la.handled LA.exOpts).store c := ⟨e, he, by simpa using hc⟩
      rw [LinStore.eval_iff]
      exact hS c hcc ht
    · left
      simpa using ht

/-- `x₀ + x₁ < 7` is set to true. -/
example : ∃ la : LA Nat, LA.Reach id (fun _ => 0) LA.exOpts True la .decided ∧
    (∀ e ∈ (la.handled LA.exOpts).store.set, e.pred ≠ .eq) ∧
    (la.handled LA.exOpts).trail.bools.defined 1 = false ∧
    evalLit (la.handled LA.exOpts).propagateUnassigned.trail.bools (Lit.pos 1) = some true := by
  obtain ⟨la, h1, h2⟩ := LA.start_get (o := LA.exOpts) (timely := true) (as := LA.exUnassigned .lt 7)
    (s := .decided) (by decide +kernel)
  have key : (LA.start LA.exOpts true (LA.exUnassigned .lt 7)).map (fun r =>
      let l := r.1.handled LA.exOpts
      (decide (∀ e ∈ l.store.set, e.pred ≠ .eq), l.trail.bools.defined 1,
        evalLit l.propagateUnassigned.trail.bools (Lit.pos 1))) = some (true, false, some true) := by decide +kernel
  rw [h1] at key
  simp only [Option.map_some, Option.some.injEq, Prod.mk.injEq, decide_eq_true_eq] at key
  exact ⟨la, by simpa using h2, key⟩

#print axioms C85_adds
#print axioms C85_implied_partial
#print axioms C85_equality_wrong

end Yaga
