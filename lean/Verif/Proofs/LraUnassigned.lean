/-
Constraints set by `propagate_unassigned`.
-/
import Verif.Model.LraUnassigned
import Verif.Proofs.FmChecked
import Verif.Proofs.LraImplied

namespace Yaga
open Spec Lra

namespace LA
variable {R : Type} {hv : Nat → Nat} {hc : ℚ → Nat} {la : LA R}

/-- The invariant holds where `propagate_unassigned` is called. -/
theorem Good.handled_base {s : Stage} {w : Option Nat} (h : Good hv hc la s w) (o : LaOpts) :
    Base hv hc (la.handled o).trail (la.handled o).store (la.handled o).bnd := by
  have key : ∀ {l : LA R} {X Y}, Keep hv hc l X Y (fun _ => lev l.trail) →
      Base hv hc (if o.propBounds then l.propagateBounds else l).trail
        (if o.propBounds then l.propagateBounds else l).store (if o.propBounds then l.propagateBounds else l).bnd := by
    intro l X Y h
    split
    · exact h.propagateBounds.1.base
    · exact h.base
  cases w with
  | none =>
    obtain ⟨k1, _⟩ := Keep.handled (la := la) h.keep
    exact key k1
  | some x =>
    obtain ⟨l1, l2, l3⟩ := h.last x rfl
    have hskip : la.skip = 0 := by unfold LA.skip; rw [if_neg l3]
    obtain ⟨k1, k2⟩ := Keep.replaceWatch (la := la.takeAssigned.1) l2 h.keep.take
    rw [← k2.lev_eq] at k1
    have e : la.takeAssigned.2 = [⟨.rational, x⟩] := by
      unfold LA.takeAssigned
      dsimp only
      rw [l1, hskip]
      rfl
    have e2 : (la.takeAssigned.2.filter la.relevant).foldl onAssigned la.takeAssigned.1 =
        la.takeAssigned.1.replaceWatch x := by rw [e]; rfl
    unfold LA.handled
    dsimp only
    rw [e2]
    exact key k1

/-- What `propagate_unassigned` does to the state. `P` holds for the variables of the constraints it looks at. -/
structure Sets (P : Nat → Prop) (l l' : LA R) : Prop where
  store : l'.store = l.store
  rats : l'.trail.rats = l.trail.rats
  dl : l'.trail.decisionLevel = l.trail.decisionLevel
  other : ∀ v, (v.type = .rational ∨ (l.trail.level v).isSome = true) →
    l'.trail.level v = l.trail.level v ∧ l'.trail.reason v = l.trail.reason v
  old : ∀ o, l.trail.bools.defined o = true →
    l'.trail.bools.defined o = true ∧ l'.trail.bools.value o = l.trail.bools.value o
  new : ∀ o, l.trail.bools.defined o = false → l'.trail.bools.defined o = true →
    P o ∧ l'.trail.level ⟨.boolean, o⟩ = some l.trail.decisionLevel ∧ l'.trail.reason ⟨.boolean, o⟩ = none

theorem Sets.refl (P : Nat → Prop) (l : LA R) : Sets P l l :=
  ⟨rfl, rfl, rfl, fun _ _ => ⟨rfl, rfl⟩, fun _ h => ⟨h, rfl⟩, fun o h h' => by rw [h] at h'; cases h'⟩

theorem Sets.trans {P : Nat → Prop} {l1 l2 l3 : LA R} (h : Sets P l1 l2) (k : Sets P l2 l3) :
    Sets P l1 l3 where
  store := k.store.trans h.store
  rats := k.rats.trans h.rats
  dl := k.dl.trans h.dl
  other v hv' := by
    obtain ⟨a, b⟩ := h.other v hv'
    obtain ⟨c, d⟩ := k.other v (by rw [a]; exact hv')
    exact ⟨c.trans a, d.trans b⟩
  old o ho := by
    obtain ⟨a, b⟩ := h.old o ho
    obtain ⟨c, d⟩ := k.old o a
    exact ⟨c, d.trans b⟩
  new o h0 h1 := by
    cases h2 : l2.trail.bools.defined o with
    | false =>
      obtain ⟨a, b, c⟩ := k.new o h2 h1
      exact ⟨a, by rw [b, h.dl], c⟩
    | true =>
      obtain ⟨a, b, c⟩ := h.new o h0 h2
      obtain ⟨d, e⟩ := k.other ⟨.boolean, o⟩ (Or.inr (by rw [b]; rfl))
      exact ⟨a, by rw [d, b], by rw [e, c]⟩

theorem Sets.mono {P Q : Nat → Prop} {l l' : LA R} (h : Sets P l l') (hpq : ∀ o, P o → Q o) : Sets Q l l' :=
  ⟨h.store, h.rats, h.dl, h.other, h.old, fun o a b => ⟨hpq o (h.new o a b).1, (h.new o a b).2⟩⟩

/-- What is kept by a step that sets `c` or nothing. -/
theorem tryImplied_spec (hB : Base hv hc la.trail la.store la.bnd) {c : LinCons} (hcc : IsCons la.store c)
    (hev : evalLit la.trail.bools c.lit ≠ some true) :
    Base hv hc (la.tryImplied c).trail (la.tryImplied c).store (la.tryImplied c).bnd ∧
    Sets (· = c.lit.ord) la (la.tryImplied c) ∧
    (c.pred ≠ .eq → ∀ σ, AgreesWith la.models σ → SatTrail la.store la.models σ →
      SatTrail la.store (la.tryImplied c).models σ) := by
  have hst : Base hv hc la.trail la.store (la.bnd.isImplied la.store la.models c).1 :=
    ⟨Steps.step (.implied c) hB.reach trivial, hB.tinv, hB.rat, hB.ne⟩
  unfold tryImplied
  dsimp only
  split
  · rename_i hi
    have hnone : evalLit la.trail.bools c.lit = none := by
      cases e : evalLit la.trail.bools c.lit with
      | none => rfl
      | some v =>
        exfalso
        unfold BState.isImplied at hi
        have e' : evalLit la.models.bools c.lit = some v := e
        rw [e'] at hi
        simp only at hi
        rw [e, hi] at hev
        exact hev rfl
    have hdef : la.trail.bools.defined c.lit.ord = false := by
      unfold evalLit at hnone
      split at hnone
      · cases hnone
      · rename_i h; simpa using h
    have hlev : la.trail.level ⟨.boolean, c.lit.ord⟩ = none := by
      cases e : la.trail.level ⟨.boolean, c.lit.ord⟩ with
      | none => rfl
      | some k =>
        have := (def_b hB.tinv (o := c.lit.ord)).mpr ⟨k, e⟩
        rw [hdef] at this; cases this
    refine ⟨hst.setBool (hB.ord_lt hcc) hlev le_rfl, ⟨rfl, rfl, ?_, ?_, ?_, ?_⟩, ?_⟩
    · show (Trail.setValue _ _ _).decisionLevel = _
      unfold Trail.decisionLevel
      rw [Trail.levels_setValue]
      show (Trail.pushFrom _ _ _).length - 1 = _
      rw [Trail.length_pushFrom]
    · intro v hv'
      have hne : v ≠ ⟨.boolean, c.lit.ord⟩ := by
        rintro rfl
        rcases hv' with h | h
        · cases h
        · rw [hlev] at h; cases h
      exact ⟨Function.update_of_ne hne _ _, Function.update_of_ne hne _ _⟩
    · intro o ho
      have hne : o ≠ c.lit.ord := by rintro rfl; rw [hdef] at ho; cases ho
      exact ⟨(Function.update_of_ne hne _ _).trans ho, Function.update_of_ne hne _ _⟩
    · intro o ho h1
      have ho' : o = c.lit.ord := by
        by_contra hne
        have : (Function.update la.trail.bools.defined c.lit.ord true) o = true := h1
        rw [Function.update_of_ne hne, ho] at this
        cases this
      subst ho'
      exact ⟨rfl, Function.update_self .., Function.update_self ..⟩
    · intro hp σ hσ hS d hd hdt
      have hct : ConsTrue la.store c σ :=
        isImplied_sound (st := la.core) (reach_linv hB.reach) hcc hp hnone hi hσ
          (fun up x b hb hl => (bound_sound (reach_linv hB.reach) hb hl hσ hS).1)
      by_cases hne : d.lit.ord = c.lit.ord
      · have : d = c := by
          have hdt' : evalLit (la.trail.bools.setValue c.lit.ord (!c.lit.isNeg)) d.lit = some true := hdt
          unfold evalLit at hdt'
          rw [hne] at hdt'
          have e1 : (la.trail.bools.setValue c.lit.ord (!c.lit.isNeg)).defined c.lit.ord = true :=
            Function.update_self ..
          have e2 : (la.trail.bools.setValue c.lit.ord (!c.lit.isNeg)).value c.lit.ord = !c.lit.isNeg :=
            Function.update_self ..
          rw [e1, e2, if_pos rfl] at hdt'
          rcases hd.same_ord hB.inv hcc hne with h | h
          · exact h
          · exfalso
            rw [h] at hdt'
            have hn : c.neg.lit.isNeg = !c.lit.isNeg := Lit.isNeg_neg c.lit
            rw [hn] at hdt'
            cases hx : c.lit.isNeg <;> rw [hx] at hdt' <;> simp at hdt'
        rw [this]; exact hct
      · refine hS d hd ?_
        have hdt' : evalLit (la.trail.bools.setValue c.lit.ord (!c.lit.isNeg)) d.lit = some true := hdt
        unfold evalLit at hdt' ⊢
        have e1 : (la.trail.bools.setValue c.lit.ord (!c.lit.isNeg)).defined d.lit.ord = la.trail.bools.defined d.lit.ord :=
            Function.update_of_ne hne _ _
        have e2 : (la.trail.bools.setValue c.lit.ord (!c.lit.isNeg)).value d.lit.ord = la.trail.bools.value d.lit.ord :=
            Function.update_of_ne hne _ _
        rw [e1, e2] at hdt'
        exact hdt'
  · exact ⟨hst, ⟨rfl, rfl, rfl, fun _ _ => ⟨rfl, rfl⟩, fun _ h => ⟨h, rfl⟩, fun o h h' => by
      have h'' : la.trail.bools.defined o = true := h'
      rw [h] at h''; cases h''⟩, fun _ _ _ hS => hS⟩

/-- The two steps for one constraint. -/
theorem tryBoth_spec (hB : Base hv hc la.trail la.store la.bnd) {e : LinCons} (he : e ∈ la.store.set) :
    Base hv hc (la.tryBoth e).trail (la.tryBoth e).store (la.tryBoth e).bnd ∧
    Sets (· = e.lit.ord) la (la.tryBoth e) ∧
    (e.pred ≠ .eq → ∀ σ, AgreesWith la.models σ → SatTrail la.store la.models σ →
      SatTrail la.store (la.tryBoth e).models σ) := by
  unfold tryBoth
  split
  · exact ⟨hB, Sets.refl _ _, fun _ _ _ h => h⟩
  · rename_i hd
    have hd : la.trail.bools.defined e.lit.ord = false := by simpa using hd
    have hcc : IsCons la.store e := ⟨e, he, Or.inl rfl⟩
    obtain ⟨b1, s1, t1⟩ := tryImplied_spec hB hcc (by unfold evalLit; rw [hd]; simp)
    simp only [List.foldl_cons, List.foldl_nil]
    have hcc2 : IsCons (la.tryImplied e).store e.neg := by rw [s1.store]; exact hcc.neg
    have hev2 : evalLit (la.tryImplied e).trail.bools e.neg.lit ≠ some true := by
      have ho : e.neg.lit.ord = e.lit.ord := LinStore.Lit.neg_ord _
      have hn : e.neg.lit.isNeg = !e.lit.isNeg := Lit.isNeg_neg e.lit
      unfold tryImplied
      dsimp only
      split
      · show evalLit (la.trail.bools.setValue e.lit.ord (!e.lit.isNeg)) e.neg.lit ≠ some true
        unfold evalLit
        rw [ho, hn]
        simp [PModel.setValue]
      · show evalLit la.trail.bools e.neg.lit ≠ some true
        unfold evalLit
        rw [ho, hd]; simp
    obtain ⟨b2, s2, t2⟩ := tryImplied_spec b1 hcc2 hev2
    refine ⟨b2, s1.trans (s2.mono fun o h => h.trans (LinStore.Lit.neg_ord _)), ?_⟩
    intro hp σ hσ hS
    have := t2 hp σ (by
      intro y hy
      have hr : (la.tryImplied e).models.rats = la.models.rats := s1.rats
      rw [hr] at hy ⊢
      exact hσ y hy) (by rw [s1.store]; exact t1 hp σ hσ hS)
    rw [s1.store] at this
    exact this

/-- The loop over the constraints of a variable. -/
theorem tryAll_spec (es : List LinCons) : ∀ {la : LA R} (_ : Base hv hc la.trail la.store la.bnd)
    (_ : ∀ e ∈ es, e ∈ la.store.set),
    Base hv hc (es.foldl tryBoth la).trail (es.foldl tryBoth la).store (es.foldl tryBoth la).bnd ∧
    Sets (fun o => ∃ e ∈ es, o = e.lit.ord) la (es.foldl tryBoth la) ∧
    ((∀ e ∈ es, e.pred ≠ .eq) → ∀ σ, AgreesWith la.models σ → SatTrail la.store la.models σ →
      SatTrail la.store (es.foldl tryBoth la).models σ) := by
  induction es with
  | nil => exact fun hB _ => ⟨hB, Sets.refl _ _, fun _ _ _ h => h⟩
  | cons e es ih =>
    intro la hB hes
    obtain ⟨b1, s1, t1⟩ := tryBoth_spec hB (hes e (List.mem_cons_self ..))
    obtain ⟨b2, s2, t2⟩ := ih b1 (fun d hd => by rw [s1.store]; exact hes d (List.mem_cons_of_mem _ hd))
    refine ⟨b2, (s1.mono fun o h => ⟨e, List.mem_cons_self .., h⟩).trans
      (s2.mono fun o ⟨d, hd, h⟩ => ⟨d, List.mem_cons_of_mem _ hd, h⟩), ?_⟩
    intro hp σ hσ hS
    have := t2 (fun d hd => hp d (List.mem_cons_of_mem _ hd)) σ (by
      intro y hy
      have hr : (la.tryBoth e).models.rats = la.models.rats := s1.rats
      rw [hr] at hy ⊢
      exact hσ y hy) (by rw [s1.store]; exact t1 (hp e (List.mem_cons_self ..)) σ hσ hS)
    rw [s1.store] at this
    exact this

/-- The variable of the last decision is the first one of the current level. -/
def LastDecision (la : LA R) (x : Nat) : Prop :=
  0 < la.trail.decisionLevel ∧
    ((la.trail.assigned la.trail.decisionLevel).head?.map (·.var)) = some ⟨.rational, x⟩

/-- `propagate_unassigned`. -/
theorem propagateUnassigned_spec (hB : Base hv hc la.trail la.store la.bnd) :
    Base hv hc la.propagateUnassigned.trail la.propagateUnassigned.store la.propagateUnassigned.bnd ∧
    Sets (fun o => ∃ e ∈ la.store.set, (∃ x ∈ la.store.varsOf e, la.LastDecision x) ∧ o = e.lit.ord) la
      la.propagateUnassigned ∧
    ((∀ e ∈ la.store.set, (∃ x ∈ la.store.varsOf e, la.LastDecision x) → e.pred ≠ .eq) →
      ∀ σ, AgreesWith la.models σ → SatTrail la.store la.models σ →
      SatTrail la.store la.propagateUnassigned.models σ) := by
  unfold propagateUnassigned
  split
  · exact ⟨hB, Sets.refl _ _, fun _ _ _ h => h⟩
  · rename_i h0
    split
    · exact ⟨hB, Sets.refl _ _, fun _ _ _ h => h⟩
    · rename_i a ha
      split
      · exact ⟨hB, Sets.refl _ _, fun _ _ _ h => h⟩
      · rename_i ht
        have hl : la.LastDecision a.var.ord := by
          refine ⟨by omega, ?_⟩
          rw [ha, Option.map_some, ← ht]
        have hm : ∀ e ∈ la.occur a.var.ord, e ∈ la.store.set ∧ ∃ x ∈ la.store.varsOf e, la.LastDecision x := by
          intro e he
          unfold occur at he
          rw [List.mem_filter] at he
          exact ⟨he.1, a.var.ord, by simpa using he.2, hl⟩
        obtain ⟨b, s, t⟩ := tryAll_spec (la.occur a.var.ord) hB (fun e he => (hm e he).1)
        refine ⟨b, s.mono fun o ⟨e, he, h⟩ => ⟨e, (hm e he).1, (hm e he).2, h⟩, ?_⟩
        exact fun hp => t fun e he => hp e (hm e he).1 (hm e he).2

end LA
end Yaga
