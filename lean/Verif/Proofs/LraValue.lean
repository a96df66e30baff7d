/-
In a timely history of the arithmetic plugin every variable has a permitted value, so `decide` finds one.
-/
import Verif.Proofs.LraQuiet

namespace Yaga
open Spec
open LinStore (delta WfTerms Inv Kept Made)

namespace LA
open Lra
variable {R : Type} {hv : Nat → Nat} {hc : ℚ → Nat} {o : LaOpts} {la la' : LA R} {s : Stage} {w : Option Nat}

/-- The bounds that are live at level `k` permit a value for every variable. -/
def HasValue (la : LA R) (k : Nat) : Prop := ∀ x, ∃ q, Permits la.store (cut la.trail k) la.bnd x q

/-- This is so for all levels below the current one, and for the current one if there is no conflict. -/
def HasValues (la : LA R) (s : Stage) : Prop :=
  ∀ k ≤ la.trail.decisionLevel, (k < la.trail.decisionLevel ∨ s ≠ .conflict) → HasValue la k

theorem HasValue.step {k k' : Nat} (h : HasValue la k) (hB : Base hv hc la.trail la.store la.bnd)
    (hB' : Base hv hc la'.trail la'.store la'.bnd) (hK : Kept la.store la'.store)
    (hm : MStep (mods la.trail) (mods la'.trail))
    (hlev : ∀ v l l0, la'.trail.level v = some l → l ≤ k' → la.trail.level v = some l0 → l0 ≤ k)
    (hsub : ∀ x kd, ∀ e ∈ lst la'.bnd kd x, e ∈ lst la.bnd kd x ∨
      e.isObsolete la'.store (cut la'.trail k') = true) : HasValue la' k' := by
  intro x
  obtain ⟨q, hq⟩ := h x
  exact ⟨q, permits_step hB hB'.inv hK (mstep_cuts hB.tinv hB'.tinv hm hlev) (hsub x) hq⟩

theorem HasValues.frame (h : HasValues la s) (hB : Base hv hc la.trail la.store la.bnd)
    (hB' : Base hv hc la'.trail la'.store la'.bnd) (hf : Frame la la') (hb : la'.bnd = la.bnd) {s' : Stage}
    (hs : s' ≠ .conflict → s ≠ .conflict) : HasValues la' s' := by
  intro k hk hks
  rw [hf.dl] at hk hks
  refine (h k hk (hks.imp id hs)).step hB hB' hf.kept hf.step ?_ ?_
  · intro v l l0 h1 h2 h3
    have := hf.lvl v l0 h3
    rw [h1] at this
    injection this with this
    omega
  · intro x kd e he
    rw [hb] at he
    exact Or.inl he

/-- A decision. -/
theorem HasValues.decide (h : HasValues la s) (hs : s ≠ .conflict) (hB : Base hv hc la.trail la.store la.bnd)
    (hB' : Base hv hc la'.trail la'.store la'.bnd) {u : Var} {q : Val} (hu : la.trail.level u = none)
    (hst : la'.store = la.store) (ht : la'.trail = (la.trail.decide u).setValue u q)
    (hb : ∀ x kd, ∀ e ∈ lst la'.bnd kd x, e ∈ lst la.bnd kd x) {s' : Stage} : HasValues la' s' := by
  have hlevel : ∀ v, la'.trail.level v = if v = u then some la.trail.levels.length else la.trail.level v := by
    intro v
    rw [ht]
    simp [Trail.decide, Function.update_apply]
  intro k' hk' _
  have hm : MStep (mods la.trail) (mods la'.trail) := by
    rw [ht]
    obtain ⟨ty, ou⟩ := u
    unfold Trail.setValue Trail.decide mods
    split
    · exact ⟨PStep.setValue _ _ _, PStep.refl _⟩
    · exact ⟨PStep.refl _, PStep.setValue _ _ _⟩
    · exact MStep.refl _
  refine (h (min k' la.trail.decisionLevel) (min_le_right _ _) (Or.inr hs)).step hB hB'
    (by rw [hst]; exact Kept.refl _) hm ?_ fun x kd e he => Or.inl (hb x kd e he)
  intro v l l0 h1 h2 h3
  rw [hlevel, if_neg (by rintro rfl; rw [hu] at h3; cases h3), h3] at h1
  injection h1 with h1
  have := hB.tinv.bound _ _ h3
  omega

theorem HasValues.backtrack (h : HasValues la s) (hg : Good hv hc la s w) {k : Nat}
    (hk : k < la.trail.decisionLevel) (s' : Stage) : HasValues (la.backtrack k) s' := by
  intro k' hk' _
  have hdl : (la.backtrack k).trail.decisionLevel = k := by
    show (la.trail.backtrack k).decisionLevel = k
    exact Trail.decisionLevel_backtrack hg.keep.base.tinv k hk.le
  rw [hdl] at hk'
  have hcl := cleared_popLevels (hv := hv) (hc := hc) (s := la.store) (b := la.bnd) k
    (la.trail.decisionLevel - k) la.trail
  refine (h k' (by omega) (Or.inl (by omega))).step (la' := la.backtrack k) hg.keep.base (hg.backtrack hk).keep.base (Kept.refl _)
    (steps_env hg.keep.base.linv hcl.steps).2 ?_ fun x kd e he => Or.inl he
  intro v l l0 h1 h2 h3
  rw [level_backtrack hg.keep.base.tinv hk] at h1
  rw [h1.1] at h3
  injection h3 with h3
  omega

/-- Nothing is assigned. -/
theorem HasValue.clear {k : Nat} (h : ∀ v, la.trail.level v = none) : HasValue la k := by
  intro x
  have key : ∀ e : Bnd, e.isObsolete la.store (cut la.trail k) = true := by
    intro e
    by_contra hcon
    rw [Bool.not_eq_true, bnd_eta e, live_iff] at hcon
    obtain ⟨h1, _⟩ := evalLit_some hcon.1.1
    obtain ⟨l, h2, _⟩ := cut_b.mp h1
    rw [h] at h2
    cases h2
  exact ⟨0, fun up e _ hl => absurd (key e) (by rw [hl]; simp), fun e _ hl => absurd (key e) (by rw [hl]; simp)⟩

/-- Bounds added at the current level are obsolete at the levels below it. -/
theorem NewB.obsolete (hB : Base hv hc la.trail la.store la.bnd) (hl : Late la) {e : Bnd} (h : NewB la e)
    {k : Nat} (hk : k < la.trail.decisionLevel) : e.isObsolete la.store (cut la.trail k) = true := by
  by_contra hcon
  rw [Bool.not_eq_true, bnd_eta e, live_iff] at hcon
  obtain ⟨⟨c1, _⟩, c2, _⟩ := hcon
  obtain ⟨hcons, ⟨hli, p, hp, hpl⟩ | ⟨hd, p, hp, hne, hpl⟩⟩ := h
  · obtain ⟨h1, _⟩ := evalLit_some c1
    obtain ⟨l, h2, h3⟩ := cut_b.mp h1
    obtain ⟨d, hd, hcd⟩ := hcons
    have ho : d.lit.ord = e.reason.lit.ord := by
      rcases hcd with e1 | e1
      · rw [e1]
      · rw [e1]; exact (Lit.ord_neg _).symm
    obtain ⟨m, _, h5⟩ := hl _ l _ h2 (by omega) hli p.1 (by
      rw [← ho, LinStore.get_of_mem hB.inv hd]
      have hv : la.store.varsOf e.reason = la.store.varsOf d := by
        rcases hcd with e1 | e1
        · rw [e1]
        · rw [e1, varsOf_neg]
      rw [← hv, IsCons.varsOf hB.inv ⟨d, hd, hcd⟩]
      exact List.mem_map_of_mem hp)
    have h6 : lev la.trail p.1 = some m := h5
    rw [hpl] at h6
    cases h6
  · have := c2 p.1 (by rw [hcons.varsOf hB.inv]; exact List.mem_map_of_mem hp) hne (by rw [hd]; simp)
    obtain ⟨l, h2, h3⟩ := cut_r.mp this.1
    have h4 : lev la.trail p.1 = some l := h2
    rw [hpl] at h4
    injection h4 with h4
    omega

/-- The loop of `propagate`. -/
theorem Good.handled (h : Good hv hc la s w) :
    ∃ X Y, Keep hv hc ((la.todo.filter la.relevant).foldl onAssigned la.takeAssigned.1) X Y
      (fun _ => lev ((la.todo.filter la.relevant).foldl onAssigned la.takeAssigned.1).trail) ∧
    Frame la.takeAssigned.1 ((la.todo.filter la.relevant).foldl onAssigned la.takeAssigned.1) := by
  cases w with
  | none => exact ⟨_, _, Keep.handled h.keep⟩
  | some x =>
    obtain ⟨l1, l2, l3⟩ := h.last x rfl
    have hskip : la.skip = 0 := by unfold LA.skip; rw [if_neg l3]
    obtain ⟨k1, k2⟩ := Keep.replaceWatch (la := la.takeAssigned.1) l2 h.keep.take
    have e : (la.todo.filter la.relevant).foldl onAssigned la.takeAssigned.1 =
        la.takeAssigned.1.replaceWatch x := by
      unfold LA.todo
      rw [l1, hskip]
      rfl
    rw [e]
    rw [← k2.lev_eq] at k1
    exact ⟨_, _, k1, k2⟩

theorem HasValues.propagate (h : HasValues la s) (hs : s ≠ .conflict) (hg : Good hv hc la s w) (hl : Late la) :
    HasValues (la.propagate hv hc o).1 (if (la.propagate hv hc o).2 ≠ [] then .conflict
        else if (la.propagate hv hc o).1.nextIndex =
          ((la.propagate hv hc o).1.trail.assigned (la.propagate hv hc o).1.trail.decisionLevel).length
        then .settled else .changed) := by
  obtain ⟨h1, h2, _⟩ := hg.propagate (o := o)
  have hl' : Late (la.propagate hv hc o).1 :=
    Late.frame (la := la.takeAssigned.1) hl hg.keep.base h1.keep.base h2
  have hB : Base hv hc la.takeAssigned.1.trail la.takeAssigned.1.store la.takeAssigned.1.bnd := hg.keep.base
  have hlev : ∀ k' v l l0, (la.propagate hv hc o).1.trail.level v = some l → l ≤ k' →
      la.takeAssigned.1.trail.level v = some l0 → l0 ≤ k' := by
    intro k' v l l0 a1 a2 a3
    have := h2.lvl v l0 a3
    rw [a1] at this
    injection this with this
    omega
  intro k hk hks
  rw [h2.dl] at hk hks
  have hk0 : HasValue la.takeAssigned.1 k := h k hk (Or.inr hs)
  rcases Nat.lt_or_ge k la.takeAssigned.1.trail.decisionLevel with hlt | hge
  · refine hk0.step hB h1.keep.base h2.kept h2.step (hlev k) ?_
    intro x kd e he
    rcases h2.new kd x e he with h3 | h3
    · exact Or.inl h3
    · exact Or.inr (h3.obsolete h1.keep.base hl' (by rw [h2.dl]; exact hlt))
  · have hkd : k = la.takeAssigned.1.trail.decisionLevel := by omega
    have hquiet : (la.propagate hv hc o).2 = [] := by
      rcases hks with h3 | h3
      · omega
      · by_contra hcon
        rw [if_pos hcon] at h3
        exact h3 rfl
    obtain ⟨X, Y, k1, k2⟩ := hg.handled
    have hnote : Noted la.takeAssigned.1.bnd
        ((la.todo.filter la.relevant).foldl onAssigned la.takeAssigned.1).bnd :=
      noted_foldl _ noted_onAssigned _ _
    have hprop : la.propagate hv hc o = (if o.propBounds then
        ((la.todo.filter la.relevant).foldl onAssigned la.takeAssigned.1).propagateBounds
        else (la.todo.filter la.relevant).foldl onAssigned la.takeAssigned.1).finish hv hc o := rfl
    obtain ⟨l2, hl2⟩ : ∃ l2, l2 = (if o.propBounds then
        ((la.todo.filter la.relevant).foldl onAssigned la.takeAssigned.1).propagateBounds
        else (la.todo.filter la.relevant).foldl onAssigned la.takeAssigned.1) := ⟨_, rfl⟩
    have key : Keep hv hc l2 X Y (fun _ => lev l2.trail) ∧ Frame la.takeAssigned.1 l2 ∧
        Noted la.takeAssigned.1.bnd l2.bnd := by
      rw [hl2]
      split
      · obtain ⟨m1, m2⟩ := k1.propagateBounds
        exact ⟨by rw [m2.lev_eq]; exact m1, k2.trans m2,
          hnote.trans (noted_foldl _ noted_deduceOne _ _)⟩
      · exact ⟨k1, k2, hnote⟩
    rw [← hl2] at hprop
    rw [hprop] at hquiet ⊢
    obtain ⟨n1, n2, n3⟩ := key
    obtain ⟨q1, q2, q3, q4⟩ := n1.finishQuiet o hquiet
    intro x
    rw [q1, q2]
    by_cases hx : x ∈ l2.bnd.updated
    · obtain ⟨q, hq⟩ := q4 x hx
      refine ⟨q, ?_⟩
      have e : k = l2.trail.decisionLevel := by rw [n2.dl]; exact hkd
      rw [e, cut_top n1.base.tinv]
      exact hq.sub fun kd e he => q3.lst kd x e he
    · obtain ⟨q, hq⟩ := hk0 x
      refine ⟨q, permits_step hB n1.base.inv n2.kept (mstep_cuts hB.tinv n1.base.tinv n2.step ?_) ?_ hq⟩
      · intro v l l0 a1 a2 a3
        have := n2.lvl v l0 a3
        rw [a1] at this
        injection this with this
        omega
      · intro kd e he
        rcases n3.2 kd x e (q3.lst kd x e he) with h3 | ⟨h3, _⟩
        · exact Or.inl h3
        · exact absurd h3 hx

/-- In a timely history the bounds permit a value for every variable. -/
theorem Reach.values {timely : Prop} (htm : timely) (h : LA.Reach hv hc o timely la s) : HasValues la s := by
  induction h with
  | init => exact fun k _ _ => HasValue.clear fun _ => rfl
  | @resize la s hr ty n hn ih =>
    obtain ⟨w, hg⟩ := hr.good
    have hg' := hg.resize ty n hn
    have hsame := resize_same hg.keep.base.tinv ty hn
    have h1 : (la.resize ty n).trail.level = la.trail.level := by cases ty <;> exact hsame.1
    have h2 : (la.resize ty n).trail.levels = la.trail.levels := by cases ty <;> exact hsame.2.1
    have hdl : (la.resize ty n).trail.decisionLevel = la.trail.decisionLevel := by
      unfold Trail.decisionLevel; rw [h2]
    intro k hk hks
    rw [hdl] at hk hks
    refine (ih k hk hks).step hg.keep.base hg'.keep.base ?_ ?_ ?_ ?_
    · cases ty with
      | boolean =>
        have hl := hg.keep.base.linv.len
        have hn' : la.trail.bools.num ≤ n := hn
        simp only [mods] at hl
        exact (LinStore.resize_spec hg.keep.base.inv (by rw [hl]; exact hn')).2
      | rational => exact Kept.refl _
    · cases ty with
      | boolean => exact ⟨PStep.resize _ _ _, PStep.refl _⟩
      | rational => exact ⟨PStep.refl _, PStep.resize _ _ _⟩
    · intro v l l0 a1 a2 a3
      rw [h1, a3] at a1
      injection a1 with a1
      omega
    · intro x kd e he
      cases ty <;> exact Or.inl he
  | @cons la s hr ts p r hnd hne hdom hun ih =>
    obtain ⟨w, hg⟩ := hr.good
    refine ih.frame hg.keep.base (hg.cons p r hnd hne hdom hun).keep.base (hg.consFrame p r hnd hne hdom hun) ?_ id
    unfold LA.constraint
    dsimp only
    split <;> rfl
  | @derive la s hr hs ts p r hnd hne has hsrt ih =>
    obtain ⟨w, hg⟩ := hr.good
    have hw := hg.normal (by rcases hs with rfl | rfl <;> rintro ⟨⟩)
    subst hw
    obtain ⟨k1, k2⟩ := Keep.derive hg.keep hnd hne
      (fun q hq => hg.keep.defined.mpr (Option.isSome_iff_exists.mp (has q hq))) hsrt p r
    refine ih.frame hg.keep.base k1.base k2 ?_ fun _ => by rcases hs with rfl | rfl <;> rintro ⟨⟩
    have e : (la.constraint hv hc ts p r).1.bnd = la.bnd := by
      unfold LA.constraint
      dsimp only
      split <;> rfl
    unfold LA.derive
    dsimp only
    split
    · exact e
    · exact e
  | @setBool la s hr hs v b r lvl hv' hu hl ht ih =>
    obtain ⟨w, hg⟩ := hr.good
    have hs' : s ≠ .conflict := by rcases hs with rfl | rfl <;> rintro ⟨⟩
    have hdl : (la.setBool v b r lvl).trail.decisionLevel = la.trail.decisionLevel := by
      simp [Trail.decisionLevel, LA.setBool, Trail.propagate]
    have hlevel : ∀ u, (la.setBool v b r lvl).trail.level u =
        if u = ⟨.boolean, v⟩ then some lvl else la.trail.level u := by
      intro u
      simp [LA.setBool, Trail.propagate, Function.update_apply]
    intro k hk _
    rw [hdl] at hk
    refine (ih k hk (Or.inr hs')).step hg.keep.base (hg.keep.base.setBool hv' hu hl) (Kept.refl _)
      ⟨PStep.setValue _ _ _, PStep.refl _⟩ ?_ fun _ _ _ he => Or.inl he
    intro u l l0 a1 a2 a3
    rw [hlevel, if_neg (by rintro rfl; rw [hu] at a3; cases a3), a3] at a1
    injection a1 with a1
    omega
  | @decideBool la hr v b hv' hu ih =>
    obtain ⟨w, hg⟩ := hr.good
    exact ih.decide (la' := la.decideBool v b) (q := .b b) (by rintro ⟨⟩) hg.keep.base
      (hg.keep.base.decideBool hv' hu) hu rfl rfl
      fun _ _ _ he => he
  | @decideRat la la' hr x fuel hx hu hd ih =>
    obtain ⟨w, hg⟩ := hr.good
    have hg' := hg.decideRat x fuel hx hu hd
    have hw := hg.normal (by rintro ⟨⟩)
    subst hw
    obtain ⟨_, _, _, e3, q, e4⟩ := Keep.decide hg.keep (by
      rintro o (⟨h1, _⟩ | ⟨_, h2⟩ | h1)
      · omega
      · rw [hg.settled rfl] at h2; cases h2
      · exact absurd h1 not_fresh) (fun k o => not_fresh) hx hu hd
    refine ih.decide (by rintro ⟨⟩) hg.keep.base hg'.keep.base hu e3 e4 ?_
    unfold LA.decide at hd
    dsimp only at hd
    split at hd
    · cases hd
    · injection hd with hd
      rw [← hd]
      intro y kd e he
      refine lst_put_sub (VBounds.sub_chooseValue (s := la.store) (m := la.models) fuel (la.cached x) (la.bnd.vb x)) kd y e ?_
      exact lst_put_sub (VBounds.sub_allowed _ _) kd y e he
  | @propagate la s hr hs ih =>
    obtain ⟨w, hg⟩ := hr.good
    exact ih.propagate hs hg (hr.late htm)
  | @backtrack la s hr k hk ih => obtain ⟨w, hg⟩ := hr.good; exact ih.backtrack hg hk _
  | @split la s hr k hk hlate v b hv' hu ih =>
    obtain ⟨w, hg⟩ := hr.good
    exact (ih.backtrack hg hk .changed).decide (la' := (la.backtrack k).decideBool v b) (q := .b b) (by rintro ⟨⟩) (hg.backtrack hk).keep.base
      (hg.split hk hlate v b hv' hu).keep.base hu rfl rfl fun _ _ _ he => he
  | restart hr ih => exact fun k _ _ => HasValue.clear fun _ => rfl
  | @query la s hr x ih =>
    obtain ⟨h1, h2, h3⟩ := effectivelyDecided_quiet la x
    intro k hk hks y
    rw [h1] at hk hks
    obtain ⟨q, hq⟩ := ih k hk hks y
    rw [h1, h2]
    exact ⟨q, hq.sub fun kd e he => h3.lst kd y e he⟩
  | take hr ih => exact ih

/-- So `decide` finds a value for every variable unless there is a conflict. -/
theorem Reach.decides {timely : Prop} (htm : timely) (h : LA.Reach hv hc o timely la s) (hs : s ≠ .conflict)
    (x : Nat) : ∃ n, ∀ fuel ≥ n, ∃ la', la.decide fuel x = some la' := by
  obtain ⟨w, hg⟩ := h.good
  obtain ⟨q, hq⟩ := h.values htm la.trail.decisionLevel le_rfl (Or.inr hs) x
  rw [cut_top hg.keep.base.tinv] at hq
  obtain ⟨n, hn⟩ := C33_decides la.store la.models (la.bnd.vb x) (la.cached x) ⟨q, hq.allows⟩
  refine ⟨n, fun fuel hf => ?_⟩
  obtain ⟨v, q', h1, _⟩ := hn fuel hf
  unfold LA.decide
  dsimp only
  rw [h1]
  exact ⟨_, rfl⟩

end LA
end Yaga
