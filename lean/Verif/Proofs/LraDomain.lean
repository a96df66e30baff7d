/-
The variables in constraints of reachable states are declared, and so are the effectively decided
variables that the plugin for linear arithmetic reports.
-/
import Verif.Proofs.LraValue

set_option linter.unusedSimpArgs false
set_option linter.unusedVariables false

namespace Yaga
open Lra LinStore Spec

namespace LA
variable {R : Type} {hv : Nat → Nat} {hc : ℚ → Nat} {o : LaOpts} {la la' : LA R} {s : Stage} {w : Option Nat}

/-- All variables of constraints are declared. -/
def Dom (la : LA R) : Prop := ∀ e ∈ la.store.set, ∀ p ∈ la.store.terms e, p.1 < la.trail.rats.num

theorem Dom.frame (h : Dom la) (hf : Frame la la') : Dom la' := by
  intro e he p hp
  rcases hf.dom e he with h' | h'
  · rw [hf.rats]
    exact h e h' p ((hf.kept.terms e h').mem_iff.mp hp)
  · exact h' p hp

theorem Dom.same (h : Dom la) (hs : la'.store = la.store) (hn : la.trail.rats.num ≤ la'.trail.rats.num) :
    Dom la' := by
  intro e he p hp
  rw [hs] at he hp
  exact (h e he p hp).trans_le hn

theorem Good.rats_backtrack (hg : Good hv hc la s w) {k : Nat} (hk : k < la.trail.decisionLevel) :
    (la.trail.backtrack k).rats.num = la.trail.rats.num :=
  congrFun (Trail.backtrack_spec hg.keep.base.tinv k hk.le).2.2.2.2 .rational

theorem Reach.dom {timely : Prop} (h : LA.Reach hv hc o timely la s) : Dom la := by
  induction h with
  | init => intro e he; simp [LA.init, LinStore.init] at he
  | @resize la s hr ty n hn ih =>
    obtain ⟨w, hg⟩ := hr.good
    cases ty with
    | boolean =>
      have hl := hg.keep.base.linv.len
      have hn' : la.trail.bools.num ≤ n := hn
      simp only [mods] at hl
      intro e he p hp
      have hk := (LinStore.resize_spec hg.keep.base.inv (n := n) (by rw [hl]; exact hn')).2
      have he' : e ∈ la.store.set := he
      have := ih e he' p ((hk.terms e he').mem_iff.mp hp)
      exact this
    | rational => exact ih.same rfl hn
  | cons hr ts p r hnd hne hdom hun ih =>
    obtain ⟨w, hg⟩ := hr.good
    exact ih.frame (hg.consFrame p r hnd hne hdom hun)
  | derive hr hs ts p r hnd hne has hsrt ih =>
    obtain ⟨w, hg⟩ := hr.good
    have hw := hg.normal (by rcases hs with rfl | rfl <;> rintro ⟨⟩)
    subst hw
    obtain ⟨k1, k2⟩ := Keep.derive hg.keep hnd hne
      (fun q hq => hg.keep.defined.mpr (Option.isSome_iff_exists.mp (has q hq))) hsrt p r
    exact ih.frame k2
  | setBool hr hs v b r lvl hv' hu hl ht ih => exact ih.same rfl (le_refl _)
  | decideBool hr v b hv' hu ih => exact ih.same rfl (le_refl _)
  | decideRat hr x fuel hx hu hd ih =>
    unfold LA.decide at hd
    dsimp only at hd
    split at hd
    · cases hd
    · injection hd with hd
      rw [← hd]
      exact ih.same rfl (le_refl _)
  | propagate hr hs ih =>
    obtain ⟨w, hg⟩ := hr.good
    obtain ⟨h1, h2, _⟩ := hg.propagate (o := o)
    exact Dom.frame (la := LA.takeAssigned _ |>.1) ih h2
  | backtrack hr k hk ih => obtain ⟨w, hg⟩ := hr.good; exact ih.same rfl (le_of_eq (hg.rats_backtrack hk).symm)
  | split hr k hk hlate v b hv' hu ih => obtain ⟨w, hg⟩ := hr.good; exact ih.same rfl (le_of_eq (hg.rats_backtrack hk).symm)
  | restart hr ih => exact ih.same rfl (le_refl _)
  | query hr x ih =>
    obtain ⟨w, hg⟩ := hr.good
    exact ih.frame (hg.keep.effectivelyDecided x).2
  | take hr ih => exact ih

/-! ### The list of effectively decided variables -/

theorem decided_constraint (la : LA R) (ts p r) : (la.constraint hv hc ts p r).1.decided = la.decided := by
  unfold LA.constraint; dsimp only; split <;> rfl

theorem decided_finishFm (la : LA R) (f : Fm) : (la.finishFm hv hc f).1.decided = la.decided := by
  unfold finishFm
  split
  · rfl
  · dsimp only
    split
    · exact decided_constraint ..
    · exact decided_constraint (hv := hv) (hc := hc) ..

theorem decided_boundConflict (la : LA R) (x : Nat) : (la.boundConflict hv hc x).1.decided = la.decided := by
  unfold boundConflict
  dsimp only
  split
  · split
    · rfl
    · exact decided_finishFm ..
  · rfl

theorem decided_ineqConflict (la : LA R) (x : Nat) : (la.ineqConflict hv hc x).1.decided = la.decided := by
  unfold ineqConflict
  dsimp only
  split
  · split
    · rfl
    · split
      · rfl
      · exact (decided_finishFm ..).trans (decided_finishFm ..)
  · rfl

theorem decided_checkBounds (la : LA R) (x : Nat) : (la.checkBounds hv hc x).1.decided = la.decided := by
  unfold checkBounds
  dsimp only
  split
  · exact decided_boundConflict ..
  · exact (decided_ineqConflict ..).trans (decided_boundConflict ..)

theorem decided_onWatched (la : LA R) (c : LinCons) : (la.onWatched c).decided = la.decided := by
  unfold onWatched
  split
  · split <;> rfl
  · split <;> rfl

theorem decided_replaceOne (la : LA R) (c : LinCons) (i x : Nat) :
    (la.replaceOne c i x).1.decided = la.decided := by
  unfold replaceOne
  split
  · rfl
  · split
    · rfl
    · dsimp only
      split
      · split <;> rfl
      · rfl

theorem decided_replaceLoop (x : Nat) : ∀ (k i : Nat) (la : LA R),
    (replaceLoop x k i la).decided = la.decided := by
  intro k
  induction k with
  | zero => intro i la; rfl
  | succ k ih =>
    intro i la
    unfold replaceLoop
    split
    · rfl
    · rename_i c idx _
      dsimp only
      rw [← decided_replaceOne la c idx x]
      split
      · exact ih i { (la.replaceOne c idx x).1 with
          watched := Function.update (la.replaceOne c idx x).1.watched x _ }
      · exact (ih _ _).trans (decided_onWatched { (la.replaceOne c idx x).1 with
          watched := Function.update (la.replaceOne c idx x).1.watched x _ } c)

theorem decided_onAssigned (la : LA R) (v : Var) : (la.onAssigned v).decided = la.decided := by
  unfold onAssigned
  split
  · unfold onBool
    dsimp only
    split
    · rfl
    · split <;> rfl
  · exact decided_replaceLoop _ _ _ (la.check _)

theorem decided_deduceOne (la : LA R) (a : Asg R) : (la.deduceOne a).decided = la.decided := by
  unfold deduceOne
  split
  · rfl
  · dsimp only
    split <;> rfl

theorem decided_foldl {α : Type} (f : LA R → α → LA R) (hf : ∀ la a, (f la a).decided = la.decided) :
    ∀ (l : List α) (la : LA R), (l.foldl f la).decided = la.decided := by
  intro l
  induction l with
  | nil => intro la; rfl
  | cons a l ih => intro la; exact (ih _).trans (hf la a)

/-- A variable with a lower bound is declared. -/
theorem Dom.effective (hD : Dom la) (hL : LInv la.core) {x : Nat} (hx : (la.effectivelyDecided x).2 = true) :
    x < la.trail.rats.num := by
  unfold LA.effectivelyDecided at hx
  split at hx
  · cases hx
  · dsimp only at hx
    split at hx
    · cases hx
    · rename_i lb hlb
      have hmem : lb ∈ stk la.core.bnd false x :=
        (popObs_sublist _ _ _).mem (List.mem_of_mem_head? (Option.mem_def.mpr hlb))
      have hv := hL.var false x lb hmem
      have hg := hL.good false x lb hmem
      cases hg with
      | mk _ y v c ds ct vt t μ dd hc _ _ _ hx0 =>
        have hyx : y = x := hv
        subst hyx
        obtain ⟨e, he, hce⟩ := hc
        have hter : la.store.terms c = la.store.terms e := by rcases hce with r | r <;> rw [r]; rfl
        by_contra hcon
        have h0 : co y (la.store.terms c) = 0 := by
          refine co_zero_of_notMem fun hm => ?_
          obtain ⟨p, hp, hpy⟩ := List.mem_map.mp hm
          rw [hter] at hp
          exact hcon (hpy ▸ hD e he p hp)
        have h1 : 0 < dq false * (t * (isg c * co y (la.store.terms c))) := hx0
        rw [h0] at h1
        simp at h1

theorem decided_effective (la : LA R) (x : Nat) : (la.effectivelyDecided x).1.decided = la.decided := by
  obtain ⟨b, e⟩ := effectivelyDecided_eq la x
  rw [e]

/-- The list contains only declared variables. -/
def DecidedDom (la : LA R) : Prop := ∀ x ∈ la.decided, x < la.trail.rats.num

theorem Keep.finishLoop_decided {X Y : Nat → Nat → Prop} (o : LaOpts) : ∀ (xs : List Nat) {la : LA R},
    Keep hv hc la X Y (fun _ => lev la.trail) → Dom la → DecidedDom la →
    DecidedDom (la.finishLoop hv hc o xs).1 := by
  intro xs
  induction xs with
  | nil => intro la h _ h2; exact h2
  | cons x xs ih =>
    intro la h hD h2
    unfold LA.finishLoop
    obtain ⟨k1, k2, k3⟩ := h.checkBounds x
    have hd := decided_checkBounds (hv := hv) (hc := hc) la x
    generalize hq : la.checkBounds hv hc x = q at *
    have hD1 := hD.frame k2
    have h21 : DecidedDom q.1 := by
      intro y hy
      rw [hd] at hy
      rw [k2.rats]; exact h2 y hy
    dsimp only
    cases hcl : q.2 with
    | some cl =>
      dsimp only
      split
      · exact ih k1 hD1 h21
      · exact h21
    | none =>
      dsimp only
      split
      · have hd2 := decided_effective q.1 x
        have he := hD1.effective (la := q.1) k1.base.linv (x := x)
        obtain ⟨d1, d2⟩ := k1.effectivelyDecided x
        generalize q.1.effectivelyDecided x = d at *
        rw [← d2.lev_eq] at d1
        have h22 : DecidedDom d.1 := by
          intro y hy
          rw [hd2] at hy
          rw [d2.rats]; exact h21 y hy
        split
        · rename_i ht
          have hDd := hD1.frame d2
          refine ih (d1.decidedList _).1 (fun e he p hp => hDd e he p hp) ?_
          intro y hy
          rcases List.mem_append.mp hy with hy | hy
          · exact h22 y hy
          · rw [List.mem_singleton.mp hy]
            show x < d.1.trail.rats.num
            rw [d2.rats]; exact he ht
        · exact ih d1 (hD1.frame d2) h22
      · exact ih k1 hD1 h21

theorem Good.propagate_decided (hg : Good hv hc la s w) (hs : s ≠ .conflict) (hD : Dom la)
    (h : DecidedDom la) : DecidedDom (la.propagate hv hc o).1 := by
  obtain ⟨X, Y, k1, k2⟩ := hg.handled
  have h1 : ((la.todo.filter la.relevant).foldl onAssigned la.takeAssigned.1).decided = la.decided :=
    decided_foldl _ decided_onAssigned _ _
  have hprop : la.propagate hv hc o = (if o.propBounds then
      ((la.todo.filter la.relevant).foldl onAssigned la.takeAssigned.1).propagateBounds
      else (la.todo.filter la.relevant).foldl onAssigned la.takeAssigned.1).finish hv hc o := rfl
  rw [hprop]
  have fin : ∀ {l : LA R} {X Y : Nat → Nat → Prop}, Keep hv hc l X Y (fun _ => lev l.trail) → Frame la.takeAssigned.1 l →
      l.decided = la.decided → DecidedDom (l.finish hv hc o).1 := by
    intro l X Y k f e
    have hs : Steps hv hc l.core { l.core with bnd := l.bnd.changed.1 } :=
      Steps.step .changed (Steps.refl _) trivial
    have k' := k.bnd hs (keepsAll_congr rfl)
    have hDl : Dom l := Dom.frame (la := la.takeAssigned.1) hD f
    refine Keep.finishLoop_decided o l.bnd.changed.2 k' (fun e he p hp => hDl e he p hp) ?_
    intro y hy
    have hy' : y ∈ l.decided := hy
    rw [e] at hy'
    show y < l.trail.rats.num
    rw [f.rats]; exact h y hy'
  split
  · obtain ⟨m1, m2⟩ := k1.propagateBounds
    rw [← m2.lev_eq] at m1
    refine fin m1 (k2.trans m2) ?_
    exact (decided_foldl _ decided_deduceOne _ _).trans h1
  · exact fin k1 k2 h1

/-- Effectively decided variables are declared. -/
theorem Reach.decidedDom {timely : Prop} (h : LA.Reach hv hc o timely la s) : DecidedDom la := by
  induction h with
  | init => intro x hx; cases hx
  | @resize la s hr ty n hn ih =>
    cases ty with
    | boolean => exact ih
    | rational => exact fun x hx => (ih x hx).trans_le hn
  | @cons la s hr ts p r hnd hne hdom hun ih =>
    obtain ⟨w, hg⟩ := hr.good
    intro x hx
    rw [decided_constraint] at hx
    rw [(hg.consFrame p r hnd hne hdom hun).rats]; exact ih x hx
  | @derive la s hr hs ts p r hnd hne has hsrt ih =>
    obtain ⟨w, hg⟩ := hr.good
    have hw := hg.normal (by rcases hs with rfl | rfl <;> rintro ⟨⟩)
    subst hw
    obtain ⟨k1, k2⟩ := Keep.derive hg.keep hnd hne
      (fun q hq => hg.keep.defined.mpr (Option.isSome_iff_exists.mp (has q hq))) hsrt p r
    intro x hx
    rw [k2.rats]
    refine ih x ?_
    have e := decided_constraint (hv := hv) (hc := hc) la ts p r
    unfold LA.derive at hx
    dsimp only at hx
    split at hx
    · rw [e] at hx; exact hx
    · have hx' : x ∈ (la.constraint hv hc ts p r).1.decided := hx
      rw [e] at hx'; exact hx'
  | setBool hr hs v b r lvl hv' hu hl ht ih => exact ih
  | decideBool hr v b hv' hu ih => exact ih
  | @decideRat la la' hr x fuel hx hu hd ih =>
    unfold LA.decide at hd
    dsimp only at hd
    split at hd
    · cases hd
    · injection hd with hd
      rw [← hd]
      exact ih
  | propagate hr hs ih =>
    obtain ⟨w, hg⟩ := hr.good
    exact hg.propagate_decided hs hr.dom ih
  | @backtrack la s hr k hk ih =>
    intro x hx
    show x < (la.trail.backtrack k).rats.num
    obtain ⟨w, hg⟩ := hr.good
    rw [hg.rats_backtrack hk]; exact ih x hx
  | @split la s hr k hk hlate v b hv' hu ih =>
    intro x hx
    show x < (la.trail.backtrack k).rats.num
    obtain ⟨w, hg⟩ := hr.good
    rw [hg.rats_backtrack hk]; exact ih x hx
  | restart hr ih => exact ih
  | @query la s hr y ih =>
    intro x hx
    rw [decided_effective] at hx
    obtain ⟨b, e⟩ := effectivelyDecided_eq la y
    rw [e]; exact ih x hx
  | take hr ih => intro x hx; cases hx

/-- Without rational propagation the list is empty. -/
theorem finishLoop_decided_nil (ho : o.propRational = false) : ∀ (xs : List Nat) (la : LA R),
    (la.finishLoop hv hc o xs).1.decided = la.decided := by
  intro xs
  induction xs with
  | nil => intro la; rfl
  | cons x xs ih =>
    intro la
    unfold LA.finishLoop
    dsimp only
    rw [if_neg (by rw [ho]; simp)]
    split
    · split
      · exact (ih _).trans (decided_checkBounds ..)
      · exact decided_checkBounds ..
    · exact (ih _).trans (decided_checkBounds ..)

theorem Reach.decided_nil {timely : Prop} (ho : o.propRational = false) (h : LA.Reach hv hc o timely la s) :
    la.decided = [] := by
  induction h with
  | init => rfl
  | @resize la s hr ty n hn ih => cases ty <;> exact ih
  | @cons la s hr ts p r hnd hne hdom hun ih => rw [decided_constraint]; exact ih
  | @derive la s hr hs ts p r hnd hne has hsrt ih =>
    unfold LA.derive
    dsimp only
    split
    · rw [decided_constraint]; exact ih
    · exact (decided_constraint ..).trans ih
  | setBool hr hs v b r lvl hv' hu hl ht ih => exact ih
  | decideBool hr v b hv' hu ih => exact ih
  | @decideRat la la' hr x fuel hx hu hd ih =>
    unfold LA.decide at hd
    dsimp only at hd
    split at hd
    · cases hd
    · injection hd with hd
      rw [← hd]
      exact ih
  | @propagate la s hr hs ih =>
    unfold LA.propagate LA.finish
    dsimp only
    rw [finishLoop_decided_nil ho]
    have h1 : ((la.takeAssigned.2.filter la.relevant).foldl onAssigned la.takeAssigned.1).decided = la.decided :=
      decided_foldl _ decided_onAssigned _ _
    show (if o.propBounds = true then _ else _ : LA R).decided = []
    split
    · exact (decided_foldl _ decided_deduceOne _ _).trans (h1.trans ih)
    · exact h1.trans ih
  | backtrack hr k hk ih => exact ih
  | split hr k hk hlate v b hv' hu ih => exact ih
  | restart hr ih => exact ih
  | query hr y ih => rw [decided_effective]; exact ih
  | take hr ih => rfl

end LA
end Yaga
