/-
`propagate` of the arithmetic plugin without a conflict: every variable whose bounds have changed has a
value that they permit.
-/
import Verif.Proofs.LraPermits

namespace Yaga
open Spec
open LinStore (delta WfTerms Inv Kept Made)

namespace LA
open Lra
variable {R : Type} {hv : Nat → Nat} {hc : ℚ → Nat} {X Y : Nat → Nat → Prop} {la : LA R} {o : LaOpts}

/-! ### The variables with new bounds are noted -/

/-- The bounds change only for the variables in `updated`. -/
abbrev Noted (b b' : BState) : Prop := NewIn (fun _ => True) b b'

theorem noted_unit (la : LA R) (c : LinCons) : Noted la.bnd (la.unit c).bnd :=
  (newIn_update la.store la.models la.bnd c).mono fun _ _ => trivial

theorem noted_onWatched (la : LA R) (c : LinCons) : Noted la.bnd (la.onWatched c).bnd := by
  unfold onWatched
  split
  · split
    · exact NewIn.refl _ _
    · exact noted_unit (la.check _) c
  · split
    · exact NewIn.refl _ _
    · exact NewIn.refl _ _

theorem replaceOne_bnd (la : LA R) (c : LinCons) (i x : Nat) : (la.replaceOne c i x).1.bnd = la.bnd := by
  unfold replaceOne
  split
  · rfl
  · split
    · rfl
    · dsimp only
      split
      · split <;> rfl
      · rfl

theorem noted_replaceLoop (x : Nat) : ∀ (k i : Nat) (la : LA R), Noted la.bnd (replaceLoop x k i la).bnd := by
  intro k
  induction k with
  | zero => intro i la; exact NewIn.refl _ _
  | succ k ih =>
    intro i la
    unfold replaceLoop
    split
    · exact NewIn.refl _ _
    · rename_i c idx _
      dsimp only
      rw [← replaceOne_bnd la c idx x]
      split
      · generalize swapPop _ i = w
        exact ih i { (la.replaceOne c idx x).1 with
          watched := Function.update (la.replaceOne c idx x).1.watched x w }
      · generalize ((la.replaceOne c idx x).1.watched x).set i _ = w
        exact (noted_onWatched { (la.replaceOne c idx x).1 with
          watched := Function.update (la.replaceOne c idx x).1.watched x w } c).trans (ih _ _)

theorem noted_onAssigned (la : LA R) (v : Var) : Noted la.bnd (la.onAssigned v).bnd := by
  unfold onAssigned
  split
  · unfold onBool
    dsimp only
    split
    · exact NewIn.refl _ _
    · split
      · exact noted_unit (la.check _) _
      · exact NewIn.refl _ _
  · exact noted_replaceLoop _ _ _ (la.check _)

theorem noted_deduceOne (la : LA R) (a : Asg R) : Noted la.bnd (la.deduceOne a).bnd := by
  unfold deduceOne
  split
  · exact NewIn.refl _ _
  · dsimp only
    split
    · exact NewIn.refl _ _
    · exact (newIn_deduce _ _ _ _).mono fun _ _ => trivial

theorem noted_foldl {α : Type} (f : LA R → α → LA R) (hf : ∀ la a, Noted la.bnd (f la a).bnd) :
    ∀ (l : List α) (la : LA R), Noted la.bnd (l.foldl f la).bnd := by
  intro l
  induction l with
  | nil => intro la; exact NewIn.refl _ _
  | cons a l ih => intro la; exact (hf la a).trans (ih _)

/-! ### The loop of `finish` without a conflict -/

theorem boundConflict_quiet (x : Nat) (hn : (la.boundConflict hv hc x).2 = none) :
    (la.boundConflict hv hc x).1.trail = la.trail ∧ (la.boundConflict hv hc x).1.store = la.store ∧
      Shrunk la.store la.models la.bnd (la.boundConflict hv hc x).1.bnd := by
  have hk := (shrunk_query la.store la.models la.bnd false x).trans
      (shrunk_query la.store la.models _ true x)
  unfold LA.boundConflict at hn ⊢
  dsimp only at hn ⊢
  cases h1 : (la.bnd.lower la.store la.models x).2 with
  | none => exact ⟨rfl, rfl, hk⟩
  | some lb =>
    cases h2 : ((la.bnd.lower la.store la.models x).1.upper la.store la.models x).2 with
    | none => exact ⟨rfl, rfl, hk⟩
    | some ub =>
      rw [h1, h2] at hn
      dsimp only at hn ⊢
      by_cases hcond : lb.value < ub.value ∨
          (lb.value = ub.value ∧ (lb.isStrict || ub.isStrict) = false)
      · rw [if_pos hcond]
        exact ⟨rfl, rfl, hk⟩
      · rw [if_neg hcond] at hn
        cases hn

theorem ineqConflict_quiet (x : Nat) (hn : (la.ineqConflict hv hc x).2 = none) :
    (la.ineqConflict hv hc x).1.trail = la.trail ∧ (la.ineqConflict hv hc x).1.store = la.store ∧
      Shrunk la.store la.models la.bnd (la.ineqConflict hv hc x).1.bnd := by
  have hk := (shrunk_query la.store la.models la.bnd false x).trans
      (shrunk_query la.store la.models _ true x)
  unfold LA.ineqConflict at hn ⊢
  dsimp only at hn ⊢
  cases h1 : (la.bnd.lower la.store la.models x).2 with
  | none => exact ⟨rfl, rfl, hk⟩
  | some lb =>
    cases h2 : ((la.bnd.lower la.store la.models x).1.upper la.store la.models x).2 with
    | none => exact ⟨rfl, rfl, hk⟩
    | some ub =>
      rw [h1, h2] at hn
      dsimp only at hn ⊢
      by_cases hcond : lb.value ≠ ub.value ∨ lb.reason.isStrict = true ∨ ub.reason.isStrict = true
      · rw [if_pos hcond]
        exact ⟨rfl, rfl, hk⟩
      · rw [if_neg hcond] at hn
        rw [if_neg hcond]
        cases h3 : ((((la.bnd.lower la.store la.models x).1.upper la.store la.models x).1.vb x).inequality
            la.store la.models lb.value).2 with
        | none =>
          exact ⟨rfl, rfl, hk.trans (shrunk_inequality la.store la.models
            ((la.bnd.lower la.store la.models x).1.upper la.store la.models x).1 x lb.value)⟩
        | some n =>
          rw [h3] at hn
          cases hn

/-- `check_bounds` without a conflict changes nothing that matters, and some value is permitted. -/
theorem Keep.checkQuiet (h : Keep hv hc la X Y (fun _ => lev la.trail)) (x : Nat)
    (hn : (la.checkBounds hv hc x).2 = none) :
    (la.checkBounds hv hc x).1.trail = la.trail ∧ (la.checkBounds hv hc x).1.store = la.store ∧
      Shrunk la.store la.models la.bnd (la.checkBounds hv hc x).1.bnd ∧
      ∃ q, Permits la.store la.models la.bnd x q := by
  obtain ⟨k1, k2, k3⟩ := h.boundConflict x
  obtain ⟨l1, l2, l3⟩ := k1.ineqConflict x
  rw [k2.sortLevel] at l3
  have hcore : (la.checkBounds hv hc x).2 = (Lra.checkBounds hv hc la.sortLevel la.core x).2 := by
    unfold LA.checkBounds Lra.checkBounds
    dsimp only
    rw [← k3]
    dsimp only
    rw [← l3]
    split <;> rfl
  have hq : ∃ q, Permits la.store la.models la.bnd x q := by
    rw [hn] at hcore
    obtain ⟨q, hq⟩ := C33_no_conflict_allows hv hc la.sortLevel la.core x hcore.symm
    have hL : LInv la.core := h.base.linv
    exact ⟨q, permits_of_allowed hL ((VBounds.isAllowed_iff _ _).mpr hq)⟩
  unfold LA.checkBounds at hn ⊢
  dsimp only at hn ⊢
  by_cases hs : (la.boundConflict hv hc x).2.isSome = true
  · rw [if_pos hs] at hn
    rw [hn] at hs
    cases hs
  · rw [if_neg hs] at hn ⊢
    have hn0 : (la.boundConflict hv hc x).2 = none := by simpa using hs
    obtain ⟨a1, a2, a3⟩ := boundConflict_quiet x hn0
    obtain ⟨b1, b2, b3⟩ := ineqConflict_quiet x hn
    have e : (la.boundConflict hv hc x).1.models = la.models := by unfold LA.models; rw [a1]
    rw [a2, e] at b3
    exact ⟨by rw [b1, a1], by rw [b2, a2], a3.trans b3, hq⟩

theorem effectivelyDecided_quiet (la : LA R) (x : Nat) :
    (la.effectivelyDecided x).1.trail = la.trail ∧ (la.effectivelyDecided x).1.store = la.store ∧
      Shrunk la.store la.models la.bnd (la.effectivelyDecided x).1.bnd := by
  have q1 := shrunk_query la.store la.models la.bnd false x
  have q2 := q1.trans (shrunk_query la.store la.models _ true x)
  unfold LA.effectivelyDecided
  split
  · exact ⟨rfl, rfl, Shrunk.refl _ _ _⟩
  · dsimp only
    split
    · exact ⟨rfl, rfl, q1⟩
    · split
      · exact ⟨rfl, rfl, q2⟩
      · exact ⟨rfl, rfl, q2⟩

/-- If `finish` returns no conflict, then every variable it has looked at has a permitted value. -/
theorem Keep.loopQuiet (o : LaOpts) : ∀ (xs : List Nat) {la : LA R},
    Keep hv hc la X Y (fun _ => lev la.trail) → (la.finishLoop hv hc o xs).2 = [] →
    (la.finishLoop hv hc o xs).1.trail = la.trail ∧ (la.finishLoop hv hc o xs).1.store = la.store ∧
      Shrunk la.store la.models la.bnd (la.finishLoop hv hc o xs).1.bnd ∧
      ∀ x ∈ xs, ∃ q, Permits la.store la.models la.bnd x q := by
  intro xs
  induction xs with
  | nil => intro la h _; exact ⟨rfl, rfl, Shrunk.refl _ _ _, by simp⟩
  | cons x xs ih =>
    intro la h hn
    obtain ⟨k1, k2, _⟩ := h.checkBounds x
    have kq := h.checkQuiet x
    unfold LA.finishLoop at hn ⊢
    dsimp only at hn ⊢
    generalize hq : la.checkBounds hv hc x = q at *
    cases hcl : q.2 with
    | some cl =>
      rw [hcl] at hn
      dsimp only at hn
      split at hn <;> cases hn
    | none =>
      obtain ⟨a1, a2, a3, a4⟩ := kq hcl
      rw [hcl] at hn
      dsimp only at hn ⊢
      have em : q.1.models = la.models := by unfold LA.models; rw [a1]
      have fin : ∀ l : LA R, Keep hv hc l X Y (fun _ => lev l.trail) → l.trail = la.trail → l.store = la.store →
          Shrunk la.store la.models la.bnd l.bnd → (l.finishLoop hv hc o xs).2 = [] →
          (l.finishLoop hv hc o xs).1.trail = la.trail ∧ (l.finishLoop hv hc o xs).1.store = la.store ∧
          Shrunk la.store la.models la.bnd (l.finishLoop hv hc o xs).1.bnd ∧
          ∀ y ∈ x :: xs, ∃ q, Permits la.store la.models la.bnd y q := by
        intro l hl e1 e2 e3 e4
        have em : l.models = la.models := by unfold LA.models; rw [e1]
        obtain ⟨b1, b2, b3, b4⟩ := ih hl e4
        rw [e2, em] at b3 b4
        refine ⟨by rw [b1, e1], by rw [b2, e2], e3.trans b3, fun y hy => ?_⟩
        rcases List.mem_cons.mp hy with rfl | hy
        · exact a4
        · obtain ⟨p, hp⟩ := b4 y hy
          refine ⟨p, fun up e he hlive => hp.1 up e (e3.live up y e he hlive) hlive,
            fun e he hlive => hp.2 e (e3.liveD y e he hlive) hlive⟩
      by_cases hp : o.propRational = true
      · rw [if_pos hp] at hn ⊢
        obtain ⟨d1, d2⟩ := k1.effectivelyDecided x
        obtain ⟨c1, c2, c3⟩ := effectivelyDecided_quiet q.1 x
        generalize q.1.effectivelyDecided x = d at *
        rw [← d2.lev_eq] at d1
        rw [a2, em] at c3
        refine fin _ ?_ ?_ ?_ ?_ hn
        · split
          · exact (d1.decidedList _).1
          · exact d1
        · split <;> rw [← a1, ← c1]
        · split <;> rw [← a2, ← c2]
        · split <;> exact a3.trans c3
      · rw [if_neg hp] at hn ⊢
        exact fin _ k1 a1 a2 a3 hn

/-- `finish` without a conflict. -/
theorem Keep.finishQuiet (o : LaOpts) (h : Keep hv hc la X Y (fun _ => lev la.trail))
    (hn : (la.finish hv hc o).2 = []) :
    (la.finish hv hc o).1.trail = la.trail ∧ (la.finish hv hc o).1.store = la.store ∧
      Shrunk la.store la.models la.bnd (la.finish hv hc o).1.bnd ∧
      ∀ x ∈ la.bnd.updated, ∃ q, Permits la.store la.models la.bnd x q := by
  have hs : Steps hv hc la.core { la.core with bnd := la.bnd.changed.1 } :=
    Steps.step .changed (Steps.refl _) trivial
  have k := h.bnd hs (keepsAll_congr rfl)
  obtain ⟨a1, a2, a3, a4⟩ := Keep.loopQuiet o la.bnd.changed.2 k hn
  refine ⟨a1, a2, ⟨a3.sub, a3.live, a3.dis, a3.liveD⟩, fun x hx => ?_⟩
  obtain ⟨q, hq⟩ := a4 x ((mem_uniq _ _).mpr ((mem_sortBy _ _ _).mpr hx))
  exact ⟨q, hq.1, hq.2⟩

end LA
end Yaga
