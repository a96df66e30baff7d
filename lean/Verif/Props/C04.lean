/-
C04: backtracking is exact.
-/
import Verif.Props.C03

namespace Yaga
variable {R : Type}

/-- C04. Backtracking from any reachable state to an existing level `L` unassigns exactly the
variables whose level is above `L`, changes neither level nor reason nor value of any other
variable, keeps the assignment lists of the levels up to `L`, and makes `L` current. -/
theorem C04_backtrack_exact (ops : List (TOp R)) (t : Trail R) (hr : Trail.Run Trail.init ops t)
    (L : Nat) (hL : L ≤ t.decisionLevel) :
    (t.backtrack L).decisionLevel = L ∧
    (∀ i, (t.backtrack L).assigned i = if i ≤ L then t.assigned i else []) ∧
    (∀ v l, t.level v = some l → L < l → (t.backtrack L).level v = none ∧
      (t.backtrack L).reason v = none ∧ (t.backtrack L).isDefined v = false) ∧
    (∀ v l, t.level v = some l → l ≤ L → (t.backtrack L).level v = some l ∧
      (t.backtrack L).reason v = t.reason v ∧ (t.backtrack L).isDefined v = true ∧
      (t.backtrack L).valueOf v = t.valueOf v) ∧
    (∀ v, t.level v = none → (t.backtrack L).level v = none ∧
      (t.backtrack L).isDefined v = false) := by
  have h := Trail.run_inv hr Trail.init_inv
  obtain ⟨h1, h2, h3, h4, -⟩ := Trail.backtrack_spec h L hL
  refine ⟨Trail.decisionLevel_backtrack h L hL, ?_, h2, ?_, ?_⟩
  · intro i
    simp only [Trail.assigned, h1, List.getD_eq_getElem?_getD, List.getElem?_take]
    by_cases hi : i ≤ L
    · rw [if_pos (by omega), if_pos hi]
    · rw [if_neg (by omega), if_neg hi]; rfl
  · intro v l hl hle
    obtain ⟨a, b, c⟩ := h3 v (by intro l' hl'; rw [hl] at hl'; cases hl'; exact hle)
    exact ⟨a.trans hl, b, by rw [c]; exact (h.defined v).2 ⟨l, hl⟩, by rw [h4]⟩
  · intro v hv
    obtain ⟨a, b, c⟩ := h3 v (by simp [hv])
    refine ⟨a.trans hv, ?_⟩
    rw [c]
    cases hd : t.isDefined v
    · rfl
    · obtain ⟨l, hl⟩ := (h.defined v).1 hd; rw [hv] at hl; cases hl

/-- A call that only works above level `L`: decisions, propagations at a level above `L`,
backtracking to a level not below `L`. -/
def TOp.above (L : Nat) : TOp R → Prop
  | .decide _ _ => True
  | .propagate _ _ lvl _ => L < lvl
  | .backtrack lvl => L ≤ lvl
  | .resize _ _ => False
  | .clear => False

/-- What an observer sees of a trail: levels, lists, reasons, which variables are defined and the
values of the defined ones. -/
structure SameTrail (t t' : Trail R) : Prop where
  lists : t'.levels = t.levels
  level : t'.level = t.level
  reason : t'.reason = t.reason
  defined : t'.isDefined = t.isDefined
  value : ∀ v, t.isDefined v = true → t'.valueOf v = t.valueOf v
  nums : t'.numVars = t.numVars

/-- `t'` was reached from `t` (at level `L`) by work above `L` only. -/
structure Above (L : Nat) (t t' : Trail R) : Prop where
  inv : t'.Inv
  dl : L ≤ t'.decisionLevel
  lists : t'.levels.take (L + 1) = t.levels
  old : ∀ v l, t.level v = some l → t'.level v = some l ∧ t'.reason v = t.reason v ∧
    t'.valueOf v = t.valueOf v
  new : ∀ v l, t.level v = none → t'.level v = some l → L < l
  nums : t'.numVars = t.numVars

theorem Above.step {L : Nat} {t t' : Trail R} (h : Above L t t')
    (hb : ∀ v l, t.level v = some l → l ≤ L) (op : TOp R)
    (ha : op.above L) (hp : t'.Pre op) : Above L t (t'.step op) := by
  have hinv := Trail.step_inv h.inv op hp
  have hlen := h.inv.length_pos
  have hdl : t'.decisionLevel = t'.levels.length - 1 := rfl
  have hle := h.dl
  cases op with
  | resize ty n => exact ha.elim
  | clear => exact ha.elim
  | decide v x =>
    obtain ⟨hr, hu, hx⟩ := hp
    have hne : ∀ w l, t.level w = some l → w ≠ v := by
      rintro w l hl rfl
      rw [(h.old w l hl).1] at hu; cases hu
    refine ⟨hinv, ?_, ?_, ?_, ?_, ?_⟩
    · simp [Trail.step, Trail.decide, Trail.decisionLevel]; omega
    · simp only [Trail.step, Trail.levels_setValue, Trail.decide]
      rw [List.take_append_of_le_length (by omega)]; exact h.lists
    · intro w l hl
      have hw := hne w l hl
      obtain ⟨h1, h2, h3⟩ := h.old w l hl
      refine ⟨?_, ?_, ?_⟩
      · simp [Trail.step, Trail.decide, Function.update_of_ne hw, h1]
      · simp [Trail.step, Trail.decide, Function.update_of_ne hw, h2]
      · simp only [Trail.step]
        rw [Trail.valueOf_setValue _ _ _ _ hx, if_neg hw, ← h3]
        rcases w with ⟨tw, ow⟩; cases tw <;> rfl
    · intro w l hl hw
      simp only [Trail.step, Trail.level_setValue, Trail.decide] at hw
      by_cases e : w = v
      · subst e; simp at hw; omega
      · rw [Function.update_of_ne e] at hw; exact h.new w l hl hw
    · simp only [Trail.step, Trail.numVars_setValue, ← h.nums]
      funext ty; cases ty <;> rfl
  | propagate v r lvl x =>
    obtain ⟨hr, hu, hx, hl⟩ := hp
    have hlt : L < lvl := ha
    have hne : ∀ w l, t.level w = some l → w ≠ v := by
      rintro w l hl rfl
      rw [(h.old w l hl).1] at hu; cases hu
    refine ⟨hinv, ?_, ?_, ?_, ?_, ?_⟩
    · simp [Trail.step, Trail.propagate, Trail.decisionLevel]; omega
    · simp only [Trail.step, Trail.levels_setValue, Trail.propagate]
      rw [Trail.take_pushFrom _ _ _ _ (by omega)]; exact h.lists
    · intro w l hl
      have hw := hne w l hl
      obtain ⟨h1, h2, h3⟩ := h.old w l hl
      refine ⟨?_, ?_, ?_⟩
      · simp [Trail.step, Trail.propagate, Function.update_of_ne hw, h1]
      · simp [Trail.step, Trail.propagate, Function.update_of_ne hw, h2]
      · simp only [Trail.step]
        rw [Trail.valueOf_setValue _ _ _ _ hx, if_neg hw, ← h3]
        rcases w with ⟨tw, ow⟩; cases tw <;> rfl
    · intro w l hl hw
      simp only [Trail.step, Trail.level_setValue, Trail.propagate] at hw
      by_cases e : w = v
      · subst e; simp at hw; omega
      · rw [Function.update_of_ne e] at hw; exact h.new w l hl hw
    · simp only [Trail.step, Trail.numVars_setValue, ← h.nums]
      funext ty; cases ty <;> rfl
  | backtrack M =>
    have hM : M ≤ t'.decisionLevel := hp
    have hLM : L ≤ M := ha
    obtain ⟨h1, h2, h3, h4, h5⟩ := Trail.backtrack_spec h.inv M hM
    refine ⟨hinv, ?_, ?_, ?_, ?_, ?_⟩
    · simp only [Trail.step]; rw [Trail.decisionLevel_backtrack h.inv M hM]; exact hLM
    · simp only [Trail.step, h1, List.take_take]
      rw [show min (L + 1) (M + 1) = L + 1 by omega]; exact h.lists
    · intro w l hl
      obtain ⟨a, b, c⟩ := h.old w l hl
      have hlL := hb w l hl
      obtain ⟨a', b', -⟩ := h3 w (by intro l' hl'; rw [a] at hl'; cases hl'; omega)
      exact ⟨a'.trans a, b'.trans b, by simp only [Trail.step]; rw [h4]; exact c⟩
    · intro w l hl hw
      simp only [Trail.step] at hw
      rcases hw' : t'.level w with _ | l'
      · rw [(h3 w (by simp [hw'])).1, hw'] at hw; cases hw
      · by_cases hlt : M < l'
        · rw [(h2 w l' hw' hlt).1] at hw; cases hw
        · rw [(h3 w (by intro l hl; rw [hw'] at hl; cases hl; omega)).1, hw'] at hw
          cases hw; exact h.new w _ hl hw'
    · simp only [Trail.step, h5]; exact h.nums

/-- C04. Whatever decisions, propagations and backtracks are made above level `L` after `L` was
left, backtracking to `L` gives back the trail as it was. -/
theorem C04_backtrack_undoes (ops work : List (TOp R)) (t t' : Trail R)
    (hr : Trail.Run Trail.init ops t) (hw : Trail.Run t work t')
    (ha : ∀ op ∈ work, op.above t.decisionLevel) :
    t.decisionLevel ≤ t'.decisionLevel ∧ SameTrail t (t'.backtrack t.decisionLevel) := by
  have hinv := Trail.run_inv hr Trail.init_inv
  have hlen := hinv.length_pos
  have hb : ∀ v l, t.level v = some l → l ≤ t.decisionLevel := hinv.bound
  have key : ∀ (s s' : Trail R) (w : List (TOp R)), Trail.Run s w s' →
      (∀ op ∈ w, op.above t.decisionLevel) →
      Above t.decisionLevel t s → Above t.decisionLevel t s' := by
    intro s s' w hrun
    induction hrun with
    | nil => intro _ h; exact h
    | cons hp _ ih =>
      intro hall h
      exact ih (fun op ho => hall op (List.mem_cons_of_mem _ ho))
        (h.step hb _ (hall _ List.mem_cons_self) hp)
  have h0 : Above t.decisionLevel t t := by
    refine ⟨hinv, le_refl _, ?_, fun v l hl => ⟨hl, rfl, rfl⟩, ?_, rfl⟩
    · apply List.take_of_length_le; simp [Trail.decisionLevel]; omega
    · intro v l h1 h2; rw [h1] at h2; cases h2
  have h := key t t' work hw ha h0
  obtain ⟨h1, h2, h3, h4, h5⟩ := Trail.backtrack_spec h.inv _ h.dl
  have hnone : ∀ v, t.level v = none → (t'.backtrack t.decisionLevel).level v = none ∧
      (t'.backtrack t.decisionLevel).reason v = none ∧
      (t'.backtrack t.decisionLevel).isDefined v = false := by
    intro v hv
    have hbi := Trail.backtrack_inv h.inv _ h.dl
    have hlv : (t'.backtrack t.decisionLevel).level v = none := by
      rcases hv' : t'.level v with _ | l'
      · rw [(h3 v (by simp [hv'])).1, hv']
      · exact (h2 v l' hv' (h.new v l' hv hv')).1
    refine ⟨hlv, hbi.noReason v hlv, ?_⟩
    cases hd : (t'.backtrack t.decisionLevel).isDefined v
    · rfl
    · obtain ⟨l, hl⟩ := (hbi.defined v).1 hd; rw [hlv] at hl; cases hl
  have hsome : ∀ v l, t.level v = some l → (t'.backtrack t.decisionLevel).level v = some l ∧
      (t'.backtrack t.decisionLevel).reason v = t.reason v ∧
      (t'.backtrack t.decisionLevel).isDefined v = true ∧
      (t'.backtrack t.decisionLevel).valueOf v = t.valueOf v := by
    intro v l hl
    obtain ⟨a, b, c⟩ := h.old v l hl
    obtain ⟨a', b', c'⟩ := h3 v (by intro l' hl'; rw [a] at hl'; cases hl'; exact hb v l hl)
    refine ⟨a'.trans a, b'.trans b, ?_, by rw [h4]; exact c⟩
    rw [c']; exact (h.inv.defined v).2 ⟨l, a⟩
  refine ⟨h.dl, ⟨by rw [h1]; exact h.lists, ?_, ?_, ?_, ?_, by rw [h5]; exact h.nums⟩⟩
  · funext v
    rcases hv : t.level v with _ | l
    · exact (hnone v hv).1
    · exact (hsome v l hv).1
  · funext v
    rcases hv : t.level v with _ | l
    · rw [(hnone v hv).2.1, hinv.noReason v hv]
    · exact (hsome v l hv).2.1
  · funext v
    rcases hv : t.level v with _ | l
    · rw [(hnone v hv).2.2]
      cases hd : t.isDefined v
      · rfl
      · obtain ⟨l, hl⟩ := (hinv.defined v).1 hd; rw [hv] at hl; cases hl
    · rw [(hsome v l hv).2.2.1, (hinv.defined v).2 ⟨l, hv⟩]
  · intro v hd
    obtain ⟨l, hl⟩ := (hinv.defined v).1 hd
    exact (hsome v l hl).2.2.2

/-- Work above level 1: two decisions and a propagation, with a partial backtrack in between. -/
example : ∃ t t' : Trail Nat, Trail.Run Trail.init
      [.resize .boolean 4, .decide (Var.bool 0) (.b true)] t ∧
    Trail.Run t [.decide (Var.bool 1) (.b true), .propagate (Var.bool 2) (some 7) 2 (.b false),
      .decide (Var.bool 3) (.b true), .backtrack 2] t' ∧
    t.decisionLevel = 1 ∧ t'.decisionLevel = 2 ∧ t'.level (Var.bool 2) = some 2 := by
  refine ⟨_, _, .cons ?_ (.cons ?_ (.nil _)),
    .cons ?_ (.cons ?_ (.cons ?_ (.cons ?_ (.nil _)))), ?_⟩
  · intro v l _ h; cases h
  all_goals first | decide | (simp only [Trail.Pre]; decide)

#print axioms C04_backtrack_exact
#print axioms C04_backtrack_undoes

end Yaga
