/-
The reasons in a trail stay well formed under the operations of the solver.
-/
import Verif.Proofs.Analysis

namespace Yaga
open Spec
variable {R : Type}

theorem before_mono {t t' : Trail R} {w v : Var} (h : Before t w v)
    (hw : t'.level w = t.level w) (hv : t'.level v = t.level v)
    (hl : ∀ l, t.level v = some l → t.assigned l <+: t'.assigned l) : Before t' w v := by
  obtain ⟨lw, lv, h1, h2, h3⟩ := h
  refine ⟨lw, lv, hw.trans h1, hv.trans h2, h3.imp id ?_⟩
  rintro ⟨e, xs, a, ys, e1, e2, e3⟩
  obtain ⟨zs, hz⟩ := hl lv h2
  exact ⟨e, xs, a, ys ++ zs, by rw [← hz, e1]; simp, e2, e3⟩

theorem evalLit_setValue_ne (t : Trail R) (v : Var) (x : Val) (l : Lit) (h : l.var ≠ v) :
    evalLit (t.setValue v x).bools l = evalLit t.bools l := by
  rcases v with ⟨tv, ov⟩
  cases tv <;> cases x <;> try rfl
  have : l.ord ≠ ov := by intro e; apply h; simp [Lit.var, e]
  simp [Trail.setValue, evalLit, PModel.setValue, Function.update_of_ne this]

theorem value_setValue_ne (t : Trail R) (v : Var) (x : Val) (n : Nat) (h : Var.bool n ≠ v) :
    (t.setValue v x).bools.value n = t.bools.value n := by
  rcases v with ⟨tv, ov⟩
  cases tv <;> cases x <;> try rfl
  have : n ≠ ov := by intro e; apply h; simp [e]
  simp [Trail.setValue, PModel.setValue, Function.update_of_ne this]

theorem trueLit_setValue_ne (t : Trail R) (v w : Var) (x : Val) (hw : w.type = .boolean)
    (h : w ≠ v) : trueLit (t.setValue v x) w = trueLit t w := by
  rcases w with ⟨tw, ow⟩
  simp only at hw; subst hw
  simp only [trueLit]
  rw [value_setValue_ne t v x ow h]

/-! ### Preservation by `decide` -/

theorem reasonsOk_decide {deref : R → Clause} {t : Trail R} (hi : t.Inv) (h : ReasonsOk deref t)
    (v : Var) (x : Val) (hu : t.level v = none) :
    ReasonsOk deref ((t.decide v).setValue v x) := by
  have hrs : ∀ w r, ((t.decide v).setValue v x).reason w = some r → w ≠ v ∧ t.reason w = some r := by
    intro w r hw
    simp only [Trail.reason_setValue, Trail.decide, Function.update_apply] at hw
    split at hw
    · cases hw
    · exact ⟨by assumption, hw⟩
  refine ⟨fun w r hw => h.isBool w r (hrs w r hw).2, ?_, ?_⟩
  · intro w r hw
    obtain ⟨hne, hw'⟩ := hrs w r hw
    rw [trueLit_setValue_ne _ _ _ _ (h.isBool w r hw') hne]
    exact h.mem w r hw'
  · intro w r hw m hm hmt
    obtain ⟨hne, hw'⟩ := hrs w r hw
    rw [trueLit_setValue_ne _ _ _ _ (h.isBool w r hw') hne] at hmt
    obtain ⟨h1, h2⟩ := h.others w r hw' m hm hmt
    have hmne : m.var ≠ v := by
      obtain ⟨lw, lv, h3, -⟩ := h2
      intro e; rw [e, hu] at h3; cases h3
    refine ⟨by rw [evalLit_setValue_ne _ _ _ _ hmne]; exact h1, ?_⟩
    refine before_mono h2 ?_ ?_ ?_
    · simp [Trail.decide, Function.update_of_ne hmne]
    · simp [Trail.decide, Function.update_of_ne hne]
    · intro l hl
      have hlt : l < t.levels.length := by
        have := hi.bound w l hl
        have := hi.length_pos
        simp only [Trail.decisionLevel] at *; omega
      simp [Trail.assigned, Trail.decide, List.getD_eq_getElem?_getD, List.getElem?_append_left hlt]

theorem tight_decide {deref : R → Clause} {t : Trail R} (hr : ReasonsOk deref t)
    (h : Tight deref t) (v : Var) (x : Val) (hu : t.level v = none) :
    Tight deref ((t.decide v).setValue v x) := by
  intro w r l hw hl hpos
  simp only [Trail.reason_setValue, Trail.level_setValue, Trail.decide, Function.update_apply] at hw hl
  split at hw
  · cases hw
  · rename_i hne
    rw [if_neg hne] at hl
    obtain ⟨m, h1, h2, h3⟩ := h w r l hw hl hpos
    refine ⟨m, h1, by rw [trueLit_setValue_ne _ _ _ _ (hr.isBool w r hw) hne]; exact h2, ?_⟩
    have : m.var ≠ v := by intro e; rw [e, hu] at h3; cases h3
    simpa [Trail.decide, Function.update_of_ne this] using h3

theorem zeroReason_decide {t : Trail R} (hi : t.Inv) (h : ZeroReason t) (v : Var) (x : Val) :
    ZeroReason ((t.decide v).setValue v x) := by
  intro n hn
  have := hi.length_pos
  simp only [Trail.reason_setValue, Trail.level_setValue, Trail.decide, Function.update_apply] at hn ⊢
  split at hn
  · simp only [Option.some.injEq] at hn; omega
  · rename_i hne; rw [if_neg hne]; exact h n hn

/-! ### Preservation by `propagate` -/

theorem assigned_propagate (t : Trail R) (v : Var) (r : Option R) (lvl : Nat) (x : Val) (i : Nat) :
    t.assigned i <+: ((t.propagate v r lvl).setValue v x).assigned i := by
  simp only [Trail.assigned, Trail.levels_setValue, Trail.propagate, List.getD_eq_getElem?_getD,
    Trail.getElem?_pushFrom]
  rcases t.levels[i]? with _ | xs
  · simp
  · simp only [Option.map_some, Option.getD_some]
    split <;> simp

theorem reasonsOk_propagate {deref : R → Clause} {t : Trail R} (hi : t.Inv) (h : ReasonsOk deref t)
    (n : Nat) (r : R) (lvl : Nat) (b : Bool) (hlvl : lvl ≤ t.decisionLevel)
    (hu : t.level (.bool n) = none)
    (hmem : Lit.ofVal n b ∈ deref r)
    (hoth : ∀ m ∈ deref r, m ≠ Lit.ofVal n b → evalLit t.bools m = some false ∧
      ∃ k, t.level m.var = some k ∧ k ≤ lvl) :
    ReasonsOk deref ((t.propagate (.bool n) (some r) lvl).setValue (.bool n) (.b b)) := by
  set t' := (t.propagate (.bool n) (some r) lvl).setValue (.bool n) (.b b) with ht'
  have htl : trueLit t' (.bool n) = Lit.ofVal n b := by
    simp [ht', trueLit, Trail.setValue, PModel.setValue]
  have hrs : ∀ w r', t'.reason w = some r' → (w = .bool n ∧ r' = r) ∨ (w ≠ .bool n ∧ t.reason w = some r') := by
    intro w r' hw
    simp only [ht', Trail.reason_setValue, Trail.propagate, Function.update_apply] at hw
    split at hw
    · cases hw; exact Or.inl ⟨by assumption, rfl⟩
    · exact Or.inr ⟨by assumption, hw⟩
  have hlev : ∀ w, w ≠ .bool n → t'.level w = t.level w := by
    intro w hw; simp [ht', Trail.propagate, Function.update_of_ne hw]
  refine ⟨?_, ?_, ?_⟩
  · intro w r' hw
    rcases hrs w r' hw with ⟨rfl, -⟩ | ⟨-, hw'⟩
    · rfl
    · exact h.isBool w r' hw'
  · intro w r' hw
    rcases hrs w r' hw with ⟨rfl, rfl⟩ | ⟨hne, hw'⟩
    · rw [htl]; exact hmem
    · rw [ht', trueLit_setValue_ne _ _ _ _ (h.isBool w r' hw') hne]; exact h.mem w r' hw'
  · intro w r' hw m hm hmt
    rcases hrs w r' hw with ⟨rfl, rfl⟩ | ⟨hne, hw'⟩
    · rw [htl] at hmt
      obtain ⟨h1, k, h2, h3⟩ := hoth m hm hmt
      have hmne : m.var ≠ .bool n := by intro e; rw [e, hu] at h2; cases h2
      refine ⟨by rw [ht', evalLit_setValue_ne _ _ _ _ hmne]; exact h1, k, lvl, ?_, ?_, ?_⟩
      · rw [hlev _ hmne]; exact h2
      · simp [ht', Trail.propagate]
      · rcases Nat.lt_or_ge k lvl with hlt | hge
        · exact Or.inl hlt
        · have e : k = lvl := by omega
          subst e
          refine Or.inr ⟨rfl, t.assigned k, ⟨.bool n, some r'⟩, [], ?_, rfl, ?_⟩
          · have hlt : k < t.levels.length := by
              have := hi.length_pos
              simp only [Trail.decisionLevel] at hlvl; omega
            simp only [ht', Trail.assigned, Trail.levels_setValue, Trail.propagate,
              List.getD_eq_getElem?_getD, Trail.getElem?_pushFrom]
            rw [List.getElem?_eq_getElem hlt]; simp
          · obtain ⟨xs, hx, a, ha, e⟩ := hi.own _ _ h2
            exact ⟨a, by simpa [Trail.assigned, List.getD_eq_getElem?_getD, hx] using ha, e⟩
    · rw [ht', trueLit_setValue_ne _ _ _ _ (h.isBool w r' hw') hne] at hmt
      obtain ⟨h1, h2⟩ := h.others w r' hw' m hm hmt
      have hmne : m.var ≠ .bool n := by
        obtain ⟨lw, lv, h3, -⟩ := h2
        intro e; rw [e, hu] at h3; cases h3
      refine ⟨by rw [ht', evalLit_setValue_ne _ _ _ _ hmne]; exact h1, ?_⟩
      exact before_mono h2 (hlev _ hmne) (hlev _ hne) fun l _ => assigned_propagate _ _ _ _ _ _

theorem tight_propagate {deref : R → Clause} {t : Trail R} (hr : ReasonsOk deref t)
    (h : Tight deref t) (n : Nat) (r : R) (lvl : Nat) (b : Bool) (hu : t.level (.bool n) = none)
    (htight : 0 < lvl → ∃ m ∈ deref r, m ≠ Lit.ofVal n b ∧ t.level m.var = some lvl) :
    Tight deref ((t.propagate (.bool n) (some r) lvl).setValue (.bool n) (.b b)) := by
  intro w r' l hw hl hpos
  simp only [Trail.reason_setValue, Trail.level_setValue, Trail.propagate, Function.update_apply] at hw hl
  have key : ∀ m : Lit, t.level m.var = some l →
      ((t.propagate (.bool n) (some r) lvl).setValue (.bool n) (.b b)).level m.var = some l := by
    intro m hm
    have : m.var ≠ .bool n := by intro e; rw [e, hu] at hm; cases hm
    simpa [Trail.propagate, Function.update_of_ne this] using hm
  split at hw
  · rename_i hww
    rw [if_pos hww] at hl
    cases hw; cases hl
    obtain ⟨m, h1, h2, h3⟩ := htight hpos
    refine ⟨m, h1, ?_, key m h3⟩
    subst hww
    simpa [trueLit, Trail.setValue, PModel.setValue] using h2
  · rename_i hne
    rw [if_neg hne] at hl
    obtain ⟨m, h1, h2, h3⟩ := h w r' l hw hl hpos
    exact ⟨m, h1, by rw [trueLit_setValue_ne _ _ _ _ (hr.isBool w r' hw) hne]; exact h2, key m h3⟩

theorem zeroReason_propagate {t : Trail R} (h : ZeroReason t) (v : Var) (r : R) (lvl : Nat) (x : Val) :
    ZeroReason ((t.propagate v (some r) lvl).setValue v x) := by
  intro n hn
  simp only [Trail.reason_setValue, Trail.level_setValue, Trail.propagate, Function.update_apply] at hn ⊢
  split at hn
  · rename_i e; rw [if_pos e]; simp
  · rename_i e; rw [if_neg e]; exact h n hn

/-! ### Preservation by `backtrack` and `clear` -/

theorem reasonsOk_backtrack {deref : R → Clause} {t : Trail R} (hi : t.Inv) (h : ReasonsOk deref t)
    (L : Nat) (hL : L ≤ t.decisionLevel) : ReasonsOk deref (t.backtrack L) := by
  obtain ⟨h1, h2, h3, h4, -⟩ := Trail.backtrack_spec hi L hL
  have hlow : ∀ w r, (t.backtrack L).reason w = some r →
      t.reason w = some r ∧ ∃ l, t.level w = some l ∧ l ≤ L := by
    intro w r hw
    rcases hl : t.level w with _ | l
    · have := (h3 w (by simp [hl])).2.1
      rw [this, hi.noReason w hl] at hw; cases hw
    · rcases Nat.lt_or_ge L l with hlt | hge
      · rw [(h2 w l hl hlt).2.1] at hw; cases hw
      · have := (h3 w (by intro l' hl'; rw [hl] at hl'; cases hl'; exact hge)).2.1
        exact ⟨this ▸ hw, l, rfl, hge⟩
  have hval : ∀ w : Var, w.type = .boolean → trueLit (t.backtrack L) w = trueLit t w := by
    intro w hw
    have := congrFun h4 w
    simp only [Trail.valueOf, hw, Val.b.injEq] at this
    simp [trueLit, this]
  refine ⟨fun w r hw => h.isBool w r (hlow w r hw).1, ?_, ?_⟩
  · intro w r hw
    rw [hval w (h.isBool w r (hlow w r hw).1)]
    exact h.mem w r (hlow w r hw).1
  · intro w r hw m hm hmt
    obtain ⟨hw', l, hl, hle⟩ := hlow w r hw
    rw [hval w (h.isBool w r hw')] at hmt
    obtain ⟨e1, e2⟩ := h.others w r hw' m hm hmt
    have hmle : ∃ k, t.level m.var = some k ∧ k ≤ L := by
      obtain ⟨lw, lv, e3, e4, e5⟩ := e2
      rw [hl] at e4; cases e4
      refine ⟨lw, e3, ?_⟩
      rcases e5 with e5 | ⟨e5, -⟩ <;> omega
    obtain ⟨k, hk, hkL⟩ := hmle
    refine ⟨by rw [evalLit_backtrack_low hi hL hk hkL]; exact e1, ?_⟩
    refine before_mono e2 ?_ ?_ ?_
    · exact (h3 m.var (by intro l' hl'; rw [hk] at hl'; cases hl'; exact hkL)).1
    · exact (h3 w (by intro l' hl'; rw [hl] at hl'; cases hl'; exact hle)).1
    · intro l' hl'
      rw [hl] at hl'; cases hl'
      simp only [Trail.assigned, h1, List.getD_eq_getElem?_getD, List.getElem?_take]
      rw [if_pos (by omega)]

theorem tight_backtrack {deref : R → Clause} {t : Trail R} (hi : t.Inv) (hr : ReasonsOk deref t)
    (h : Tight deref t) (L : Nat) (hL : L ≤ t.decisionLevel) : Tight deref (t.backtrack L) := by
  obtain ⟨h1, h2, h3, h4, -⟩ := Trail.backtrack_spec hi L hL
  intro w r l hw hl hpos
  have hlow : t.reason w = some r ∧ t.level w = some l ∧ l ≤ L := by
    rcases hl' : t.level w with _ | l'
    · have := (h3 w (by simp [hl'])).1
      rw [this, hl'] at hl; cases hl
    · rcases Nat.lt_or_ge L l' with hlt | hge
      · rw [(h2 w l' hl' hlt).1] at hl; cases hl
      · have := h3 w (by intro l'' hl''; rw [hl'] at hl''; cases hl''; exact hge)
        rw [this.1, hl'] at hl; cases hl
        exact ⟨this.2.1 ▸ hw, rfl, hge⟩
  obtain ⟨hw', hl', hle⟩ := hlow
  obtain ⟨m, e1, e2, e3⟩ := h w r l hw' hl' hpos
  refine ⟨m, e1, ?_, ?_⟩
  · have := congrFun h4 w
    simp only [Trail.valueOf, hr.isBool w r hw', Val.b.injEq] at this
    have e4 : trueLit (t.backtrack L) w = trueLit t w := by simp only [trueLit, this]
    rw [e4]; exact e2
  · rw [(h3 m.var (by intro l'' hl''; rw [e3] at hl''; cases hl''; exact hle)).1]; exact e3

theorem zeroReason_backtrack {t : Trail R} (hi : t.Inv) (h : ZeroReason t)
    (L : Nat) (hL : L ≤ t.decisionLevel) : ZeroReason (t.backtrack L) := by
  obtain ⟨h1, h2, h3, h4, -⟩ := Trail.backtrack_spec hi L hL
  intro n hn
  rcases hl' : t.level (.bool n) with _ | l'
  · have := (h3 (.bool n) (by simp [hl'])).1
    rw [this, hl'] at hn; cases hn
  · rcases Nat.lt_or_ge L l' with hlt | hge
    · rw [(h2 (.bool n) l' hl' hlt).1] at hn; cases hn
    · have := h3 (.bool n) (by intro l'' hl''; rw [hl'] at hl''; cases hl''; exact hge)
      rw [this.1] at hn
      rw [this.2.1]; exact h n hn

theorem reasonsOk_of_noReason {deref : R → Clause} {t : Trail R} (h : ∀ v, t.reason v = none) :
    ReasonsOk deref t := by
  refine ⟨?_, ?_, ?_⟩ <;> intro v r hv <;> rw [h] at hv <;> cases hv

theorem tight_of_noReason {deref : R → Clause} {t : Trail R} (h : ∀ v, t.reason v = none) :
    Tight deref t := by
  intro v r l hv; rw [h] at hv; cases hv

theorem zeroReason_of_unassigned {t : Trail R} (h : ∀ v, t.level v = none) : ZeroReason t := by
  intro n hn; rw [h] at hn; cases hn

end Yaga
