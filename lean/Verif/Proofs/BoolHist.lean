/-
Invariants of the Boolean plugin over whole histories.
-/
import Verif.Proofs.BcpInit

set_option linter.unusedSectionVars false
set_option linter.unusedVariables false

namespace Yaga
namespace BS
open Spec

theorem inv_of_clear {t : Trail Nat} (h : t = t.clear) : t.Inv := h ▸ Trail.clear_inv t
theorem isEmpty_of_clear {t : Trail Nat} (h : t = t.clear) : t.isEmpty = true := by
  rw [h]; rfl

theorem mem_assigned_of_level {t : Trail Nat} (hi : t.Inv) {v : Var} {k : Nat}
    (h : t.level v = some k) : ∃ a ∈ t.assigned k, a.var = v := by
  obtain ⟨xs, h1, h2⟩ := hi.own _ _ h
  simpa [Trail.assigned, List.getD_eq_getElem?_getD, h1] using h2

theorem getElem?_assigned {t : Trail Nat} {i : Nat} (h : i < t.levels.length) :
    t.levels[i]? = some (t.assigned i) := by
  simp [Trail.assigned, List.getD_eq_getElem?_getD, List.getElem?_eq_getElem h]

theorem lt_levels {t : Trail Nat} (hi : t.Inv) {i : Nat} (h : i ≤ t.decisionLevel) :
    i < t.levels.length := by
  have := hi.length_pos; simp only [Trail.decisionLevel] at h; omega

/-! ### Watch lists -/

theorem ws_congr {s s' : BS} (h : WS s) (h1 : s'.cls = s.cls) (h2 : s'.watched = s.watched)
    (h3 : s'.t.bools.num = s.t.bools.num) : WS s' := by
  have hcl : s'.clause = s.clause := by funext r; simp [clause, h1]
  refine ⟨?_, ?_, ?_, ?_, ?_⟩
  · rw [h1, hcl]; exact h.ne
  · rw [h1, hcl, h3]; exact h.range
  · rw [h1, hcl, h2]; exact h.count
  · rw [h1, h2]; exact h.ref
  · rw [hcl, h2]; exact h.idx

theorem clause_append_lt {s s' : BS} {cs : List Clause} (h : s'.cls = s.cls ++ cs) {r : Nat}
    (hr : r < s.cls.length) : s'.clause r = s.clause r := by
  simp [clause, List.getD_eq_getElem?_getD, h, List.getElem?_append_left hr]

theorem learnClause_ws {s : BS} (h : WS s) {c : Clause} (hc : ClauseOk s c) :
    WS (s.learnClause c) ∧ (s.learnClause c).cls = s.cls ++ [c] ∧ (s.learnClause c).t = s.t ∧
    (s.learnClause c).na = s.na ∧ (s.learnClause c).phase = s.phase ∧
    (s.learnClause c).mode = s.mode ∧ (s.learnClause c).nextIndex = s.nextIndex ∧
    (s.learnClause c).curLevel = s.curLevel := by
  have hall : (s.learnClause c).cls = s.cls ++ [c] ∧ (s.learnClause c).t = s.t ∧
      (s.learnClause c).na = s.na ∧ (s.learnClause c).phase = s.phase ∧
      (s.learnClause c).mode = s.mode ∧ (s.learnClause c).nextIndex = s.nextIndex ∧
      (s.learnClause c).curLevel = s.curLevel := by
    unfold learnClause
    match c with
    | [] => exact ⟨rfl, rfl, rfl, rfl, rfl, rfl, rfl⟩
    | [a] => exact ⟨rfl, rfl, rfl, rfl, rfl, rfl, rfl⟩
    | a :: b :: rest => exact ⟨rfl, rfl, rfl, rfl, rfl, rfl, rfl⟩
  refine ⟨?_, hall⟩
  obtain ⟨h1, h2, -⟩ := hall
  have hlt : ∀ r, r < s.cls.length → (s.learnClause c).clause r = s.clause r :=
    fun r hr => clause_append_lt h1 hr
  have heq : (s.learnClause c).clause s.cls.length = c := by
    simp [clause, List.getD_eq_getElem?_getD, h1]
  have hlen : (s.learnClause c).cls.length = s.cls.length + 1 := by rw [h1]; simp
  have hmem : ∀ l w, w ∈ (s.learnClause c).watched l →
      w ∈ s.watched l ∨ w = mkWatch s.cls.length c := by
    intro l w hlw
    match c, hc.1 with
    | [a], _ =>
      simp only [learnClause, watched_addWatch] at hlw
      split at hlw <;> (try simp only [List.mem_append, List.mem_singleton] at hlw) <;> tauto
    | a :: b :: rest, _ =>
      simp only [learnClause, watched_addWatch] at hlw
      split at hlw <;> split at hlw <;>
        (try simp only [List.mem_append, List.mem_singleton] at hlw) <;> tauto
  have hcount : ∀ r l, (((s.learnClause c).watched l).map Watch.ref).count r =
      ((s.watched l).map Watch.ref).count r + (if s.cls.length = r then (c.take 2).count l else 0) := by
    intro r l
    have hmk : ∀ n c, (mkWatch n c).ref = n := fun _ _ => rfl
    match c, hc.1 with
    | [a], _ =>
      simp only [learnClause, watched_addWatch]
      have e1 : (l = a) = (a = l) := propext eq_comm
      simp only [e1]
      by_cases h1 : a = l <;> by_cases h2 : s.cls.length = r <;>
        simp only [h1, h2, if_true, if_false, List.map_append, List.map_cons, List.map_nil, hmk,
          List.count_append, List.count_cons, List.count_nil, beq_iff_eq, List.take_succ_cons,
          List.take_nil] <;> simp
    | a :: b :: rest, _ =>
      simp only [learnClause, watched_addWatch]
      have e1 : (l = a) = (a = l) := propext eq_comm
      have e2 : (l = b) = (b = l) := propext eq_comm
      simp only [e1, e2]
      by_cases h1 : a = l <;> by_cases h3 : b = l <;> by_cases h2 : s.cls.length = r <;>
        simp only [h1, h2, h3, if_true, if_false, List.map_append, List.map_cons, List.map_nil, hmk,
          List.count_append, List.count_cons, List.count_nil, beq_iff_eq, List.take_succ_cons,
          List.take_zero] <;> simp
  refine ⟨?_, ?_, ?_, ?_, ?_⟩
  · intro r hr
    rw [hlen] at hr
    rcases Nat.lt_or_eq_of_le (Nat.lt_succ_iff.1 hr) with h3 | rfl
    · rw [hlt r h3]; exact h.ne r h3
    · rw [heq]; exact hc.1
  · intro r hr
    rw [hlen] at hr
    rw [h2]
    rcases Nat.lt_or_eq_of_le (Nat.lt_succ_iff.1 hr) with h3 | rfl
    · rw [hlt r h3]; exact h.range r h3
    · rw [heq]; exact hc.2
  · intro r hr l
    rw [hlen] at hr
    rw [hcount]
    rcases Nat.lt_or_eq_of_le (Nat.lt_succ_iff.1 hr) with h3 | rfl
    · rw [hlt r h3, h.count r h3 l, if_neg (by omega)]; rfl
    · rw [heq, count_eq_zero_of_ref h.ref l]; simp
  · intro l w hw
    rw [hlen]
    rcases hmem l w hw with h3 | rfl
    · have := h.ref l w h3; omega
    · simp [mkWatch]
  · intro l w hw
    rcases hmem l w hw with h3 | rfl
    · rw [hlt _ (h.ref l w h3)]; exact h.idx l w h3
    · simp only [mkWatch, heq]; omega

theorem learnAll_ws {s : BS} (h : WS s) {cs : List Clause} (hc : ∀ c ∈ cs, ClauseOk s c) :
    WS (s.learnAll cs) ∧ (s.learnAll cs).cls = s.cls ++ cs ∧ (s.learnAll cs).t = s.t ∧
    (s.learnAll cs).na = s.na ∧ (s.learnAll cs).phase = s.phase ∧
    (s.learnAll cs).mode = s.mode ∧ (s.learnAll cs).nextIndex = s.nextIndex ∧
    (s.learnAll cs).curLevel = s.curLevel := by
  unfold learnAll
  induction cs generalizing s with
  | nil => exact ⟨h, by simp, rfl, rfl, rfl, rfl, rfl, rfl⟩
  | cons c cs ih =>
    obtain ⟨h1, h2, h3, h4, h5, h6, h7, h8⟩ := learnClause_ws h (hc c (by simp))
    obtain ⟨g1, g2, g3, g4, g5, g6, g7, g8⟩ := ih h1 (by
      intro d hd
      have := hc d (List.mem_cons_of_mem _ hd)
      unfold ClauseOk at this ⊢
      rw [h3]; exact this)
    rw [List.foldl_cons]
    exact ⟨g1, by rw [g2, h2]; simp, g3.trans h3, g4.trans h4, g5.trans h5, g6.trans h6,
      g7.trans h7, g8.trans h8⟩

theorem resizeBool_ws {s : BS} (h : WS s) {n : Nat} (hn : s.t.bools.num ≤ n) :
    WS (s.resizeBool n) ∧ (s.resizeBool n).watched = s.watched := by
  have hw : (s.resizeBool n).watched = s.watched := by
    funext l
    simp only [resizeBool, onResize]
    split
    · rfl
    · rename_i hl
      rcases hx : s.watched l with _ | ⟨w, ws⟩
      · rfl
      · exfalso
        have hw : w ∈ s.watched l := by rw [hx]; simp
        have hr := h.ref l w hw
        have := h.count w.ref hr l
        have hpos : 0 < ((s.watched l).map Watch.ref).count w.ref :=
          List.count_pos_iff.2 (List.mem_map_of_mem hw)
        rw [this] at hpos
        have hmem := List.mem_of_mem_take (List.count_pos_iff.1 hpos)
        have := h.range w.ref hr l hmem
        omega
  refine ⟨?_, hw⟩
  have h1 : (s.resizeBool n).cls = s.cls := rfl
  have hcl : (s.resizeBool n).clause = s.clause := by funext r; simp [clause, h1]
  have h3 : (s.resizeBool n).t.bools.num = n := rfl
  refine ⟨?_, ?_, ?_, ?_, ?_⟩
  · rw [h1, hcl]; exact h.ne
  · rw [h1, hcl, h3]; intro r hr l hl; have := h.range r hr l hl; omega
  · rw [h1, hcl, hw]; exact h.count
  · rw [h1, hw]; exact h.ref
  · rw [hcl, hw]; exact h.idx

/-! ### Propagation -/

/-- A call of `propagate` for any set `Q` of true literals whose falsified watches are fine. -/
theorem propagates_spec {s s' : BS} {c : Option Clause} {Q : Lit → Prop} (hi : s.t.Inv)
    (hdb : DbOk s) (hws : s.t.isEmpty = false → WS s)
    (hqt : ∀ l, Q l → evalLit s.t.bools l = some true)
    (hq : s.t.isEmpty = false → ∀ r < s.cls.length, ∀ w ∈ (s.clause r).take 2, Q w.neg →
      Fine s.t (s.clause r) w) (h : Propagates s c s') :
    ∃ s0 : BS, s0.cls = s.cls ∧ s0.t = s.t ∧ s0.na = s.na ∧ s0.phase = s.phase ∧
    s0.mode = s.mode ∧ s0.nextIndex = (s.t.assigned s.t.decisionLevel).length ∧
    s0.curLevel = s.t.decisionLevel ∧ Ext s0 s' ∧ s'.t.Inv ∧ WS s' ∧
    (∀ r < s'.cls.length, ∀ w ∈ (s'.clause r).take 2, Q w.neg →
      Fine s'.t (s'.clause r) w ∨ InRecent s'.t w.var) ∧
    (c = none → ∃ Q' : Lit → Prop, (∀ l, Q l → Q' l) ∧
      (∀ l, evalLit s.t.bools l = some true → (∃ a ∈ s.unprocessed, a.var = l.var) → Q' l) ∧
      (s.t.isEmpty = true → ∀ r l, r < s.cls.length → s.clause r = [l] → Q' l) ∧
      (∀ l, evalLit s'.t.bools l = some true → evalLit s.t.bools l = some true ∨ Q' l) ∧
      (∀ l, Q' l → evalLit s'.t.bools l = some true) ∧
      ∀ r < s'.cls.length, ∀ w ∈ (s'.clause r).take 2, Q' w.neg → Fine s'.t (s'.clause r) w) ∧
    (∀ c', c = some c' → (∀ l ∈ c', evalLit s'.t.bools l = some false) ∧
      ∃ r < s'.cls.length, s'.clause r = c') := by
  obtain ⟨h1, h2, h3, h4, h5, h6, h7, h8, h9, h10⟩ := initProp_spec hi hdb hws hqt hq
  obtain ⟨fuel, hf⟩ := h
  obtain ⟨g1, g2, g3, g4, g5, g6, g7⟩ := propLoop_spec fuel s.initProp s.initProp Q c s' h1
    (Ext.refl _) hf
  refine ⟨s.initProp, h2, h3, h4, h5, h6, h7, h8, g1, g2, g3, g5, ?_, g7⟩
  intro hc
  obtain ⟨Q', q1, q2, q3, q4, q5⟩ := g6 hc
  refine ⟨Q', q1, ?_, ?_, by rw [h3] at q3; exact q3, q4, q5⟩
  · intro l hl hu
    obtain ⟨e, he, rfl⟩ := h9 l hl hu
    exact q2 e he
  · intro hem r l hr hrl
    obtain ⟨e, he, rfl⟩ := h10 hem r l hr hrl
    exact q2 e he

/-- Invariant of all histories. -/
structure Base (b : Bool) (s : BS) : Prop where
  inv : s.t.Inv
  db : DbOk s
  ws : b = true ∨ s.t.isEmpty = false → WS s
  fresh : b = false → s.t.isEmpty = true

theorem isEmpty_setValue_false {t : Trail Nat} (hi : t.Inv) {v : Var} {k : Nat}
    (h : t.level v = some k) : t.isEmpty = false := by
  rcases he : t.isEmpty with _ | _
  · rfl
  · rw [isEmpty_level hi he] at h; cases h

theorem numBools_setValue (t : Trail Nat) (v : Var) (x : Val) :
    (t.setValue v x).bools.num = t.bools.num := by
  rcases v with ⟨tv, ov⟩
  cases tv <;> cases x <;> rfl

theorem numBools_backtrack {t : Trail Nat} (hi : t.Inv) {L : Nat} (hL : L ≤ t.decisionLevel) :
    (t.backtrack L).bools.num = t.bools.num :=
  congrFun (Trail.backtrack_spec hi L hL).2.2.2.2 .boolean

theorem Base.mk' {s : BS} (h1 : s.t.Inv) (h2 : WS s) : Base true s :=
  ⟨h1, h2.db, fun _ => h2, by simp⟩

theorem anyHist_base {b : Bool} {s : BS} (h : AnyHist b s) : Base b s := by
  induction h with
  | start s h1 h2 =>
    exact ⟨inv_of_clear h1, h2, by simp [isEmpty_of_clear h1], fun _ => isEmpty_of_clear h1⟩
  | propagate _ hp ih =>
    obtain ⟨s0, -, -, -, -, -, -, -, -, h1, h2, -⟩ := propagates_spec (Q := fun _ => False) ih.inv
      ih.db (fun h => ih.ws (Or.inr h)) (by simp) (by simp) hp
    exact .mk' h1 h2
  | @assign s v r lvl x _ hp ih =>
    obtain ⟨h1, h2, h3, h4⟩ := hp
    exact .mk' (Trail.propagate_inv ih.inv v r lvl x h1 h2 h3 h4)
      (ws_congr (ih.ws (Or.inl rfl)) rfl rfl (numBools_setValue _ _ _))
  | @decide s v x _ hp ih =>
    obtain ⟨h1, h2, h3⟩ := hp
    exact .mk' (Trail.decide_inv ih.inv v x h1 h2 h3)
      (ws_congr (ih.ws (Or.inl rfl)) rfl rfl (numBools_setValue _ _ _))
  | learn _ hc ih =>
    obtain ⟨h1, -, h3, -⟩ := learnClause_ws (ih.ws (Or.inl rfl)) hc
    exact .mk' (by rw [h3]; exact ih.inv) h1
  | @backtrack s L _ hl ih =>
    exact .mk' (Trail.backtrack_inv ih.inv _ hl)
      (ws_congr (ih.ws (Or.inl rfl)) rfl rfl (numBools_backtrack ih.inv hl))
  | @resizeBool s n _ hn ih =>
    refine .mk' (Trail.resize_inv ih.inv .boolean n ?_) (resizeBool_ws (ih.ws (Or.inl rfl)) hn).1
    intro v l hv hl
    have := ih.inv.range v l hl
    rw [hv] at this
    exact lt_of_lt_of_le this hn
  | @resizeRat s n _ hn ih =>
    refine .mk' (Trail.resize_inv ih.inv .rational n ?_) (ws_congr (ih.ws (Or.inl rfl)) rfl rfl rfl)
    intro v l hv hl
    have := ih.inv.range v l hl
    rw [hv] at this
    exact lt_of_lt_of_le this hn

end BS
end Yaga
