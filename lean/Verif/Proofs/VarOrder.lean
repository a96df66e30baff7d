import Verif.Model.VarOrder
import Verif.Proofs.PQueue
import Verif.Proofs.Trail

set_option linter.unusedSectionVars false

namespace Yaga
open ScoreOps

/-! ### `Evsids` -/

namespace Evsids
variable {S : Type} [LinearOrder S] [ScoreOps S]

/-- All scores and the increment are non-negative. -/
def Nonneg (e : Evsids S) : Prop := (∀ s ∈ e.vsids, zero ≤ s) ∧ (zero : S) ≤ e.inc

theorem bump_nonneg {e : Evsids S} (h : e.Nonneg) (i : Nat) : (e.bump i).Nonneg := by
  have h1 : Nonneg { e with vsids := e.vsids.modify i (fun s => add s e.inc) } := by
    refine ⟨?_, h.2⟩
    intro s hs
    obtain ⟨k, hk, rfl⟩ := List.mem_iff_getElem.1 hs
    simp only [List.getElem_modify]
    split
    · exact add_nonneg _ _ (h.1 _ (List.getElem_mem _)) h.2
    · exact h.1 _ (List.getElem_mem _)
  unfold bump
  simp only
  split
  · refine ⟨?_, scale_nonneg _ h1.2⟩
    intro s hs
    simp only [rescale, List.mem_map] at hs
    obtain ⟨a, ha, rfl⟩ := hs
    exact scale_nonneg _ (h1.1 a ha)
  · exact h1

theorem onResolved_nonneg (c : Clause) {e : Evsids S} (h : e.Nonneg) : (e.onResolved c).Nonneg := by
  unfold onResolved
  induction c generalizing e with
  | nil => exact h
  | cons l c ih => exact ih (bump_nonneg h _)

theorem step_nonneg {e : Evsids S} (h : e.Nonneg) (op : EvOp) : (e.step op).Nonneg := by
  cases op with
  | resize n =>
    refine ⟨?_, h.2⟩
    intro s hs
    rcases List.mem_append.1 hs with hs | hs
    · exact h.1 s (List.mem_of_mem_take hs)
    · rw [List.mem_replicate] at hs; exact hs.2 ▸ le_refl _
  | init cs =>
    have h0 : Nonneg { e with vsids := e.vsids.map (fun _ => zero) } := by
      refine ⟨?_, h.2⟩
      intro s hs
      simp only [List.mem_map] at hs
      obtain ⟨_, _, rfl⟩ := hs
      exact le_refl _
    show (cs.foldl onResolved _).Nonneg
    induction cs generalizing e with
    | nil => exact h0
    | cons c cs ih =>
      simp only [List.foldl_cons]
      have : ∀ (cs : List Clause) (e : Evsids S), e.Nonneg → (cs.foldl onResolved e).Nonneg := by
        intro cs
        induction cs with
        | nil => exact fun e h => h
        | cons c cs ih => exact fun e h => ih _ (onResolved_nonneg c h)
      exact this cs _ (onResolved_nonneg c h0)
  | resolved c => exact onResolved_nonneg c h
  | learned c =>
    have := onResolved_nonneg c h
    exact ⟨this.1, grow_nonneg _ this.2⟩

theorem run_nonneg (ops : List EvOp) {e : Evsids S} (h : e.Nonneg) :
    (ops.foldl step e).Nonneg := by
  induction ops generalizing e with
  | nil => exact h
  | cons op ops ih => exact ih (step_nonneg h op)

theorem new_nonneg : (new : Evsids S).Nonneg := ⟨by simp [new], one_nonneg⟩

theorem pick_loop (e : Evsids S) (h : e.Nonneg) (m : PModel Bool) (n : Nat) :
    let r := (List.range n).foldl
      (fun (acc : Option Nat × S) i =>
        if !m.defined i && decide (acc.2 < e.score i) then (some i, e.score i) else acc)
      (none, negOne)
    match r.1 with
    | none => r.2 = negOne ∧ ∀ i, i < n → m.defined i = true
    | some i => r.2 = e.score i ∧ i < n ∧ m.defined i = false ∧
        ∀ j, j < n → m.defined j = false → e.score j ≤ e.score i := by
  induction n with
  | zero => simp
  | succ n ih =>
    simp only [List.range_succ, List.foldl_append, List.foldl_cons, List.foldl_nil] at ih ⊢
    set r := (List.range n).foldl
      (fun (acc : Option Nat × S) i =>
        if !m.defined i && decide (acc.2 < e.score i) then (some i, e.score i) else acc)
      (none, negOne) with hr
    rcases hd : m.defined n with _ | _
    · have hpos : (negOne : S) < e.score n := by
        refine lt_of_lt_of_le negOne_lt ?_
        unfold score
        rw [List.getD_eq_getElem?_getD]
        rcases hg : e.vsids[n]? with _ | s
        · exact le_refl _
        · exact h.1 s (List.mem_of_getElem? hg)
      by_cases hlt : r.2 < e.score n
      · simp only [Bool.not_false, Bool.true_and, hlt, decide_true, if_true]
        refine ⟨trivial, by omega, hd, ?_⟩
        intro j hj hdj
        by_cases e' : j = n
        · subst e'; exact le_refl _
        · rcases hr1 : r.1 with _ | i
          · rw [hr1] at ih
            have := ih.2 j (by omega)
            rw [hdj] at this; cases this
          · rw [hr1] at ih
            obtain ⟨a, b, c, d⟩ := ih
            rw [a] at hlt
            exact le_trans (d j (by omega) hdj) (le_of_lt hlt)
      · simp only [Bool.not_false, Bool.true_and, hlt, decide_false]
        simp only [Bool.false_eq_true, if_false]
        rcases hr1 : r.1 with _ | i
        · rw [hr1] at ih
          rw [ih.1] at hlt
          exact absurd hpos hlt
        · rw [hr1] at ih
          obtain ⟨a, b, c, d⟩ := ih
          refine ⟨a, by omega, c, ?_⟩
          intro j hj hdj
          by_cases e' : j = n
          · subst e'; rw [a] at hlt; exact not_lt.1 hlt
          · exact d j (by omega) hdj
    · simp only [Bool.not_true, Bool.false_and, Bool.false_eq_true, if_false]
      rcases hr1 : r.1 with _ | i
      · rw [hr1] at ih
        refine ⟨ih.1, ?_⟩
        intro j hj
        by_cases e' : j = n
        · subst e'; exact hd
        · exact ih.2 j (by omega)
      · rw [hr1] at ih
        obtain ⟨a, b, c, d⟩ := ih
        refine ⟨a, by omega, c, ?_⟩
        intro j hj hdj
        by_cases e' : j = n
        · subst e'; rw [hd] at hdj; cases hdj
        · exact d j (by omega) hdj

theorem pick_spec (e : Evsids S) (h : e.Nonneg) (m : PModel Bool) :
    match e.pick m with
    | none => ∀ i, i < e.vsids.length → m.defined i = true
    | some v => ∃ i, v = .bool i ∧ i < e.vsids.length ∧ m.defined i = false ∧
        ∀ j, j < e.vsids.length → m.defined j = false → e.score j ≤ e.score i := by
  have := pick_loop e h m e.vsids.length
  unfold pick
  simp only at this
  revert this
  generalize (List.range e.vsids.length).foldl
      (fun (acc : Option Nat × S) i =>
        if !m.defined i && decide (acc.2 < e.score i) then (some i, e.score i) else acc)
      (none, negOne) = r
  intro this
  rcases hr : r.1 with _ | i
  · rw [hr] at this; exact this.2
  · rw [hr] at this; exact ⟨i, rfl, this.2⟩

theorem bump_length (e : Evsids S) (i : Nat) : (e.bump i).vsids.length = e.vsids.length := by
  unfold bump; simp only; split <;> simp [rescale]

theorem onResolved_length (c : Clause) (e : Evsids S) :
    (e.onResolved c).vsids.length = e.vsids.length := by
  unfold onResolved
  induction c generalizing e with
  | nil => rfl
  | cons l c ih => simp only [List.foldl_cons]; rw [ih, bump_length]

/-- The number of scores is the last announced number of variables. -/
theorem step_length (e : Evsids S) (op : EvOp) :
    (e.step op).vsids.length = match op with | .resize n => n | _ => e.vsids.length := by
  cases op with
  | resize n => simp [step, resize]; omega
  | init cs =>
    show (cs.foldl onResolved _).vsids.length = _
    have : ∀ (cs : List Clause) (e : Evsids S), (cs.foldl onResolved e).vsids.length = e.vsids.length := by
      intro cs
      induction cs with
      | nil => exact fun e => rfl
      | cons c cs ih => intro e; simp only [List.foldl_cons]; rw [ih, onResolved_length]
    rw [this]; simp
  | resolved c => exact onResolved_length c e
  | learned c => exact onResolved_length c e

end Evsids

/-! ### `First_unassigned`, `Combined_order` -/

theorem firstUndef_some {d : Nat → Bool} {n i : Nat} (h : firstUndef d n = some i) :
    i < n ∧ d i = false ∧ ∀ j, j < i → d j = true := by
  unfold firstUndef at h
  rw [List.find?_range_eq_some] at h
  obtain ⟨h1, h2, h3⟩ := h
  refine ⟨by simpa using h2, by simpa using h1, fun j hj => by simpa using h3 j hj⟩

theorem firstUndef_none {d : Nat → Bool} {n : Nat} (h : firstUndef d n = none) :
    ∀ i, i < n → d i = true := by
  unfold firstUndef at h
  rw [List.find?_eq_none] at h
  intro i hi
  simpa using h i (List.mem_range.2 hi)

/-! ### `Generalized_vsids` -/

namespace GVsids
variable {S R : Type} [LinearOrder S] [ScoreOps S]

/-- Both queues are well formed and store variables in range only. -/
structure QInv (g : GVsids S) : Prop where
  vars : g.vars.Ok
  eff : g.eff.Ok
  varsRange : ∀ v, g.vars.contains v = true → v.ord < g.num v.type
  effRange : ∀ v, g.eff.contains v = true → v.ord < g.num v.type

/-- `g'` stores the same variables as `g`. -/
structure Same (g g' : GVsids S) : Prop where
  inv : QInv g'
  num : g'.num = g.num
  mem : ∀ v, g'.vars.contains v = g.vars.contains v

theorem Same.refl {g : GVsids S} (h : QInv g) : Same g g := ⟨h, rfl, fun _ => rfl⟩

theorem Same.trans {g g' g'' : GVsids S} (h1 : Same g g') (h2 : Same g' g'') : Same g g'' :=
  ⟨h2.inv, h2.num.trans h1.num, fun v => (h2.mem v).trans (h1.mem v)⟩

theorem bumpVar_same {g : GVsids S} (h : QInv g) (v : Var) : Same g (g.bumpVar v) := by
  unfold bumpVar
  simp only
  split
  · obtain ⟨a, b⟩ := PQ.rescale_ok h.vars scale
    obtain ⟨c, d⟩ := PQ.rescale_ok h.eff scale
    exact ⟨⟨a, c, fun u hu => h.varsRange u (by rw [← b]; exact hu),
      fun u hu => h.effRange u (by rw [← d]; exact hu)⟩, rfl, b⟩
  · obtain ⟨a, b⟩ := PQ.update_ok h.vars v (add (g.score v) g.inc)
    obtain ⟨c, d⟩ := PQ.update_ok h.eff v (add (g.score v) g.inc)
    exact ⟨⟨a, c, fun u hu => h.varsRange u (by rw [← b]; exact hu),
      fun u hu => h.effRange u (by rw [← d]; exact hu)⟩, rfl, b⟩

theorem foldl_same {α : Type} (f : GVsids S → α → GVsids S)
    (hf : ∀ g, QInv g → ∀ a, Same g (f g a)) (l : List α) {g : GVsids S} (h : QInv g) :
    Same g (l.foldl f g) := by
  induction l generalizing g with
  | nil => exact .refl h
  | cons a l ih => exact (hf g h a).trans (ih (hf g h a).inv)

theorem bump_same (cvars : Nat → List Nat) {g : GVsids S} (h : QInv g) (i : Nat) :
    Same g (g.bump cvars i) :=
  (bumpVar_same h _).trans (foldl_same _ (fun _ h _ => bumpVar_same h _) _ (bumpVar_same h _).inv)

theorem onResolved_same (cvars : Nat → List Nat) {g : GVsids S} (h : QInv g) (c : Clause) :
    Same g (g.onResolved cvars c) :=
  foldl_same _ (fun _ h _ => bump_same cvars h _) c h

theorem onLearned_same (cvars : Nat → List Nat) {g : GVsids S} (h : QInv g) (c : Clause) :
    Same g (g.onLearned cvars c) := by
  have := onResolved_same cvars h c
  exact ⟨⟨this.inv.vars, this.inv.eff, this.inv.varsRange, this.inv.effRange⟩, this.num, this.mem⟩

theorem onInit_same (cvars : Nat → List Nat) {g : GVsids S} (h : QInv g) (cs : List Clause) :
    Same g (g.onInit cvars cs) := by
  have h0 : QInv { g with score := fun _ => zero } := ⟨h.vars, h.eff, h.varsRange, h.effRange⟩
  have := foldl_same (onResolved cvars) (fun _ h c => onResolved_same cvars h c) cs h0
  exact ⟨this.inv, this.num, this.mem⟩

theorem pushNew_ok (ty : VType) (k : Nat) (q : PQ S) (a : Nat) (h : q.Ok)
    (hq : ∀ v, q.contains v = true → v.type = ty → v.ord < a) :
    let q' := (List.range' a k).foldl (fun q i => q.push ⟨ty, i⟩ zero) q
    q'.Ok ∧ ∀ v, q'.contains v = true ↔ q.contains v = true ∨ (v.type = ty ∧ a ≤ v.ord ∧ v.ord < a + k) := by
  induction k generalizing q a with
  | zero => 
    refine ⟨h, fun v => ?_⟩
    simp only [List.range'_zero, List.foldl_nil, Nat.add_zero]
    constructor
    · exact Or.inl
    · rintro (h | ⟨_, h1, h2⟩)
      · exact h
      · omega
  | succ k ih =>
    simp only [List.range'_succ, List.foldl_cons]
    have hv : q.contains ⟨ty, a⟩ = false := by
      by_contra hc
      have := hq ⟨ty, a⟩ (by simpa using hc) rfl
      simp at this
    obtain ⟨h1, h2⟩ := PQ.push_ok h ⟨ty, a⟩ zero hv
    obtain ⟨h3, h4⟩ := ih _ (a + 1) h1 (by
      intro v hv hty
      rcases (h2 v).1 hv with rfl | hv
      · exact Nat.lt_succ_self _
      · have := hq v hv hty; omega)
    refine ⟨h3, fun v => ?_⟩
    rw [h4, h2]
    constructor
    · rintro ((rfl | h) | h)
      · exact Or.inr ⟨rfl, le_refl _, by simp⟩
      · exact Or.inl h
      · exact Or.inr ⟨h.1, by omega, by omega⟩
    · rintro (h | ⟨e, h5, h6⟩)
      · exact Or.inl (Or.inr h)
      · by_cases e' : v.ord = a
        · left; left
          rcases v with ⟨t, o⟩; simp only at e e'; rw [e, e']
        · exact Or.inr ⟨e, by omega, by omega⟩

theorem resize_ok {g : GVsids S} (h : QInv g) (ty : VType) (n : Nat) (hn : g.num ty ≤ n) :
    QInv (g.resize ty n) ∧ ∀ v, (g.resize ty n).vars.contains v = true ↔
      g.vars.contains v = true ∨ (v.type = ty ∧ g.num ty ≤ v.ord ∧ v.ord < n) := by
  obtain ⟨h1, h2⟩ := pushNew_ok ty (n - g.num ty) g.vars (g.num ty) h.vars (by
    intro v hv hty; have := h.varsRange v hv; rw [hty] at this; exact this)
  have hnum : ∀ v : Var, v.ord < g.num v.type → v.ord < (g.resize ty n).num v.type := by
    intro v hv
    simp only [resize, Function.update_apply]
    split
    · rename_i e; rw [e] at hv; omega
    · exact hv
  have h2' : ∀ v, (g.resize ty n).vars.contains v = true ↔
      g.vars.contains v = true ∨ (v.type = ty ∧ g.num ty ≤ v.ord ∧ v.ord < n) := by
    intro v
    show (pushNew ty g.vars (g.num ty) n).contains v = true ↔ _
    unfold pushNew
    rw [h2]
    constructor
    · rintro (h | ⟨a, b, c⟩)
      · exact Or.inl h
      · exact Or.inr ⟨a, b, by omega⟩
    · rintro (h | ⟨a, b, c⟩)
      · exact Or.inl h
      · exact Or.inr ⟨a, b, by omega⟩
  refine ⟨⟨h1, h.eff, ?_, fun v hv => hnum v (h.effRange v hv)⟩, h2'⟩
  intro v hv
  rcases (h2' v).1 hv with hv | ⟨hty, _, hlt⟩
  · exact hnum v (h.varsRange v hv)
  · simp only [resize, Function.update_apply, if_pos hty]; exact hlt

theorem requeue_ok {g : GVsids S} (h : QInv g) {t : Trail R} (ht : t.Inv) (hnum : g.num = t.numVars)
    (lvl : Nat) (as : List (Asg R)) :
    let g' := as.foldl (requeue t lvl) g
    QInv g' ∧ g'.num = g.num ∧ (∀ v, g.vars.contains v = true → g'.vars.contains v = true) ∧
      ∀ a ∈ as, ∀ l, t.level a.var = some l → lvl < l → g'.vars.contains a.var = true := by
  induction as generalizing g with
  | nil => exact ⟨h, rfl, fun _ h => h, by simp⟩
  | cons a as ih =>
    simp only [List.foldl_cons]
    obtain ⟨k1, k2, k3, k4⟩ : QInv (requeue t lvl g a) ∧ (requeue t lvl g a).num = g.num ∧
        (∀ v, g.vars.contains v = true → (requeue t lvl g a).vars.contains v = true) ∧
        (∀ l, t.level a.var = some l → lvl < l → (requeue t lvl g a).vars.contains a.var = true) := by
      unfold requeue
      by_cases hc : (!g.vars.contains a.var &&
          (t.level a.var).any (fun l => decide (lvl < l))) = true
      · rw [if_pos hc]
        rw [Bool.and_eq_true] at hc
        obtain ⟨p1, p2⟩ := PQ.push_ok h.vars a.var (g.score a.var) (by simpa using hc.1)
        refine ⟨⟨p1, h.eff, ?_, h.effRange⟩, rfl, fun v hv => (p2 v).2 (Or.inr hv),
          fun _ _ _ => (p2 _).2 (Or.inl rfl)⟩
        intro v hv
        rcases (p2 v).1 hv with rfl | hv
        · have h2 := hc.2
          rcases hl : t.level a.var with _ | l
          · rw [hl] at h2; cases h2
          · rw [hnum]; exact ht.range _ _ hl
        · exact h.varsRange v hv
      · rw [if_neg hc]
        refine ⟨h, rfl, fun _ hv => hv, ?_⟩
        intro l hl hlt
        by_contra hn
        apply hc
        simp [hl, hlt, Bool.eq_false_iff.2 hn]
    obtain ⟨q1, q2, q3, q4⟩ := ih k1 (k2.trans hnum)
    refine ⟨q1, q2.trans k2, fun v hv => q3 v (k3 v hv), ?_⟩
    intro b hb l hl hlt
    rcases List.mem_cons.1 hb with rfl | hb
    · exact q3 _ (k4 l hl hlt)
    · exact q4 b hb l hl hlt

theorem onBeforeBacktrack_ok {g : GVsids S} (h : QInv g) {t : Trail R} (ht : t.Inv)
    (hnum : g.num = t.numVars) (lvl : Nat) :
    let g' := g.onBeforeBacktrack t lvl
    QInv g' ∧ g'.num = g.num ∧ (∀ v, g.vars.contains v = true → g'.vars.contains v = true) ∧
      ∀ v l, t.level v = some l → lvl < l → g'.vars.contains v = true := by
  unfold onBeforeBacktrack
  have e : ∀ (ls : List (List (Asg R))) (g : GVsids S),
      ls.foldl (fun g as => as.foldl (requeue t lvl) g) g = ls.flatten.foldl (requeue t lvl) g := by
    intro ls
    induction ls with
    | nil => exact fun _ => rfl
    | cons x xs ih => intro g; simp only [List.foldl_cons, List.flatten_cons, List.foldl_append]; rw [ih]
  simp only [e]
  obtain ⟨h1, h2, h3, h4⟩ := requeue_ok h ht hnum lvl
    ((List.range' (lvl + 1) (t.decisionLevel - lvl)).reverse.map t.assigned).flatten
  refine ⟨h1, h2, h3, ?_⟩
  intro v l hl hlt
  obtain ⟨xs, hx, a, ha, hav⟩ := ht.own v l hl
  have hb := ht.bound v l hl
  subst hav
  refine h4 a ?_ l hl hlt
  rw [List.mem_flatten]
  refine ⟨xs, ?_, ha⟩
  rw [List.mem_map]
  refine ⟨l, ?_, ?_⟩
  · rw [List.mem_reverse, List.mem_range'_1]; omega
  · simp only [Trail.assigned, List.getD_eq_getElem?_getD, hx, Option.getD_some]

theorem popWhile_ok (p : Var → Bool) (n : Nat) (q : PQ S) (h : q.Ok) (hn : q.size ≤ n) :
    let q' := popWhile p n q
    q'.Ok ∧ (∀ v, q'.contains v = true → q.contains v = true) ∧
      (∀ v, q.contains v = true → q'.contains v = true ∨ p v = true) ∧
      (0 < q'.size → p q'.top = false) := by
  induction n generalizing q with
  | zero =>
    refine ⟨h, fun _ h => h, fun _ h => Or.inl h, fun hs => ?_⟩
    simp only [popWhile] at hs; omega
  | succ n ih =>
    unfold popWhile
    split
    · rename_i hc
      obtain ⟨h1, h2⟩ := PQ.pop_ok h hc.1
      obtain ⟨k1, k2, k3, k4⟩ := ih q.pop h1 (by rw [PQ.pop_size]; omega)
      refine ⟨k1, fun v hv => ((h2 v).1 (k2 v hv)).2, ?_, k4⟩
      intro v hv
      by_cases e : v = q.top
      · exact Or.inr (e ▸ hc.2)
      · exact k3 v ((h2 v).2 ⟨e, hv⟩)
    · rename_i hc
      refine ⟨h, fun _ h => h, fun _ h => Or.inl h, ?_⟩
      intro hs
      by_contra hp
      exact hc ⟨hs, by simpa using hp⟩

theorem pushEff_ok (l : List Nat) {g g' : GVsids S} (h : QInv g) (hl : ∀ i ∈ l, i < g.num .rational)
    (he : pushEff g l = some g') : QInv g' ∧ g'.num = g.num ∧ g'.vars = g.vars := by
  induction l generalizing g with
  | nil => simp only [pushEff, Option.some.injEq] at he; subst he; exact ⟨h, rfl, rfl⟩
  | cons i l ih =>
    unfold pushEff at he
    split at he
    · cases he
    · rename_i hc
      obtain ⟨p1, p2⟩ := PQ.push_ok h.eff (.rat i) (g.score (.rat i)) (by simpa using hc)
      refine ih (g := { g with eff := g.eff.push (.rat i) (g.score (.rat i)) }) ⟨h.vars, p1, h.varsRange, ?_⟩
        (fun j hj => hl j (List.mem_cons_of_mem _ hj)) he
      intro v hv
      rcases (p2 v).1 hv with rfl | hv
      · exact hl i List.mem_cons_self
      · exact h.effRange v hv

end GVsids
end Yaga
