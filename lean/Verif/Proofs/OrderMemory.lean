/-
The vectors of `Generalized_vsids` store the heuristic of `Model/VarOrder`.
-/
import Verif.Model.OrderMemory
import Verif.Proofs.TrailMemory
import Verif.Proofs.QueueMemory
import Verif.Proofs.VarOrder

namespace Yaga
open ScoreOps
variable {S R : Type} [LinearOrder S] [ScoreOps S]

theorem QMem.top_eq {D : Var → Prop} {m : QMem S} {q : PQ S} (h : QMem.Sim D m q) :
    m.top = if 0 < q.size then some q.top else none := by
  unfold QMem.top PQ.top
  split_ifs with hq
  · rw [List.head?_eq_getElem?, h.node 0 hq]; rfl
  · rw [List.head?_eq_getElem?, List.getElem?_eq_none (by rw [h.len]; omega)]; rfl

theorem PQ.Ok.pos_lt {q : PQ S} (h : q.Ok) : ∀ v i, q.pos v = some i → i < q.size := by
  obtain ⟨m, hg⟩ := h
  exact fun u i hu => ((hg.rep.pos u (by simp) i).1 hu).1

namespace GMem

/-- The queue without a claim on the size of `position`. -/
abbrev QSim (m : QMem S) (q : PQ S) : Prop := QMem.Sim (fun _ => False) m q

/-- The vectors store the heuristic. -/
structure Sim (m : GMem S) (g : GVsids S) : Prop where
  row : ∀ ty : VType, Row ((m.vsids[ty.toNat]?).getD []) (g.num ty) fun o => g.score ⟨ty, o⟩
  inc : m.inc = g.inc
  vars : QSim m.vars g.vars
  eff : QSim m.eff g.eff

variable {m : GMem S} {g : GVsids S}

theorem Sim.cell (h : Sim m g) {v : Var} (hv : v.ord < g.num v.type) : TMem.cell m.vsids v = some (g.score v) := by
  have hr := h.row v.type
  unfold TMem.cell
  cases hp : m.vsids[v.type.toNat]? with
  | none =>
    rw [hp] at hr
    have := hr.length
    simp at this; omega
  | some row =>
    rw [hp] at hr
    show row[v.ord]? = _
    rw [show row[v.ord]? = _ from hr v.ord, if_pos hv]

theorem row_set {p : List (List S)} {num : VType → Nat} {f : Var → S}
    (h : ∀ ty : VType, Row ((p[ty.toNat]?).getD []) (num ty) fun o => f ⟨ty, o⟩) {v : Var} (hv : v.ord < num v.type) (s : S) :
    ∃ p', TMem.setCell p v s = some p' ∧
      ∀ ty : VType, Row ((p'[ty.toNat]?).getD []) (num ty) fun o => Function.update f v s ⟨ty, o⟩ := by
  have hr := h v.type
  unfold TMem.setCell
  cases hp : p[v.type.toNat]? with
  | none =>
    rw [hp] at hr
    have := hr.length
    simp at this; omega
  | some row =>
    rw [hp] at hr
    have hr' : Row row (num v.type) fun o => f ⟨v.type, o⟩ := hr
    simp only
    rw [if_pos (by rw [hr'.length]; simpa using hv)]
    refine ⟨_, rfl, fun ty => ?_⟩
    by_cases e : ty = v.type
    · subst e
      have hlt : v.type.toNat < p.length := by
        by_contra hn
        rw [List.getElem?_eq_none (by omega)] at hp; cases hp
      rw [List.getElem?_set_self hlt]
      refine hr'.set hv (by simp) fun k hk => Function.update_of_ne (fun e => hk ?_) _ _
      rw [← e]
    · rw [List.getElem?_set_ne (fun x => e (VType.toNat_inj x.symm))]
      refine (h ty).congr fun k _ => Function.update_of_ne (fun e' => e ?_) _ _
      rw [← e']

theorem row_map {p : List (List S)} {num : VType → Nat} {f : Var → S}
    (h : ∀ ty : VType, Row ((p[ty.toNat]?).getD []) (num ty) fun o => f ⟨ty, o⟩) (k : S → S) :
    ∀ ty : VType, Row (((p.map fun row => row.map k)[ty.toNat]?).getD []) (num ty) fun o => k (f ⟨ty, o⟩) := by
  intro ty o
  have := h ty o
  rw [List.getElem?_map]
  cases hp : p[ty.toNat]? with
  | none =>
    rw [hp] at this
    simp only [Option.getD_none, List.getElem?_nil] at this
    split_ifs at this with ho
    simp [ho]
  | some row =>
    rw [hp] at this
    simp only [Option.getD_some] at this
    simp only [Option.map_some, Option.getD_some, List.getElem?_map, this]
    split_ifs <;> rfl

theorem rescale_sim (h : Sim m g) : ∃ m', m.rescale = some m' ∧ Sim m' g.rescale := by
  obtain ⟨q, q1, q2⟩ := QMem.rescale_sim h.vars scale
  obtain ⟨e, e1, e2⟩ := QMem.rescale_sim h.eff scale
  unfold GMem.rescale
  rw [q1]
  simp only [Option.bind_some]
  rw [e1]
  exact ⟨_, rfl, ⟨row_map h.row scale, by simp only [GVsids.rescale, h.inc], q2, e2⟩⟩

theorem bumpVar_sim (h : Sim m g) (hq : g.QInv) {v : Var} (hv : v.ord < g.num v.type) :
    ∃ m', m.bumpVar v = some m' ∧ Sim m' (g.bumpVar v) := by
  unfold GMem.bumpVar GVsids.bumpVar
  rw [h.cell hv, h.inc]
  simp only
  obtain ⟨p, p1, p2⟩ := row_set h.row hv (add (g.score v) g.inc)
  rw [p1]
  simp only [Option.bind_some]
  split_ifs with hs
  · exact rescale_sim (g := { g with score := Function.update g.score v (add (g.score v) g.inc) })
      ⟨p2, rfl, h.vars, h.eff⟩
  · obtain ⟨q, q1, q2⟩ := QMem.update_sim h.vars hq.vars.pos_lt v (add (g.score v) g.inc)
    obtain ⟨e, e1, e2⟩ := QMem.update_sim h.eff hq.eff.pos_lt v (add (g.score v) g.inc)
    rw [q1]
    simp only [Option.bind_some]
    rw [e1]
    exact ⟨_, rfl, ⟨p2, rfl, q2, e2⟩⟩

/-- Loops of steps that keep the relation. -/
theorem foldlM_sim {α : Type} (f : GMem S → α → Option (GMem S)) (k : GVsids S → α → GVsids S) (num : VType → Nat)
    (P : α → Prop) (hs : ∀ g, g.QInv → ∀ a, GVsids.Same g (k g a))
    (hf : ∀ m g a, Sim m g → g.QInv → g.num = num → P a → ∃ m', f m a = some m' ∧ Sim m' (k g a)) :
    ∀ (l : List α) (m : GMem S) (g : GVsids S), Sim m g → g.QInv → g.num = num → (∀ a ∈ l, P a) →
      ∃ m', l.foldlM f m = some m' ∧ Sim m' (l.foldl k g)
  | [], m, _, h, _, _, _ => ⟨m, rfl, h⟩
  | a :: l, m, g, h, hq, hn, hP => by
    obtain ⟨m1, e1, e2⟩ := hf m g a h hq hn (hP a List.mem_cons_self)
    have s := hs g hq a
    obtain ⟨m2, f1, f2⟩ := foldlM_sim f k num P hs hf l m1 _ e2 s.inv (s.num.trans hn)
      fun b hb => hP b (List.mem_cons_of_mem _ hb)
    refine ⟨m2, ?_, f2⟩
    rw [List.foldlM_cons, e1]
    exact f1

/-- The variables of a clause and of its constraints are in range. -/
def InRange (num : VType → Nat) (cvars : Nat → List Nat) (c : Clause) : Prop :=
  ∀ l ∈ c, l.ord < num .boolean ∧ ∀ i ∈ cvars l.ord, i < num .rational

theorem bump_sim (cvars : Nat → List Nat) (h : Sim m g) (hq : g.QInv) {o : Nat} (ho : o < g.num .boolean)
    (hc : ∀ i ∈ cvars o, i < g.num .rational) : ∃ m', m.bump cvars o = some m' ∧ Sim m' (g.bump cvars o) := by
  unfold GMem.bump GVsids.bump
  obtain ⟨m1, e1, e2⟩ := bumpVar_sim h hq (v := .bool o) ho
  rw [e1]
  simp only [Option.bind_some]
  have s := GVsids.bumpVar_same hq (.bool o)
  exact foldlM_sim (fun m i => m.bumpVar (.rat i)) (fun g i => g.bumpVar (.rat i)) g.num (fun i => i < g.num .rational)
    (fun g hg a => GVsids.bumpVar_same hg _)
    (fun m g' a hm hg hn ha => bumpVar_sim hm hg (by rw [hn]; exact ha)) _ m1 _ e2 s.inv s.num hc

theorem onResolved_sim (cvars : Nat → List Nat) (h : Sim m g) (hq : g.QInv) {c : Clause} (hc : InRange g.num cvars c) :
    ∃ m', m.onResolved cvars c = some m' ∧ Sim m' (g.onResolved cvars c) :=
  foldlM_sim (fun m (l : Lit) => m.bump cvars l.ord) (fun g (l : Lit) => g.bump cvars l.ord) g.num
    (fun l => l.ord < g.num .boolean ∧ ∀ i ∈ cvars l.ord, i < g.num .rational)
    (fun g hg a => GVsids.bump_same cvars hg _)
    (fun m g' a hm hg hn ha => bump_sim cvars hm hg (by rw [hn]; exact ha.1) (by rw [hn]; exact ha.2)) _ m g h hq rfl hc

theorem onLearned_sim (cvars : Nat → List Nat) (h : Sim m g) (hq : g.QInv) {c : Clause} (hc : InRange g.num cvars c) :
    ∃ m', m.onLearned cvars c = some m' ∧ Sim m' (g.onLearned cvars c) := by
  obtain ⟨m1, e1, e2⟩ := onResolved_sim cvars h hq hc
  unfold GMem.onLearned GVsids.onLearned
  rw [e1]
  exact ⟨_, rfl, ⟨e2.row, by simp only [e2.inc], e2.vars, e2.eff⟩⟩

theorem onInit_sim (cvars : Nat → List Nat) (h : Sim m g) (hq : g.QInv) {cs : List Clause}
    (hc : ∀ c ∈ cs, InRange g.num cvars c) : ∃ m', m.onInit cvars cs = some m' ∧ Sim m' (g.onInit cvars cs) := by
  unfold GMem.onInit GVsids.onInit
  exact foldlM_sim (onResolved cvars) (GVsids.onResolved cvars) g.num (InRange g.num cvars)
    (fun g hg a => GVsids.onResolved_same cvars hg _)
    (fun m g' a hm hg hn ha => onResolved_sim cvars hm hg (by rw [hn]; exact ha)) _ _
    { g with score := fun _ => zero } ⟨row_map h.row fun _ => zero, h.inc, h.vars, h.eff⟩
    ⟨hq.vars, hq.eff, hq.varsRange, hq.effRange⟩ rfl hc

theorem pushNew_sim (ty : VType) : ∀ (k a : Nat) (m : QMem S) (q : PQ S), QSim m q → q.Ok →
    (∀ v, q.contains v = true → v.type = ty → v.ord < a) →
    ∃ m', (List.range' a k).foldlM (fun (q : QMem S) i => q.push ⟨ty, i⟩ zero) m = some m' ∧
      QSim m' ((List.range' a k).foldl (fun q i => q.push ⟨ty, i⟩ zero) q)
  | 0, _, m, _, h, _, _ => ⟨m, rfl, h⟩
  | k + 1, a, m, q, h, hq, hr => by
    have hv : q.contains ⟨ty, a⟩ = false := by
      by_contra hc
      have := hr ⟨ty, a⟩ (by simpa using hc) rfl
      simp at this
    obtain ⟨m1, e1, e2⟩ := QMem.push_sim h (v := ⟨ty, a⟩) (by simpa [PQ.contains] using hv) zero
    obtain ⟨h1, h2⟩ := PQ.push_ok hq ⟨ty, a⟩ zero hv
    obtain ⟨m2, f1, f2⟩ := pushNew_sim ty k (a + 1) m1 _ e2 h1 (by
      intro v hv hty
      rcases (h2 v).1 hv with rfl | hv
      · exact Nat.lt_succ_self _
      · have := hr v hv hty; omega)
    refine ⟨m2, ?_, f2⟩
    rw [List.range'_succ, List.foldlM_cons, e1]
    exact f1

theorem resize_sim (h : Sim m g) (hq : g.QInv) (ty : VType) (n : Nat) :
    ∃ m', m.resize ty n = some m' ∧ Sim m' (g.resize ty n) := by
  unfold GMem.resize
  simp only
  generalize hp : (if m.vsids.length ≤ ty.toNat then resizeL m.vsids (ty.toNat + 1) [] else m.vsids) = p
  have hlt : ty.toNat < p.length := by
    rw [← hp]
    split_ifs with e
    · rw [Rows.length_resizeL]; omega
    · omega
  have hget : ∀ ty' : VType, (p[ty'.toNat]?).getD [] = (m.vsids[ty'.toNat]?).getD [] := by
    intro ty'
    rw [← hp]
    split_ifs with e
    · by_cases hl : ty'.toNat < ty.toNat + 1
      · rw [Rows.resizeL_get (by omega) _ _ hl]
        split_ifs with e'
        · rfl
        · rw [List.getElem?_eq_none (by omega)]; rfl
      · rw [List.getElem?_eq_none (by rw [Rows.length_resizeL]; omega), List.getElem?_eq_none (by omega)]
    · rfl
  have hrow : ∀ ty' : VType, Row ((p[ty'.toNat]?).getD []) (g.num ty') fun o => g.score ⟨ty', o⟩ := fun ty' => by
    rw [hget]; exact h.row ty'
  have hr := hrow ty
  rw [List.getElem?_eq_getElem hlt] at hr ⊢
  have hr' : Row p[ty.toNat] (g.num ty) fun o => g.score ⟨ty, o⟩ := hr
  simp only
  rw [hr'.length]
  obtain ⟨q, q1, q2⟩ := pushNew_sim ty (n - g.num ty) (g.num ty) m.vars g.vars h.vars hq.vars (fun v hv hty => by
    have := hq.varsRange v hv; rw [hty] at this; exact this)
  rw [q1]
  refine ⟨_, rfl, ⟨fun ty' => ?_, h.inc, q2, h.eff⟩⟩
  by_cases e : ty' = ty
  · subst e
    rw [List.getElem?_set_self hlt]
    simp only [GVsids.resize, Function.update_self, Option.getD_some]
    refine (hr'.resize n zero).congr fun o _ => ?_
    by_cases ho : o < g.num ty' ∧ o < n
    · simp [ho]
    · simp [ho]
  · rw [List.getElem?_set_ne (fun x => e (VType.toNat_inj x.symm))]
    simp only [GVsids.resize, Function.update_of_ne e]
    exact (hrow ty').congr fun o _ => by simp [e]

theorem levelOf_eq {t : Trail R} {v : Var} (hv : v.ord < t.numVars v.type) : levelOf t v = some (t.level v) := by
  unfold levelOf
  rw [if_pos (by simpa using hv)]

theorem requeue_sim {t : Trail R} (ht : t.Inv) (lvl : Nat) : ∀ (as : List (Asg R)) (m : GMem S) (g : GVsids S), Sim m g →
    g.QInv → g.num = t.numVars → (∀ a ∈ as, t.level a.var ≠ none) →
    ∃ m', as.foldlM (requeue t lvl) m = some m' ∧ Sim m' (as.foldl (GVsids.requeue t lvl) g)
  | [], m, _, h, _, _, _ => ⟨m, rfl, h⟩
  | a :: as, m, g, h, hq, hn, ha => by
    obtain ⟨l, hl⟩ := Option.ne_none_iff_exists'.1 (ha a List.mem_cons_self)
    have hr := ht.range _ _ hl
    have h1 : ∃ m1, requeue t lvl m a = some m1 ∧ Sim m1 (GVsids.requeue t lvl g a) := by
      unfold GMem.requeue GVsids.requeue
      rw [QMem.contains_eq h.vars]
      by_cases hc : g.vars.contains a.var = true
      · rw [if_pos hc, if_neg (by simp [hc])]
        exact ⟨m, rfl, h⟩
      · rw [if_neg hc, levelOf_eq hr, hl]
        have hc' : g.vars.contains a.var = false := by simpa using hc
        simp only
        by_cases hlt : lvl < l
        · rw [if_pos hlt, if_pos (by simp [hc', hlt]), h.cell (by rw [hn]; exact hr)]
          simp only
          obtain ⟨q, q1, q2⟩ := QMem.push_sim h.vars (v := a.var) (by simpa [PQ.contains] using hc') (g.score a.var)
          rw [q1]
          exact ⟨_, rfl, ⟨h.row, h.inc, q2, h.eff⟩⟩
        · rw [if_neg hlt, if_neg (by simp [hlt])]
          exact ⟨m, rfl, h⟩
    obtain ⟨m1, e1, e2⟩ := h1
    obtain ⟨k1, k2, -, -⟩ := GVsids.requeue_ok hq ht hn lvl [a]
    obtain ⟨m2, f1, f2⟩ := requeue_sim ht lvl as m1 _ e2 k1 (k2.trans hn) fun b hb => ha b (List.mem_cons_of_mem _ hb)
    refine ⟨m2, ?_, f2⟩
    rw [List.foldlM_cons, e1]
    exact f1

theorem requeueAll_sim {t : Trail R} (ht : t.Inv) (lvl : Nat) : ∀ (ls : List (List (Asg R))) (m : GMem S) (g : GVsids S),
    Sim m g → g.QInv → g.num = t.numVars → (∀ as ∈ ls, ∀ a ∈ as, t.level a.var ≠ none) →
    ∃ m', ls.foldlM (fun m as => as.foldlM (requeue t lvl) m) m = some m' ∧
      Sim m' (ls.foldl (fun g as => as.foldl (GVsids.requeue t lvl) g) g)
  | [], m, _, h, _, _, _ => ⟨m, rfl, h⟩
  | as :: ls, m, g, h, hq, hn, ha => by
    obtain ⟨m1, e1, e2⟩ := requeue_sim ht lvl as m g h hq hn (ha as List.mem_cons_self)
    obtain ⟨k1, k2, -, -⟩ := GVsids.requeue_ok hq ht hn lvl as
    obtain ⟨m2, f1, f2⟩ := requeueAll_sim ht lvl ls m1 _ e2 k1 (k2.trans hn) fun b hb => ha b (List.mem_cons_of_mem _ hb)
    refine ⟨m2, ?_, f2⟩
    rw [List.foldlM_cons, e1]
    exact f1

theorem onBeforeBacktrack_sim (h : Sim m g) (hq : g.QInv) {t : Trail R} (ht : t.Inv) (hn : g.num = t.numVars) (lvl : Nat) :
    ∃ m', m.onBeforeBacktrack t lvl = some m' ∧ Sim m' (g.onBeforeBacktrack t lvl) := by
  refine requeueAll_sim ht lvl _ m g h hq hn fun as has a ha => ?_
  obtain ⟨i, -, rfl⟩ := List.mem_map.1 has
  rcases hx : t.levels[i]? with _ | xs
  · simp [Trail.assigned, List.getD_eq_getElem?_getD, hx] at ha
  · simp only [Trail.assigned, List.getD_eq_getElem?_getD, hx, Option.getD_some] at ha
    obtain ⟨l, h1, -⟩ := ht.listed i xs a hx ha
    rw [h1]; simp

theorem pushEff_sim : ∀ (l : List Nat) (m : GMem S) (g g' : GVsids S), Sim m g → (∀ i ∈ l, i < g.num .rational) →
    g.pushEff l = some g' → ∃ m', m.pushEff l = some m' ∧ Sim m' g'
  | [], m, g, g', h, _, he => by
    simp only [GVsids.pushEff, Option.some.injEq] at he
    subst he
    exact ⟨m, rfl, h⟩
  | i :: l, m, g, g', h, hl, he => by
    unfold GVsids.pushEff at he
    split at he
    · cases he
    · rename_i hc
      unfold GMem.pushEff
      rw [h.cell (v := .rat i) (hl i List.mem_cons_self)]
      simp only
      have hc' : g.eff.contains (.rat i) = false := by simpa using hc
      obtain ⟨e, e1, e2⟩ := QMem.push_sim h.eff (v := .rat i) (by simpa [PQ.contains] using hc') (g.score (.rat i))
      rw [e1]
      exact pushEff_sim l { m with eff := e } { g with eff := g.eff.push (.rat i) (g.score (.rat i)) } g' ⟨h.row, h.inc, h.vars, e2⟩
        (fun j hj => hl j (List.mem_cons_of_mem _ hj)) he

/-- A second push of an effectively decided variable fails. -/
theorem pushEff_none : ∀ (l : List Nat) (m : GMem S) (g : GVsids S), Sim m g → (∀ i ∈ l, i < g.num .rational) →
    g.pushEff l = none → m.pushEff l = none
  | [], m, g, h, _, he => by cases he
  | i :: l, m, g, h, hl, he => by
    unfold GMem.pushEff
    rw [h.cell (v := .rat i) (hl i List.mem_cons_self)]
    simp only
    unfold GVsids.pushEff at he
    split at he
    · rename_i hc
      rw [QMem.push_none h.eff (fun e => by simp [PQ.contains, e] at hc)]; rfl
    · rename_i hc
      have hc' : g.eff.contains (.rat i) = false := by simpa using hc
      obtain ⟨e, e1, e2⟩ := QMem.push_sim h.eff (v := .rat i) (by simpa [PQ.contains] using hc') (g.score (.rat i))
      rw [e1]
      exact pushEff_none l { m with eff := e } { g with eff := g.eff.push (.rat i) (g.score (.rat i)) } ⟨h.row, h.inc, h.vars, e2⟩
        (fun j hj => hl j (List.mem_cons_of_mem _ hj)) he

theorem popWhile_sim (p : Var → Option Bool) (p' : Var → Bool) : ∀ (n : Nat) (m : QMem S) (q : PQ S), QSim m q → q.Ok →
    q.size ≤ n → (∀ v, q.contains v = true → p v = some (p' v)) →
    ∃ m', popWhile p (n + 1) m = some m' ∧ QSim m' (GVsids.popWhile p' n q)
  | 0, m, q, h, _, hn, _ => by
    unfold popWhile GVsids.popWhile
    rw [QMem.top_eq h, if_neg (by omega)]
    exact ⟨m, rfl, h⟩
  | n + 1, m, q, h, hq, hn, hp => by
    unfold popWhile GVsids.popWhile
    rw [QMem.top_eq h]
    by_cases hs : 0 < q.size
    · rw [if_pos hs]
      simp only
      rw [hp _ (PQ.contains_top hq hs)]
      cases hv : p' q.top with
      | false =>
        rw [if_neg (by simp)]
        exact ⟨m, rfl, h⟩
      | true =>
        rw [if_pos ⟨hs, rfl⟩]
        simp only
        obtain ⟨m1, e1, e2⟩ := QMem.pop_sim h hs
        obtain ⟨h1, h2⟩ := PQ.pop_ok hq hs
        rw [e1]
        exact popWhile_sim p p' n m1 q.pop e2 h1 (by rw [PQ.pop_size]; omega) fun v hv => hp v ((h2 v).1 hv).2
    · rw [if_neg hs, if_neg (fun e => hs e.1)]
      exact ⟨m, rfl, h⟩

theorem pick_sim (h : Sim m g) (hq : g.QInv) {t : Trail R} (hn : g.num = t.numVars) {newEff : List Nat} {isEff : Nat → Bool}
    (hE : ∀ i ∈ newEff, i < t.rats.num) {g' : GVsids S} {r : Option Var} (hp : g.pick t newEff isEff = some (g', r)) :
    ∃ m', m.pick t newEff isEff = some (m', r) ∧ Sim m' g' := by
  have hE' : ∀ i ∈ newEff, i < g.num .rational := fun i hi => by rw [hn]; exact hE i hi
  unfold GVsids.pick at hp
  obtain ⟨g1, k1, k2⟩ := Option.map_eq_some_iff.1 hp
  obtain ⟨q1, q2, -⟩ := GVsids.pushEff_ok newEff hq hE' k1
  obtain ⟨m1, e1, e2⟩ := pushEff_sim newEff m g g1 h hE' k1
  have hn1 : g1.num = t.numVars := q2.trans hn
  unfold GMem.pick
  rw [e1]
  simp only [Option.bind_some]
  rw [e2.eff.len, e2.vars.len]
  obtain ⟨e, f1, f2⟩ := popWhile_sim (fun v => (levelOf t v).map fun l => l.isSome || !isEff v.ord)
    (fun v => (t.level v).isSome || !isEff v.ord) g1.eff.size m1.eff g1.eff e2.eff q1.eff (Nat.le_refl _)
    (fun v hv => by
      have := q1.effRange v hv
      rw [hn1] at this
      rw [levelOf_eq this]; rfl)
  rw [f1]
  simp only [Option.bind_some]
  rw [QMem.top_eq f2]
  simp only at k2
  by_cases hs : 0 < (GVsids.popWhile (fun v => (t.level v).isSome || !isEff v.ord) g1.eff.size g1.eff).size
  · rw [if_pos hs] at k2 ⊢
    obtain ⟨rfl, rfl⟩ := Prod.mk.inj k2
    exact ⟨_, rfl, ⟨e2.row, e2.inc, e2.vars, f2⟩⟩
  · rw [if_neg hs] at k2 ⊢
    simp only
    obtain ⟨q, j1, j2⟩ := popWhile_sim (fun v => (levelOf t v).map fun l => l.isSome)
      (fun v => (t.level v).isSome) g1.vars.size m1.vars g1.vars e2.vars q1.vars (Nat.le_refl _)
      (fun v hv => by
        have := q1.varsRange v hv
        rw [hn1] at this
        rw [levelOf_eq this]; rfl)
    rw [j1]
    obtain ⟨rfl, rfl⟩ := Prod.mk.inj k2
    refine ⟨{ m1 with eff := e, vars := q }, by rw [Option.map_some, QMem.top_eq j2], ⟨e2.row, e2.inc, j2, f2⟩⟩

theorem new_sim : Sim (new : GMem S) GVsids.new :=
  ⟨fun ty => Row.nil _, rfl, QMem.empty_sim _, QMem.empty_sim _⟩

end GMem
end Yaga
