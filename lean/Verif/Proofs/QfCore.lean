/-
The invariant of the check loop for QF_LRA that makes the answer `unsat` correct.
-/
import Verif.Model.QfLra
import Verif.Proofs.Check
import Verif.Proofs.LraTimely

set_option linter.unusedSectionVars false
set_option linter.unusedVariables false

namespace Yaga
open LinStore (Kept)
namespace Qf
open Spec BS Check

variable {hv : Nat → Nat} {hc : ℚ → Nat} {op : LaOpts} {S : LinStore} {A : List Clause}
  {b : Bool} {O : Type} {W : QOrder O} {Q : (Nat → ℚ) → Prop}

/-- Assignments in which the constraints have the truth values given by some rational values with `Q`. -/
def TheoryQ (Q : (Nat → ℚ) → Prop) (F : LinStore) (σ : Assignment) : Prop :=
  ∃ ρ : Nat → ℚ, Q ρ ∧ ∀ e ∈ F.set, litTrue σ e.lit ↔ LinTrue ρ (F.terms e) e.pred e.rhs

/-- Assignments in which the constraints have the truth values given by some rational values. -/
abbrev Theory (F : LinStore) : Assignment → Prop := TheoryQ (fun _ => True) F

/-- The state of the loop that began with the store `S` of the plugin for linear arithmetic, for any later
store `F`. -/
structure CoreQ (Q : (Nat → ℚ) → Prop) (hv : Nat → Nat) (hc : ℚ → Nat) (op : LaOpts) (S : LinStore) (A : List Clause) (b : Bool)
    (st : Yaga.Stage) (q : QS) : Prop where
  trail : q.la.trail = q.s.t
  reach : LA.Reach hv hc op True q.la st
  kept : Kept S q.la.store
  good : ∀ F : LinStore, F.Inv → Kept q.la.store F → Check.Good (TheoryQ Q F) A b q.s

/-- The state of the loop for QF_LRA. -/
abbrev Core (hv : Nat → Nat) (hc : ℚ → Nat) (op : LaOpts) (S : LinStore) (A : List Clause) (b : Bool)
    (st : Yaga.Stage) (q : QS) : Prop := CoreQ (fun _ => True) hv hc op S A b st q

/-- What the conflict clauses are. -/
abbrev Confl (Q : (Nat → ℚ) → Prop) (A : List Clause) (q : QS) (cs : List Clause) : Prop :=
  ∀ c ∈ cs, (∀ l ∈ c, evalLit q.s.t.bools l = some false) ∧
    ∀ F : LinStore, F.Inv → Kept q.la.store F → Ent (TheoryQ Q F) A c

theorem withTrail_self {la : LA Nat} {t : Trail Nat} (h : la.trail = t) : withTrail la t = la := by
  subst h; rfl

/-! ### The Boolean plugin -/

theorem assigns_reach {st : Yaga.Stage} {la : LA Nat} (h : LA.Reach hv hc op True la st)
    (hs : st = .settled ∨ st = .changed) {t0 t : Trail Nat} (ha : Assigns t0 t) (ht : la.trail = t0) :
    ∃ st', (st' = .settled ∨ st' = .changed) ∧ LA.Reach hv hc op True (withTrail la t) st' := by
  induction ha with
  | refl => exact ⟨st, hs, by rw [withTrail_self ht]; exact h⟩
  | step h1 hn hu ih =>
    rename_i t1 l r
    obtain ⟨st', hs', hr⟩ := ih
    exact ⟨.changed, Or.inr rfl, LA.Reach.setBool hr hs' l.ord (!l.isNeg) (some r) t1.decisionLevel hn hu
      (le_refl _) fun _ => Or.inl rfl⟩

theorem foldl_push_nonbool (as : List (Asg Nat)) (s : BS) (h : ∀ a ∈ as, a.var.type ≠ .boolean) :
    as.foldl pushAssigned s = s := by
  induction as generalizing s with
  | nil => rfl
  | cons a as ih =>
    rw [List.foldl_cons]
    have : pushAssigned s a = s := by
      unfold pushAssigned; rw [if_neg (h a (by simp))]
    rw [this]
    exact ih s fun x hx => h x (by simp [hx])

/-- Nothing to do for the Boolean plugin right after a decision of a rational variable. -/
theorem propagates_idle {s s' : BS} {c : Option Clause} (he : s.t.isEmpty = false)
    (hn : ∀ a ∈ s.t.assigned s.t.decisionLevel, a.var.type ≠ .boolean) (h : Propagates s c s') :
    c = none ∧ s'.t = s.t := by
  obtain ⟨fuel, hf⟩ := h
  have hi : s.initProp.sat = [] ∧ s.initProp.t = s.t := by
    unfold initProp
    simp only [he, Bool.false_eq_true, if_false]
    rw [foldl_push_nonbool]
    · exact ⟨rfl, rfl⟩
    · intro a ha
      exact hn a (List.mem_of_mem_drop ha)
  rcases fuel with _ | fuel
  · cases hf
  · unfold propLoop at hf
    rw [hi.1] at hf
    simp only [Option.some.injEq, Prod.mk.injEq] at hf
    exact ⟨hf.1.symm, by rw [← hf.2]; exact hi.2⟩

theorem core_bool {st : Yaga.Stage} {q : QS} (h : CoreQ Q hv hc op S A b st q) (hs : st ≠ .conflict) {s' : BS}
    {c : Option Clause} (hp : Propagates q.s c s') :
    ∃ st', st' ≠ .conflict ∧ CoreQ Q hv hc op S A true st' ⟨s', withTrail q.la s'.t⟩ ∧
      s'.t.decisionLevel = q.s.t.decisionLevel ∧
      (∀ i, q.s.t.assigned i <+: s'.t.assigned i) ∧
      ∀ c', c = some c' → (∀ l ∈ c', evalLit s'.t.bools l = some false) ∧ c' ∈ s'.cls := by
  obtain ⟨w, hg⟩ := h.reach.good
  have hI : q.la.store.Inv := hg.keep.base.inv
  have h0 := h.good _ hI (Kept.refl _)
  obtain ⟨g1, g2, g3⟩ := good_propagates h0 hp
  have hgood : ∀ F : LinStore, F.Inv → Kept q.la.store F → Check.Good (TheoryQ Q F) A true s' :=
    fun F hF hK => (good_propagates (h.good F hF hK) hp).1
  obtain ⟨s0, _, hst, _, _, _, _, _, hext, _⟩ := propagates_spec (Q := fun _ => False) h0.base.inv h0.base.db
    (fun he => h0.base.ws (Or.inr he)) (by simp) (by simp) hp
  have hl : ∀ i, q.s.t.assigned i <+: s'.t.assigned i := by rw [← hst]; exact hext.lists
  by_cases hd : st = .decided
  · obtain ⟨x, hx⟩ := Option.isSome_iff_exists.mp (hg.dec.mp hd)
    obtain ⟨k1, k2, k3⟩ := hg.last x hx
    have hne : q.s.t.isEmpty = false := by
      refine isEmpty_setValue_false h0.base.inv (v := ⟨.rational, x⟩) (k := q.la.trail.decisionLevel) ?_
      rw [← h.trail]; exact k2
    obtain ⟨e1, e2⟩ := propagates_idle hne (by
      rw [← h.trail, k1]
      intro a ha
      simp only [List.mem_singleton] at ha
      subst ha; simp) hp
    refine ⟨st, hs, ⟨rfl, ?_, h.kept, hgood⟩, g3, hl, g2⟩
    rw [withTrail_self (by rw [h.trail, e2])]
    exact h.reach
  · have hs' : st = .settled ∨ st = .changed := by
      cases st <;> simp_all
    obtain ⟨st', h1, h2⟩ := assigns_reach h.reach hs' (t0 := s0.t) (t := s'.t) hext.steps (by rw [h.trail, hst])
    exact ⟨st', by rcases h1 with rfl | rfl <;> rintro ⟨⟩, ⟨rfl, h2, h.kept, hgood⟩, g3, hl, g2⟩

/-! ### The plugin for linear arithmetic -/

theorem ws_follow {s : BS} {la : LA Nat} (h : WS s) (hn : s.t.bools.num ≤ la.trail.bools.num) : WS (follow s la) :=
  ws_congr (resizeBool_ws h hn).1 rfl rfl rfl

theorem frame_grow {la la' : LA Nat} {X Y X' Y' Lf Lf'} (h : LA.Keep hv hc la X Y Lf)
    (h' : LA.Keep hv hc la' X' Y' Lf') (hf : LA.Frame la la') : Grow la.trail la'.trail where
  inv := h'.base.tinv
  lists i := by obtain ⟨e, he⟩ := hf.asg i; exact ⟨e, he.symm⟩
  old := hf.lvl
  keep _ _ := hf.evalLit h h'

/-- The plugin for linear arithmetic assigns nothing at level 0. -/
theorem frame_pos {la la' : LA Nat} {X' Y' Lf'} (h' : LA.Keep hv hc la' X' Y' Lf') (hf : LA.Frame la la') {v : Var}
    {l : Nat} (h1 : la.trail.level v = none) (h2 : la'.trail.level v = some l) : 0 < l := by
  obtain ⟨_, e, he, _, hp⟩ := hf.late v l h1 h2
  obtain ⟨p, ps, hps⟩ := List.exists_cons_of_ne_nil (h'.base.ne e he)
  obtain ⟨k, hk, hl⟩ := hp p (by rw [hps]; simp)
  obtain ⟨xs, hx, a, ha, e1⟩ := h'.base.tinv.own _ _ hl
  have := (h'.base.rat k xs a hx ha (by rw [e1])).2.1
  omega

/-- A clause that holds for all rational values is entailed. -/
theorem ent_of_valid {s F : LinStore} (hI : s.Inv) (hF : F.Inv) (hK : Kept s F) {cl : Clause}
    (hv : ∀ σ, ∃ l ∈ cl, LitMeans s l σ) (hr : ∀ l ∈ cl, ∃ c, IsCons s c ∧ c.lit.ord = l.ord) :
    Ent (TheoryQ Q F) A cl := by
  rintro σ ⟨ρ, -, hρ⟩ _
  obtain ⟨l, hl, hm⟩ := hv ρ
  refine ⟨l, hl, ?_⟩
  obtain ⟨c, ⟨e, he, hce⟩, ho⟩ := hr l hl
  have heo : e.lit.ord = l.ord := by rw [← ho]; rcases hce with rfl | rfl <;> simp [LinCons.neg]
  obtain ⟨k, hk, _⟩ := hI.idx e he
  obtain ⟨m1, m2, m3⟩ := LinStore.litMeans_of_mem hI he ρ
  have hl1 : l.ord = k := by rw [← heo, hk]; simp
  have key := hρ e (hK.set e he)
  rw [LinStore.linTrue_perm (hK.terms e he), hk] at key
  have key : σ k = true ↔ LinTrue ρ (s.terms e) e.pred e.rhs := by
    rw [← key]; simp [litTrue, Lit.isNeg_pos, Lit.ord_pos]
  unfold LitMeans at hm
  have hget := LinStore.get_of_mem hI he
  rw [heo] at hget
  rw [hget, ← key] at hm
  unfold litTrue
  rw [hl1]
  rcases hm with ⟨h1, h2⟩ | ⟨h1, h2⟩ <;> rw [h1] <;> simpa using h2

/-- A theory has changed the plugin for linear arithmetic as the plugin itself does it. -/
theorem core_frame {st st' : Yaga.Stage} {s : BS} {la la0 : LA Nat} (h : CoreQ Q hv hc op S A true st ⟨s, la⟩)
    (h0 : la0.trail = la.trail ∧ la0.store = la.store) {la' : LA Nat} (hr : LA.Reach hv hc op True la' st')
    {w' : Option Nat} (g1 : LA.Good hv hc la' st' w') (g2 : LA.Frame la0 la') :
    CoreQ Q hv hc op S A true st' ⟨follow s la', la'⟩ ∧ Grow s.t la'.trail := by
  obtain ⟨w, hg⟩ := h.reach.good
  simp only at hg
  have ht : la0.trail = s.t := h0.1.trans h.trail
  have hgr : Grow la0.trail la'.trail := by
    refine ⟨g1.keep.base.tinv, fun i => by obtain ⟨e, he⟩ := g2.asg i; exact ⟨e, he.symm⟩, g2.lvl, ?_⟩
    intro m v hm
    unfold evalLit at hm ⊢
    by_cases hd : la0.trail.bools.defined m.ord = true
    · rw [if_pos hd] at hm
      obtain ⟨k, hk⟩ := ((show la0.trail.Inv by rw [h0.1]; exact hg.keep.base.tinv).defined ⟨.boolean, m.ord⟩).mp hd
      have hd' : la'.trail.bools.defined m.ord = true :=
        (g1.keep.base.tinv.defined ⟨.boolean, m.ord⟩).mpr ⟨k, g2.lvl _ _ hk⟩
      rw [if_pos hd', g2.bval _ _ hk]; exact hm
    · rw [if_neg hd] at hm
      cases hm
  have hK0 : Kept la.store la'.store := by rw [← h0.2]; exact g2.kept
  refine ⟨⟨rfl, hr, h.kept.trans hK0, ?_⟩, by rw [← ht]; exact hgr⟩
  intro F hF hK
  have hG := h.good F hF (hK0.trans hK)
  refine good_grow hG (Base.mk' hgr.inv (ws_follow (hG.base.ws (Or.inl rfl)) ?_)) rfl ?_ ?_ ?_ ?_
  · show s.t.bools.num ≤ _
    rw [← ht]; exact g2.num
  · show Grow s.t la'.trail
    rw [← ht]; exact hgr
  · intro v r hv
    rw [show s.t = la0.trail from ht.symm]
    exact (g2.rsn v).symm.trans hv
  · intro l _ h0 hn
    have := frame_pos g1.keep g2 (v := l.var) (by rw [← hn]; exact congrArg (fun t => Trail.level t l.var) ht) h0
    omega
  · intro v k _
    rw [show s.t = la0.trail from ht.symm]
    exact g2.rsn v

theorem core_lra {st : Yaga.Stage} {s : BS} {la : LA Nat} (h : CoreQ Q hv hc op S A true st ⟨s, la⟩)
    (hs : st ≠ .conflict) {la' : LA Nat} {cs : List Clause} (hp : la.propagate hv hc op = (la', cs)) :
    CoreQ Q hv hc op S A true (if cs ≠ [] then .conflict else if la'.nextIndex =
        (la'.trail.assigned la'.trail.decisionLevel).length then .settled else .changed) ⟨follow s la', la'⟩ ∧
      la'.trail.decisionLevel = s.t.decisionLevel ∧
      la'.nextIndex = (s.t.assigned s.t.decisionLevel).length ∧
      (∀ i, s.t.assigned i <+: la'.trail.assigned i) ∧
      ∀ c ∈ cs, (∀ l ∈ c, evalLit la'.trail.bools l = some false) ∧
        ∀ F : LinStore, F.Inv → Kept la'.store F → Ent (TheoryQ Q F) A c := by
  obtain ⟨w, hg⟩ := h.reach.good
  have hr := LA.Reach.propagate h.reach hs
  obtain ⟨g1, g2, g3⟩ := hg.propagate (o := op)
  simp only at hg g1 g2 g3 hr
  rw [hp] at g1 g2 g3 hr
  have ht : la.trail = s.t := h.trail
  obtain ⟨k1, k2⟩ := core_frame h (la0 := la.takeAssigned.1) ⟨rfl, rfl⟩ hr g1 g2
  refine ⟨k1, by rw [← ht]; exact g2.dl, by rw [← ht]; exact g2.nxt, k2.lists, ?_⟩
  intro c hcm
  have hR := g3 c hcm
  exact ⟨hR.false, fun F hF hK => ent_of_valid g1.keep.base.inv hF hK hR.valid hR.real⟩

/-- What `propagate` of the theories establishes. -/
theorem core_prop {q q' : QS} {cs : List Clause} (hp : QProp hv hc op q cs q') :
    ∀ {b : Bool} {st : Yaga.Stage}, CoreQ Q hv hc op S A b st q → st ≠ .conflict →
    ∃ st', CoreQ Q hv hc op S A true st' q' ∧ (cs = [] → st' = .settled) ∧
      ∀ c ∈ cs, (∀ l ∈ c, evalLit q'.s.t.bools l = some false) ∧
        ∀ F : LinStore, F.Inv → Kept q'.la.store F → Ent (TheoryQ Q F) A c := by
  induction hp with
  | boolConflict h =>
    intro b st hC hs
    obtain ⟨st', _, h2, _, _, h4⟩ := core_bool hC hs h
    refine ⟨st', h2, by simp, ?_⟩
    intro c hc
    simp only [List.mem_singleton] at hc
    subst hc
    obtain ⟨k1, k2⟩ := h4 _ rfl
    exact ⟨k1, fun F hF hK => (h2.good F hF hK).ent _ k2⟩
  | lraConflict h hp hne =>
    intro b st hC hs
    obtain ⟨st', h1, h2, _⟩ := core_bool hC hs h
    obtain ⟨k1, _, _, _, k2⟩ := core_lra h2 h1 hp
    exact ⟨_, k1, fun e => absurd e hne, k2⟩
  | done h hp hz =>
    rename_i s la
    intro b st hC hs
    obtain ⟨st', h1, h2, h3, h4, _⟩ := core_bool hC hs h
    obtain ⟨k1, k3, k4, k5, k2⟩ := core_lra h2 h1 hp
    refine ⟨_, k1, fun _ => ?_, k2⟩
    rw [if_neg (by simp), if_pos]
    rw [k4, k3]
    have l1 := (h4 s.t.decisionLevel).length_le
    have l2 := (k5 s.t.decisionLevel).length_le
    unfold recentSize at hz
    rw [k3, ← h3] at hz
    omega
  | again h hp hz hr ih =>
    intro b st hC hs
    obtain ⟨st', h1, h2, _⟩ := core_bool hC hs h
    obtain ⟨k1, _⟩ := core_lra h2 h1 hp
    exact ih k1 (by simp; split <;> simp)

end Qf
end Yaga
