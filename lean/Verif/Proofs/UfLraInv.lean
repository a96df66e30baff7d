/-
Invariant of the solver for QF_UFLRA.
-/
import Verif.Proofs.UfLraCalls
import Verif.Proofs.QfScript
import Verif.Proofs.LraDomain
import Verif.Proofs.QfModel
import Verif.Proofs.UfSat
import Verif.Model.UfLra

namespace Yaga
namespace Ufl
open Spec BS Check TermTable Internalizer
open Qf (CoreQ TheoryQ BoolOk BoolInv)

variable {E : Env} {H : TermHash} {I : Interp} {A : List Clause} {b : Bool} {O : Type} {W : QOrder O}

/-- The values of the rational variables are those of their terms in the interpretation. -/
def Fits (E : Env) (I : Interp) (r : Nat → ℚ) : Prop := ∀ p ∈ E.st.ratVars, r p.2 = denQ I E.s p.1

/-- What is known of the script. -/
structure Ok (H : TermHash) (E : Env) : Prop where
  wf : WF H E.s
  iinv : IInv E.s E.st
  one : OneVar E.s

/-- Invariant of the three plugins. -/
structure Inv (E : Env) (I : Interp) (A : List Clause) (b : Bool) (stg : Yaga.Stage) (d : Bool) (x : US) : Prop where
  core : CoreQ (Fits E I) E.cfg.hv E.cfg.hc E.op E.st.store A b stg x.q
  num : x.q.la.trail.rats.num = E.st.numRat
  uf : UF.Inv E.s E.st (view E.st x.q.la x.f) d

theorem kept_len {S T : LinStore} (h : LinStore.Kept S T) : S.cons.length ≤ T.cons.length := by
  rcases Nat.lt_or_ge T.cons.length S.cons.length with hlt | hge
  · have h1 := h.cons T.cons.length _ (List.getElem?_eq_getElem hlt)
    have h2 := (List.getElem?_eq_some_iff.mp h1).1
    omega
  · exact hge

/-- What the plugin for functions relies on. -/
theorem view_base (hI : IInv E.s E.st) {la : LA Nat} {stg : Yaga.Stage}
    (hr : LA.Reach E.cfg.hv E.cfg.hc E.op True la stg) (hK : LinStore.Kept E.st.store la.store)
    (hn : la.trail.rats.num = E.st.numRat) (f : FS) : UF.Base E.s E.st.ratVars (view E.st la f) := by
  obtain ⟨w, hg⟩ := hr.good
  have hB := hg.keep.base
  refine ⟨⟨hB.inv, hB.linv.len, hB.ne, ?_, ?_, hI.ratOrds, hI.rat, ?_⟩, rfl, rfl, hB.tinv, rfl, hn, ?_, ?_⟩
  · intro c hc p hp
    show p.1 < E.st.numRat
    rw [← hn]; exact hr.dom c hc p hp
  · intro c hc; cases hc
  · intro p hp
    obtain ⟨h1, h2⟩ := hI.bool p hp
    refine ⟨h1, ?_⟩
    show p.2.ord < la.trail.bools.num
    have h3 : la.store.cons.length = la.trail.bools.num := hB.linv.len
    have := kept_len hK
    rw [hI.num] at this
    omega
  · intro n l hl
    obtain ⟨xs, hx, a, ha, e1⟩ := hB.tinv.own _ _ hl
    exact (hB.rat l xs a hx ha (by rw [e1])).2.1
  · intro i xs a h1 h2 h3
    exact (hB.rat i xs a h1 h2 h3).1

theorem levels_length {t t' : Trail Nat} (h : t.Inv) (h' : t'.Inv) (hd : t'.decisionLevel = t.decisionLevel) :
    t'.levels.length = t.levels.length := by
  have h1 := List.length_pos_of_ne_nil h.nonempty
  have h2 := List.length_pos_of_ne_nil h'.nonempty
  unfold Trail.decisionLevel at hd
  omega

theorem ratSame_frame {st : IState} {la la0 la' : LA Nat} (h0 : la0.trail = la.trail) (hi : la.trail.Inv)
    (hi' : la'.trail.Inv) (hf : LA.Frame la0 la') (f : FS) : UF.RatSame (view st la f) (view st la' f) :=
  ⟨rfl, rfl, levels_length hi hi' (by
      show la'.trail.decisionLevel = la.trail.decisionLevel
      rw [← h0]; exact hf.dl), fun n => by
      have := hf.lev n
      unfold LA.lev at this
      rw [h0] at this
      exact this, by
      show la'.trail.rats.value = la.trail.rats.value
      rw [hf.rats, h0], rfl⟩

theorem assigns_same {t t' : Trail Nat} (h : Assigns t t') :
    (∀ n, t'.level (Var.rat n) = t.level (Var.rat n)) ∧ t'.levels.length = t.levels.length := by
  induction h with
  | refl => exact ⟨fun _ => rfl, rfl⟩
  | @step t1 l r h hn hu ih =>
    refine ⟨fun n => ?_, ?_⟩
    · rw [← ih.1 n]
      show Function.update t1.level l.var (some t1.decisionLevel) (Var.rat n) = _
      rw [Function.update_of_ne (by intro h; have := congrArg Var.type h; simp [Lit.var] at this)]
    · rw [← ih.2]
      show (Trail.pushFrom _ _ t1.levels).length = _
      exact Trail.length_pushFrom _ _ _

theorem ratSame_assigns {st : IState} {la la' : LA Nat} (h : Assigns la.trail la'.trail) (f : FS) :
    UF.RatSame (view st la f) (view st la' f) :=
  ⟨rfl, rfl, (assigns_same h).2, (assigns_same h).1, by
    show la'.trail.rats.value = la.trail.rats.value
    rw [Qf.assigns_rats h], rfl⟩

/-- A step that keeps the rational part of the trail. -/
theorem uf_same (hO : Ok H E) {la la' : LA Nat} {f : FS} {d : Bool} {stg : Yaga.Stage}
    (h : UF.Inv E.s E.st (view E.st la f) d) (hr : LA.Reach E.cfg.hv E.cfg.hc E.op True la' stg)
    (hK : LinStore.Kept E.st.store la'.store) (hn : la'.trail.rats.num = E.st.numRat)
    (hs : UF.RatSame (view E.st la f) (view E.st la' f)) : UF.Inv E.s E.st (view E.st la' f) d :=
  h.same (view_base hO.iinv hr hK hn f) hs

/-! ### `propagate` -/

theorem inv_bool (hO : Ok H E) {stg : Yaga.Stage} {d : Bool} {x : US} (h : Inv E I A b stg d x) (hs : stg ≠ .conflict)
    {s' : BS} {c : Option Clause} (hp : Propagates x.q.s c s') :
    ∃ stg', stg' ≠ .conflict ∧ Inv E I A true stg' d ⟨⟨s', Qf.withTrail x.q.la s'.t⟩, x.f⟩ ∧
      s'.t.decisionLevel = x.q.s.t.decisionLevel ∧
      (∀ i, x.q.s.t.assigned i <+: s'.t.assigned i) ∧
      ∀ c', c = some c' → (∀ l ∈ c', evalLit s'.t.bools l = some false) ∧ c' ∈ s'.cls := by
  obtain ⟨stg', h1, h2, h3⟩ := Qf.core_bool h.core hs hp
  obtain ⟨w, hg⟩ := h.core.reach.good
  have hG := h.core.good _ hg.keep.base.inv (LinStore.Kept.refl _)
  obtain ⟨s0, a1, a2, a3, -, -, -, -, hx, -⟩ := propagates_spec (Q := fun _ => False)
    hG.base.inv hG.base.db (fun h' => hG.base.ws (Or.inr h')) (by simp) (by simp) hp
  have ha : Assigns x.q.la.trail s'.t := by rw [h.core.trail, ← a2]; exact hx.steps
  have hn : s'.t.rats.num = E.st.numRat := by rw [Qf.assigns_rats ha]; exact h.num
  exact ⟨stg', h1, ⟨h2, hn, uf_same hO h.uf h2.reach h2.kept hn (ratSame_assigns ha x.f)⟩, h3⟩

/-- What `propagate` of the plugin for linear arithmetic changes. -/
theorem lra_frame {hv : Nat → Nat} {hc : ℚ → Nat} {op : LaOpts} {la la' : LA Nat} {stg : Yaga.Stage}
    (h : LA.Reach hv hc op True la stg) (hs : stg ≠ .conflict) {cs : List Clause} (hp : la.propagate hv hc op = (la', cs)) :
    ∃ w, LA.Reach hv hc op True la' (if cs ≠ [] then .conflict else if la'.nextIndex =
        (la'.trail.assigned la'.trail.decisionLevel).length then .settled else .changed) ∧
      LA.Good hv hc la' (if cs ≠ [] then .conflict else if la'.nextIndex =
        (la'.trail.assigned la'.trail.decisionLevel).length then .settled else .changed) w ∧
      LA.Frame la.takeAssigned.1 la' := by
  obtain ⟨w, hg⟩ := h.good
  have hr := LA.Reach.propagate h hs
  obtain ⟨g1, g2, g3⟩ := hg.propagate (o := op)
  rw [hp] at g1 g2 g3 hr
  exact ⟨_, hr, g1, g2⟩

/-- The values of the constraints are those the plugin for functions relies on. -/
theorem view_consistent {stg : Yaga.Stage} {la : LA Nat} (hr : LA.Reach E.cfg.hv E.cfg.hc E.op True la stg) (f : FS) :
    UF.Consistent (view E.st la f) := by
  obtain ⟨w, hg⟩ := hr.good
  have hB := hg.keep.base
  intro k hk ht hd
  obtain ⟨g1, g2, g3⟩ := get_mem_of_terms hB.inv ht
  have h1 := hg.keep.sem.vals _ ⟨_, g1, .inl rfl⟩ (fun p hp => by
    obtain ⟨l, hl⟩ := Option.isSome_iff_exists.mp (hd p hp)
    exact (hB.tinv.defined (Var.rat p.1)).mpr ⟨l, hl⟩)
  obtain ⟨l, hl⟩ := Option.isSome_iff_exists.mp hk
  have hdef : la.trail.bools.defined k = true := (hB.tinv.defined (Var.bool k)).mpr ⟨l, hl⟩
  have h2 := h1 (la.trail.bools.value k) (by
    rw [g2]
    unfold evalLit
    rw [LinStore.Lit.pos_ord, LinStore.Lit.pos_isNeg]
    show (if la.trail.bools.defined k = true then _ else _) = _
    rw [if_pos hdef]
    simp [LA.mods])
  show la.trail.bools.value k = true ↔ _
  rw [h2]
  simp [ConsTrue, g2]
  rfl

/-- A clause that holds in all interpretations is entailed. -/
theorem ent_of_valid {s : TermTable} {u : UF Nat} (hB : UF.Base s E.st.ratVars u) (hs : E.s = s) {c : Clause}
    (hv : UF.Valid s E.st.ratVars u.ist c) {F : LinStore} (hK : LinStore.Kept u.ist.store F) :
    Ent (TheoryQ (Fits E I) F) A c := by
  subst hs
  rintro σ ⟨ρ, hQ, hρ⟩ _
  refine hv I σ ρ ⟨?_, fun k hk => ?_⟩ hQ
  · rw [hB.cls]; intro c hc; cases hc
  · obtain ⟨g1, g2, g3⟩ := get_mem_of_terms hB.iinv.store hk
    have := hρ _ (hK.set _ g1)
    rw [LinStore.linTrue_perm (hK.terms _ g1), g2, litTrue_pos] at this
    exact this

/-- The call of `propagate` of the plugin for functions. -/
theorem uf_call (hO : Ok H E) {stg : Yaga.Stage} {d : Bool} {la : LA Nat} {f : FS}
    (hr : LA.Reach E.cfg.hv E.cfg.hc E.op True la stg) (hs : stg = .settled ∨ stg = .changed)
    (h : UF.Inv E.s E.st (view E.st la f) d) {u : UF Nat} {cs : List Clause}
    (hu : UF.propagate E.cfg E.s (view E.st la f) = some (u, cs)) :
    UF.Inv E.s E.st (view E.st (absorb la u) (.of u)) cs.isEmpty ∧ (cs = [] → absorb la u = la) ∧
    (∃ stg', (stg' = .settled ∨ stg' = .changed) ∧ LA.Reach E.cfg.hv E.cfg.hc E.op True (absorb la u) stg' ∧
      LA.Frame la (absorb la u)) ∧
    ∀ c ∈ cs, (∀ l ∈ c, evalLit u.trail.bools l = some false) ∧
      ∀ F : LinStore, F.Inv → LinStore.Kept u.ist.store F → Ent (TheoryQ (Fits E I) F) A c := by
  obtain ⟨u', cs', e, hP, hI⟩ := UF.propagate_spec hO.wf (cfg := E.cfg) h
  rw [hu] at e
  simp only [Option.some.injEq, Prod.mk.injEq] at e
  obtain ⟨rfl, rfl⟩ := e
  have hview : view E.st (absorb la u) (.of u) = u := by
    have h1 := hP.calls.ist
    have h2 := hP.base.bools
    obtain ⟨ist, tr, wt, fns, lw⟩ := u
    simp only [view, absorb, FS.of, UF.mk.injEq, and_self, and_true]
    simp only at h1 h2
    rw [h1, h2]
    rfl
  refine ⟨by rw [hview]; exact hI, fun hc => ?_, ?_, fun c hc => ?_⟩
  · obtain ⟨h1, h2⟩ := hP.quiet hc
    have e1 : u.trail = la.trail := congrArg LA.trail h2
    have e2 : u.ist.store = la.store := congrArg LA.store h2
    have e3 : u.lraWatch = la.watched := congrArg LA.watched h2
    unfold absorb
    rw [e1, e2, e3]
  · obtain ⟨stg', h1, h2, h3⟩ := derived_reach hO.one hP.calls.derived la (op := E.op) (st := stg) hr hs
    exact ⟨stg', h1, h2, h3⟩
  · obtain ⟨_, h2⟩ := hP.consistent (view_consistent hr f)
    refine ⟨h2 (by intro c hc; cases hc) c hc, fun F _ hK => ?_⟩
    exact ent_of_valid hP.base rfl (hP.valid (by intro c hc; cases hc) c hc) hK

/-- The state after the Boolean plugin and the plugin for linear arithmetic. -/
theorem inv_lra (hO : Ok H E) {stg : Yaga.Stage} {d : Bool} {s : BS} {la : LA Nat} {f : FS}
    (h : Inv E I A true stg d ⟨⟨s, la⟩, f⟩) {la' : LA Nat} {stg' : Yaga.Stage} {w : Option Nat}
    (hr : LA.Reach E.cfg.hv E.cfg.hc E.op True la' stg') (hg : LA.Good E.cfg.hv E.cfg.hc la' stg' w)
    (hf : LA.Frame la.takeAssigned.1 la') : Inv E I A true stg' d ⟨⟨Qf.follow s la', la'⟩, f⟩ := by
  obtain ⟨k1, _⟩ := Qf.core_frame h.core (la0 := la.takeAssigned.1) ⟨rfl, rfl⟩ hr hg hf
  obtain ⟨w0, hg0⟩ := h.core.reach.good
  have hn : la'.trail.rats.num = E.st.numRat := by rw [hf.rats]; exact h.num
  exact ⟨k1, hn, uf_same hO h.uf hr k1.kept hn
    (ratSame_frame (la0 := la.takeAssigned.1) rfl hg0.keep.base.tinv hg.keep.base.tinv hf f)⟩

/-- What `propagate` of the theories establishes. -/
theorem inv_prop (hO : Ok H E) {x x' : US} {cs : List Clause} (hp : UProp E x cs x') :
    ∀ {b : Bool} {stg : Yaga.Stage} {d : Bool}, Inv E I A b stg d x → stg ≠ .conflict →
    ∃ stg' d', Inv E I A true stg' d' x' ∧ (cs = [] → stg' = .settled ∧ d' = true) ∧
      (∀ c ∈ cs, (∀ l ∈ c, evalLit x'.q.s.t.bools l = some false) ∧
        ∀ F : LinStore, F.Inv → LinStore.Kept x'.q.la.store F → Ent (TheoryQ (Fits E I) F) A c) ∧
      (BoolInv A x.q.s → BoolOk A (if cs = [] then .complete else .conflict) x'.q.s) := by
  induction hp with
  | @boolConflict x s c h =>
    intro b stg d hI hs
    obtain ⟨stg', _, h2, _, _, h4⟩ := inv_bool hO hI hs h
    refine ⟨stg', d, h2, by simp, ?_, fun hB => ?_⟩
    · intro c' hc
      simp only [List.mem_singleton] at hc
      subst hc
      obtain ⟨k1, k2⟩ := h4 _ rfl
      exact ⟨k1, fun F hF hK => (h2.core.good F hF hK).ent _ k2⟩
    · obtain ⟨w, hg⟩ := hI.core.reach.good
      exact Qf.bool_propagates (hI.core.good _ hg.keep.base.inv (LinStore.Kept.refl _)) hB h
  | @lraConflict x s la cs h hp hne =>
    intro b stg d hI hs
    obtain ⟨stg', h1, h2, _⟩ := inv_bool hO hI hs h
    obtain ⟨_, _, _, _, k2⟩ := Qf.core_lra h2.core h1 hp
    obtain ⟨w, g1, g2, g3⟩ := lra_frame h2.core.reach h1 hp
    refine ⟨_, d, inv_lra hO h2 g1 g2 g3, fun e => absurd e hne, k2, fun hB => ?_⟩
    obtain ⟨w, hg⟩ := hI.core.reach.good
    have hb := Qf.bool_propagates (hI.core.good _ hg.keep.base.inv (LinStore.Kept.refl _)) hB h
    rw [if_neg hne]
    exact (Qf.bool_lra h2.core hb h1 hp).1.conflict
  | @ufConflict x s la u cs h hp hu hne =>
    intro b stg d hI hs
    obtain ⟨stg', h1, h2, _⟩ := inv_bool hO hI hs h
    obtain ⟨w, g1, g2, g3⟩ := lra_frame h2.core.reach h1 hp
    have k := inv_lra hO h2 g1 g2 g3
    obtain ⟨u1, u2, ⟨stg2, hst, u3, u4⟩, u5⟩ := uf_call (I := I) (A := A) hO g1
      (by rw [if_neg (by simp)]; split <;> simp) k.uf hu
    obtain ⟨w2, hg2⟩ := u3.good
    have hk := inv_lra hO h2 u3 hg2 (g3.trans u4)
    refine ⟨stg2, _, ⟨hk.core, hk.num, u1⟩, fun e => absurd e hne, u5, fun hB => ?_⟩
    obtain ⟨w, hg⟩ := hI.core.reach.good
    have hb := Qf.bool_propagates (hI.core.good _ hg.keep.base.inv (LinStore.Kept.refl _)) hB h
    rw [if_neg hne]
    exact (Qf.bool_frame h2.core hb (la0 := (Qf.withTrail x.q.la s.t).takeAssigned.1) ⟨rfl, rfl⟩ u3 hg2
      (g3.trans u4)).1.conflict
  | @done x s la u h hp hu hz =>
    intro b stg d hI hs
    obtain ⟨stg', h1, h2, h3, h4, _⟩ := inv_bool hO hI hs h
    obtain ⟨w, g1, g2, g3⟩ := lra_frame h2.core.reach h1 hp
    have k := inv_lra hO h2 g1 g2 g3
    obtain ⟨u1, u2, -, -⟩ := uf_call (I := I) (A := A) hO g1
      (by rw [if_neg (by simp)]; split <;> simp) k.uf hu
    have ea := u2 rfl
    have et : u.trail = la.trail := congrArg LA.trail ea
    rw [ea] at u1 ⊢
    rw [et] at hz
    refine ⟨_, _, ⟨k.core, k.num, u1⟩, fun _ => ⟨?_, rfl⟩, by simp, fun hB => ?_⟩
    · obtain ⟨-, k3, k4, k5, -⟩ := Qf.core_lra h2.core h1 hp
      rw [if_neg (by simp), if_pos]
      rw [k4, k3]
      have l1 := (h4 s.t.decisionLevel).length_le
      have l2 := (k5 s.t.decisionLevel).length_le
      unfold Qf.recentSize at hz
      rw [k3, ← h3] at hz
      omega
    · obtain ⟨w, hg⟩ := hI.core.reach.good
      have hb := Qf.bool_propagates (hI.core.good _ hg.keep.base.inv (LinStore.Kept.refl _)) hB h
      obtain ⟨-, k3, -, k5, -⟩ := Qf.core_lra h2.core h1 hp
      rw [if_pos rfl]
      refine (Qf.bool_lra h2.core hb h1 hp).2 ?_
      have l1 := (h4 x.q.s.t.decisionLevel).length_le
      have l2 := (k5 x.q.s.t.decisionLevel).length_le
      unfold Qf.recentSize at hz ⊢
      rw [k3, h3] at hz ⊢
      omega
  | @again x x' s la u cs h hp hu hz hr ih =>
    intro b stg d hI hs
    obtain ⟨stg', h1, h2, h3, h4, _⟩ := inv_bool hO hI hs h
    obtain ⟨w, g1, g2, g3⟩ := lra_frame h2.core.reach h1 hp
    have k := inv_lra hO h2 g1 g2 g3
    obtain ⟨u1, u2, -, -⟩ := uf_call (I := I) (A := A) hO g1
      (by rw [if_neg (by simp)]; split <;> simp) k.uf hu
    have ea := u2 rfl
    rw [ea] at u1 ih
    obtain ⟨s2, d2, i1, i2, i3, i4⟩ := ih (⟨k.core, k.num, u1⟩ : Inv E I A true _ _ ⟨⟨Qf.follow s la, la⟩, .of u⟩)
      (by rw [if_neg (by simp)]; split <;> simp)
    refine ⟨s2, d2, i1, i2, i3, fun hB => i4 ?_⟩
    obtain ⟨w, hg⟩ := hI.core.reach.good
    have hb := Qf.bool_propagates (hI.core.good _ hg.keep.base.inv (LinStore.Kept.refl _)) hB h
    exact .inl (Qf.bool_lra h2.core hb h1 hp).1

end Ufl
end Yaga
