/-
Conflict analysis with its effects on the trail.
-/
import Verif.Proofs.LraDerive

set_option linter.unusedSimpArgs false
set_option linter.unusedVariables false

namespace Yaga
open Spec
open LinStore (delta WfTerms Inv Kept Made)

namespace Lra

theorem fm_assigned {m : LModels} {f : Fm} (w : WfTerms f.poly.terms)
    (h : ∀ σ, Agrees m σ → ¬ FmTrue σ f) : ∀ p ∈ f.poly.terms, m.rats.defined p.1 = true := by
  intro p hp
  by_contra hu
  rw [Bool.not_eq_true] at hu
  have key : ∀ t : ℚ, ∃ σ, Agrees m σ ∧ lsum σ f.poly.terms = t := by
    intro t
    let base := m.rats.value
    let δ : ℚ := (t - lsum base f.poly.terms) / p.2
    refine ⟨fun y => base y + δ * delta p.1 y, ?_, ?_⟩
    · intro y hy
      have : delta p.1 y = 0 := by
        unfold delta
        rw [if_neg]
        rintro rfl
        rw [hy] at hu; cases hu
      simp only [this, mul_zero, add_zero, base]
    · rw [LinStore.lsum_lin, LinStore.delta_mem w.nodup hp]
      simp only [δ]
      rw [div_mul_cancel₀ _ (w.nz p hp)]
      ring
  obtain ⟨a, _, ha, _⟩ := LinStore.rel_not_const f.pred 0
  obtain ⟨σ, s1, s2⟩ := key (a - f.poly.const)
  apply h σ s1
  unfold FmTrue pval
  rw [s2, sub_add_cancel]; exact ha

/-- The derived constraint of a bound conflict is false. -/
theorem boundConflict_false {st : St} (h : LInv st) (x : Nat) {lb ub : Bnd}
    (h1 : (st.bnd.lower st.store st.models x).2 = some lb)
    (h2 : ((st.bnd.lower st.store st.models x).1.upper st.store st.models x).2 = some ub)
    (hcond : ¬ (lb.value < ub.value ∨ (lb.value = ub.value ∧ (lb.isStrict || ub.isStrict) = false))) :
    WfTerms ((lb.eliminate st.store st.models).1.resolve (ub.eliminate st.store st.models).1
      ub.var).poly.terms ∧
    ∀ σ, Agrees st.models σ → ¬ FmTrue σ ((lb.eliminate st.store st.models).1.resolve
      (ub.eliminate st.store st.models).1 ub.var) := by
  obtain ⟨hs, hL, hlb, hub⟩ := two_queries (fun _ => 0) (fun _ => 0) h x
  generalize hl : st.bnd.lower st.store st.models x = l at *
  generalize hu : l.1.upper st.store st.models x = u at *
  obtain ⟨l1, l2⟩ := hlb lb h1
  obtain ⟨u1, u2⟩ := hub ub h2
  have hvl : lb.var = x := hL.var false x lb l1
  have hvu : ub.var = x := hL.var true x ub u1
  rw [not_or] at hcond
  obtain ⟨hc1, hc2⟩ := hcond
  have hstrict : lb.value = ub.value → lb.isStrict = true ∨ ub.isStrict = true := by
    intro e
    by_contra hn
    rw [not_or, Bool.not_eq_true, Bool.not_eq_true] at hn
    exact hc2 ⟨e, by rw [hn.1, hn.2]; rfl⟩
  rw [not_lt] at hc1
  have hundef : st.models.rats.defined x = false := by
    by_contra hd
    rw [Bool.not_eq_false] at hd
    have r1 := hL.resp false x lb l1 l2 hd
    have r2 := hL.resp true x ub u1 u2 hd
    unfold Resp dq at r1 r2
    simp only [if_true, Bool.false_eq_true, if_false] at r1 r2
    obtain ⟨r1a, r1b⟩ := r1
    obtain ⟨r2a, r2b⟩ := r2
    have e : lb.value = ub.value := by linarith
    rcases hstrict e with h' | h'
    · have := r1b h'; linarith
    · have := r2b h'; linarith
  have E1 := elim_of_good hL.inv (hL.resp) (hL.good false x lb l1) l2
    (by rw [hvl]; exact hundef)
  have E2 := elim_of_good hL.inv (hL.resp) (hL.good true x ub u1) u2
    (by rw [hvu]; exact hundef)
  dsimp only at E1 E2
  generalize he1 : lb.eliminate st.store st.models = e1 at *
  generalize he2 : ub.eliminate st.store st.models = e2 at *
  obtain ⟨v2, hv2a, hv2b, hv2c⟩ := E2.root
  have hvv : ub.var = lb.var := by rw [hvl, hvu]
  have E2' := E2
  rw [hvv] at hv2a
  have hnz2 := E2.nz
  have hsg2 := E2.sgn
  rw [hvv] at hnz2 hsg2
  -- the derived constraint is false
  have hroot : 0 < dq false * (v2 - lb.value) ∨
      (dq false * (v2 - lb.value) = 0 ∧ (e2.1.pred = .lt ∨ lb.isStrict = true)) := by
    unfold dq at hv2b hv2c ⊢
    simp only [if_true, Bool.false_eq_true, if_false] at hv2b hv2c ⊢
    by_cases hlt : v2 < lb.value
    · left; linarith
    · right
      have e3 : v2 = lb.value := by linarith
      have e4 : lb.value = ub.value := by linarith
      refine ⟨by rw [e3]; ring, ?_⟩
      rcases hstrict e4 with h' | h'
      · exact Or.inr h'
      · rcases hv2c h' with h'' | h''
        · linarith
        · exact Or.inl h''
  obtain ⟨hw, hsnd, hfl⟩ := resolve_false E1 E2.wf hnz2
    (by intro hp; exact hsg2 hp) hv2a hroot
  rw [hvv]
  exact ⟨hw, hfl⟩

/-- The derived constraints of a conflict with a disequality are false. -/
theorem ineqConflict_false (hv : Nat → Nat) (hc : ℚ → Nat) (lvl : Nat → Nat) {st : St} (h : LInv st)
    (x : Nat) {lb ub n : Bnd}
    (h1 : (st.bnd.lower st.store st.models x).2 = some lb)
    (h2 : ((st.bnd.lower st.store st.models x).1.upper st.store st.models x).2 = some ub)
    (hcond : ¬ (lb.value ≠ ub.value ∨ lb.reason.isStrict = true ∨ ub.reason.isStrict = true))
    (h3 : ((((st.bnd.lower st.store st.models x).1.upper st.store st.models x).1.vb x).inequality st.store
      st.models lb.value).2 = some n) :
    let mult : ℚ := if ((st.store.coefsOf n.reason).head?.getD 0) > 0 then 1 else -1
    let f1 := (lb.eliminate st.store st.models).1.resolve (Fm.initWith st.store n.reason .lt mult) n.var
    let F := finish hv hc lvl st.store st.models f1
    let f2 := (ub.eliminate F.1 F.2.1).1.resolve (Fm.initWith F.1 n.reason .lt (-mult)) n.var
    (WfTerms f1.poly.terms ∧ ∀ σ, Agrees st.models σ → ¬ FmTrue σ f1) ∧
    (WfTerms f2.poly.terms ∧ ∀ σ, Agrees F.2.1 σ → ¬ FmTrue σ f2) := by
  obtain ⟨hs, hL, hlb, hub⟩ := two_queries hv hc h x
  generalize hl : st.bnd.lower st.store st.models x = l at *
  generalize hu : l.1.upper st.store st.models x = u at *
  dsimp only
  have heq : lb.value = ub.value := by
    by_contra hne; exact hcond (Or.inl hne)
  obtain ⟨l1, l2⟩ := hlb lb h1
  obtain ⟨u1, u2⟩ := hub ub h2
  have hs3 : Steps hv hc st { st with bnd := u.1.put x ((u.1.vb x).inequality st.store st.models
      lb.value).1 } := Steps.step (.inequality x lb.value) hs trivial
  have hL3 := steps_linv hv hc h hs3
  have hsh := shrunk_inequality st.store st.models u.1 x lb.value
  have hnd : ∀ n, ((u.1.vb x).inequality st.store st.models lb.value).2 = some n →
      n ∈ ((u.1.put x ((u.1.vb x).inequality st.store st.models lb.value).1).vb x).dis ∧
      n.value = lb.value ∧ n.isObsolete st.store st.models = false := by
    intro n hn
    rw [vb_put, if_pos rfl]
    unfold VBounds.inequality at hn ⊢
    simp only at hn ⊢
    have m1 := List.mem_of_find?_eq_some hn
    have m2 := List.find?_some hn
    refine ⟨m1, by simpa using m2, ?_⟩
    unfold VBounds.dropObs at m1
    simpa using (List.mem_filter.mp m1).2
  have l1' := hsh.live false x lb l1 l2
  have u1' := hsh.live true x ub u1 u2
  generalize hN : (u.1.vb x).inequality st.store st.models lb.value = N at *
  generalize hb : u.1.put x N.1 = b at *
  obtain ⟨n1, n2, n3⟩ := hnd n h3
  have hvl : lb.var = x := hL3.var false x lb l1'
  have hvu : ub.var = x := hL3.var true x ub u1'
  have hvn : n.var = x := (hL3.dis x n n1).var
  have hundef : st.models.rats.defined x = false := by
    by_contra hd
    rw [Bool.not_eq_false] at hd
    have r1 := (hL3.resp false x lb l1' l2 hd).1
    have r2 := (hL3.resp true x ub u1' u2 hd).1
    unfold dq at r1 r2
    simp only [if_true, Bool.false_eq_true, if_false] at r1 r2
    exact hL3.respD x n n1 n3 hd (by rw [n2]; linarith)
  rw [hvn]
  have gn := hL3.dis x n n1
  obtain ⟨_, _, _, _, hhead⟩ := neq_init hL3 n1 n3 (k := 1) one_ne_zero
  dsimp only at hhead
  rw [hhead]
  generalize hk : (if co x (st.store.terms n.reason) > 0 then (1 : ℚ) else -1) = k
  have hkp : 0 < k * co x (st.store.terms n.reason) := by
    rw [← hk]
    split
    · rename_i h'; rw [one_mul]; exact h'
    · rename_i h'
      rcases lt_or_gt_of_ne gn.nz with h'' | h''
      · dsimp only at h''; linarith
      · exact absurd h'' h'
  have hk0 : k ≠ 0 := by intro e; rw [e, zero_mul] at hkp; exact lt_irrefl _ hkp
  obtain ⟨w1, c1, p1, t1, _⟩ := neq_init hL3 n1 n3 hk0
  have E1 := elim_of_good hL3.inv (hL3.resp) (hL3.good false x lb l1') l2
    (by rw [hvl]; exact hundef)
  dsimp only at w1 c1 p1 t1 E1
  generalize he1 : lb.eliminate st.store st.models = e1 at *
  generalize hg1 : Fm.initWith st.store n.reason Pred.lt k = g1 at *
  have hg1p : g1.pred = .lt := by rw [← hg1]; rfl
  obtain ⟨hw1, hsnd1, hfl1⟩ := resolve_false (g := g1) (q := n.value) E1 w1
    (by rw [hvl, c1]; exact ne_of_gt hkp)
    (by intro _; rw [hvl, c1]; simpa [dq] using hkp)
    (by rw [hvl]; exact p1)
    (Or.inr ⟨by rw [n2]; ring, Or.inl hg1p⟩)
  rw [hvl] at hw1 hsnd1 hfl1
  obtain ⟨f1, f2, f3, f4⟩ := finish_spec hv hc lvl hL3 hw1 hfl1
  have hL4 := steps_linv hv hc hL3 f1
  unfold finishSt at f1 f2 f3 f4 hL4
  dsimp only at f1 f2 f3 f4 hL4
  generalize hfin : finish hv hc lvl st.store st.models (e1.1.resolve g1 x) = F at *
  -- second half
  have lub := f2.live hL3.inv hL4.inv (hL3.good true x ub u1') u2
  have ln := f2.liveN hL3.inv hL4.inv gn n3
  have hundef2 : F.2.1.rats.defined x = false := by
    have := f2.rats
    dsimp only at this
    rw [this]; exact hundef
  obtain ⟨w2, c2, p2, t2, _⟩ := neq_init hL4 n1 ln (k := -k) (neg_ne_zero.mpr hk0)
  have E2 := elim_of_good hL4.inv (hL4.resp) (hL4.good true x ub u1') lub
    (by rw [hvu]; exact hundef2)
  have hterm : F.1.terms n.reason = st.store.terms n.reason := f2.terms _ gn.cons
  dsimp only at w2 c2 p2 t2 E2
  rw [hterm] at c2 t2
  generalize he2 : ub.eliminate F.1 F.2.1 = e2 at *
  generalize hg2 : Fm.initWith F.1 n.reason Pred.lt (-k) = g2 at *
  have hg2p : g2.pred = .lt := by rw [← hg2]; rfl
  have hkn : -k * co x (st.store.terms n.reason) < 0 := by linarith
  obtain ⟨hw2, hsnd2, hfl2⟩ := resolve_false (g := g2) (q := n.value) E2 w2
    (by rw [hvu, c2]; exact ne_of_lt hkn)
    (by intro _; rw [hvu, c2]; simp [dq]; linarith)
    (by rw [hvu]; exact p2)
    (Or.inr ⟨by rw [n2, heq]; ring, Or.inl hg2p⟩)
  rw [hvu] at hw2 hsnd2 hfl2
  exact ⟨⟨hw1, hfl1⟩, hw2, hfl2⟩

end Lra

namespace LA
open Lra
variable {R : Type} {hv : Nat → Nat} {hc : ℚ → Nat} {X Y : Nat → Nat → Prop} {la : LA R}

theorem propagateCons_core (la : LA R) (c : LinCons) :
    (la.propagateCons c).core = ⟨la.store, Lra.propagate la.store la.models c, la.bnd⟩ := rfl

theorem Frame.lev_eq {la la' : LA R} (h : Frame la la') : LA.lev la'.trail = LA.lev la.trail :=
  funext h.lev

theorem Frame.sortLevel {la la' : LA R} (h : Frame la la') : la'.sortLevel = la.sortLevel := by
  funext x
  unfold LA.sortLevel LA.level
  have := h.lev x
  unfold LA.lev at this
  rw [this]

/-- `finish` of a derived constraint that is false. -/
theorem Keep.finishFm (h : Keep hv hc la X Y (fun _ => lev la.trail)) {f : Fm}
    (hw : WfTerms f.poly.terms) (hfalse : ∀ σ, Agrees la.models σ → ¬ FmTrue σ f) :
    let r := la.finishFm hv hc f
    Keep hv hc r.1 X Y (fun _ => lev r.1.trail) ∧ Frame la r.1 ∧
      r.1.core = finishSt hv hc la.sortLevel la.core f ∧
      r.2 = (Lra.finish hv hc la.sortLevel la.store la.models f).2.2 := by
  intro r
  have hr : r = la.finishFm hv hc f := rfl
  unfold LA.finishFm at hr
  unfold finishSt Lra.finish
  by_cases hemp : f.poly.terms.isEmpty = true
  · rw [if_pos hemp] at hr
    rw [hr]
    dsimp only [core]
    rw [if_pos hemp]
    exact ⟨h, Frame.refl la, rfl, rfl⟩
  · rw [if_neg hemp] at hr
    dsimp only [core]
    rw [if_neg hemp]
    have hdef := fm_assigned hw hfalse
    generalize hts : sortBy (fun a b => Decidable.decide (la.sortLevel a.1 > la.sortLevel b.1))
      f.poly.terms = ts at hr ⊢
    have hperm : ts.Perm f.poly.terms := by rw [← hts]; exact sortBy_perm _ _
    have hnd : (ts.map (·.1)).Nodup := (hperm.map _).nodup_iff.mpr hw.1
    have hne : ∃ q ∈ ts, q.2 ≠ 0 := by
      cases h0 : f.poly.terms with
      | nil => rw [h0] at hemp; exact absurd rfl hemp
      | cons p ps =>
        have hp : p ∈ f.poly.terms := by rw [h0]; exact List.mem_cons_self
        exact ⟨p, hperm.mem_iff.mpr hp, hw.2 p hp⟩
    have has : ∀ q ∈ ts, la.trail.rats.defined q.1 = true := fun q hq =>
      hdef q (hperm.mem_iff.mp hq)
    have hsrt : ts.Pairwise fun a b => la.sortLevel b.1 ≤ la.sortLevel a.1 := by
      have := sortBy_pairwise (fun a b : Nat × ℚ => Decidable.decide (la.sortLevel a.1 > la.sortLevel b.1))
        (by intro a b c; simp; omega) (by intro a b; simp; omega) f.poly.terms
      rw [hts] at this
      exact this.imp (by intro a b hab; simpa using hab)
    obtain ⟨hk, hf⟩ := h.derive hnd hne has hsrt f.pred (-f.poly.const)
    have hwi : WI (lev la.trail) (nzVars ts) := by
      refine wi_sorted (fun y hy => ?_) ?_
      · obtain ⟨q, hq, rfl⟩ := nzVars_mem hy
        exact h.defined.mp (has q hq)
      · unfold nzVars
        rw [List.pairwise_map]
        exact hsrt.sublist List.filter_sublist
    obtain ⟨_, _, _, _, hcore, hcons, _⟩ := h.constraint hnd hne (fun q hq => by
    obtain ⟨l, hl⟩ := h.defined.mp (has q hq)
    exact h.base.tinv.range _ _ hl) (Or.inl has) f.pred (-f.poly.const) hwi
    have e1 : r.1 = la.derive hv hc ts f.pred (-f.poly.const) := by
      rw [hr]
      unfold LA.derive
      dsimp only
      split <;> rfl
    rw [e1]
    refine ⟨by rw [hf.lev_eq]; exact hk, hf, ?_, ?_⟩
    · unfold LA.derive
      dsimp only
      generalize hq : la.constraint hv hc ts f.pred (-f.poly.const) = q at *
      have c1 : q.1.store = (Lra.constraint hv hc la.store la.models ts f.pred (-f.poly.const)).1 :=
        congrArg St.store hcore
      have c2 : q.1.models = (Lra.constraint hv hc la.store la.models ts f.pred (-f.poly.const)).2.1 :=
        congrArg St.models hcore
      have c3 : q.1.bnd = la.bnd := congrArg St.bnd hcore
      have c4 : q.1.trail.bools =
          (Lra.constraint hv hc la.store la.models ts f.pred (-f.poly.const)).2.1.bools :=
        congrArg LModels.bools c2
      rw [c4, hcons]
      split
      · exact hcore
      · refine (propagateCons_core _ _).trans ?_
        rw [c1, c2, c3]
    · rw [hr]
      dsimp only
      have : ∀ (p : Prop) [Decidable p] (a b : LA R) (c : LinCons),
          (if p then (a, some c) else (b, some c)).2 = some c := by
        intro p _ a b c; split <;> rfl
      rw [this, hcons]
      split <;> rfl

/-- Only bounds change, and live bounds are kept. -/
theorem Keep.bnd {Lf : Nat → Nat → Option Nat} (h : Keep hv hc la X Y Lf) {b : BState}
    (hs : Steps hv hc la.core { la.core with bnd := b })
    (hk : KeepsAll la.store la.models la.bnd b) : Keep hv hc { la with bnd := b } X Y Lf :=
  ⟨h.base.steps hs, h.ok, h.sem.bnd h.base hk, h.wat⟩

theorem Frame.bnd (la : LA R) (b : BState)
    (hb : ∀ k x, ∀ e ∈ Lra.lst b k x, e ∈ Lra.lst la.bnd k x ∨ NewB la e) : Frame la { la with bnd := b } :=
  ⟨rfl, rfl, fun _ => rfl, fun _ => ⟨[], by simp⟩, fun _ _ h => h, Kept.refl _, rfl, rfl,
    fun _ _ _ => rfl, le_refl _, fun _ => rfl,
        fun _ _ h1 h2 => absurd (h1.symm.trans h2) (by simp), fun _ _ h => Or.inl h,
        fun _ _ h1 h2 => absurd (h1.symm.trans h2) (by simp),
        fun _ _ h1 h2 => absurd (h1.symm.trans h2) (by simp), hb, MStep.refl _, fun _ h => Or.inl h⟩

theorem Frame.shrunk (la : LA R) {b : BState} (hb : Shrunk la.store la.models la.bnd b) :
    Frame la { la with bnd := b } :=
  Frame.bnd la b fun k x e he => Or.inl (hb.lst k x e he)

theorem Keep.boundConflict (h : Keep hv hc la X Y (fun _ => lev la.trail)) (x : Nat) :
    let r := la.boundConflict hv hc x
    Keep hv hc r.1 X Y (fun _ => lev r.1.trail) ∧ Frame la r.1 ∧
      (r.1.core, r.2) = Lra.boundConflict hv hc la.sortLevel la.core x := by
  intro r
  have hr : r = la.boundConflict hv hc x := rfl
  unfold LA.boundConflict at hr
  unfold Lra.boundConflict
  obtain ⟨hs, hL, _, _⟩ := two_queries hv hc h.base.linv x
  have hk : KeepsAll la.store la.models la.bnd
      ((la.bnd.lower la.store la.models x).1.upper la.store la.models x).1 :=
    ((shrunk_query la.store la.models la.bnd false x).trans
      (shrunk_query la.store la.models _ true x)).keepsAll
  have h0 := h.bnd hs hk
  have hf0 := Frame.shrunk la ((shrunk_query la.store la.models la.bnd false x).trans
      (shrunk_query la.store la.models _ true x))
  have e2 : la.core.models = la.models := rfl
  dsimp only [core] at hr ⊢
  cases h1 : (la.bnd.lower la.store la.models x).2 with
  | none => rw [h1] at hr; rw [hr]; exact ⟨h0, hf0, rfl⟩
  | some lb =>
    cases h2 : ((la.bnd.lower la.store la.models x).1.upper la.store la.models x).2 with
    | none => rw [h1, h2] at hr; rw [hr]; exact ⟨h0, hf0, rfl⟩
    | some ub =>
      rw [h1, h2] at hr
      dsimp only at hr ⊢
      by_cases hcond : lb.value < ub.value ∨
          (lb.value = ub.value ∧ (lb.isStrict || ub.isStrict) = false)
      · rw [if_pos hcond] at hr
        rw [if_pos hcond, hr]
        exact ⟨h0, hf0, rfl⟩
      · rw [if_neg hcond] at hr
        rw [if_neg hcond]
        have hL0 : LInv la.core := h.base.linv
        obtain ⟨hw, hfl⟩ := boundConflict_false hL0 x h1 h2 hcond
        obtain ⟨k1, k2, k3, k4⟩ := h0.finishFm hw hfl
        rw [hr]
        refine ⟨k1, hf0.trans k2, ?_⟩
        refine Prod.ext ?_ ?_
        · exact k3
        · exact congrArg (fun z => some (pushDerived (sortClause
            ((lb.eliminate la.store la.models).2 ++ (ub.eliminate la.store la.models).2)) z)) k4

/-- Two derived constraints, the second of which depends on the state after the first. -/
theorem Keep.finishTwo (h : Keep hv hc la X Y (fun _ => lev la.trail)) {f1 : Fm}
    (w1 : WfTerms f1.poly.terms) (fl1 : ∀ σ, Agrees la.models σ → ¬ FmTrue σ f1)
    (f2 : LinStore → LModels → Fm)
    (w2 : WfTerms (f2 (Lra.finish hv hc la.sortLevel la.store la.models f1).1
      (Lra.finish hv hc la.sortLevel la.store la.models f1).2.1).poly.terms)
    (fl2 : ∀ σ, Agrees (Lra.finish hv hc la.sortLevel la.store la.models f1).2.1 σ →
      ¬ FmTrue σ (f2 (Lra.finish hv hc la.sortLevel la.store la.models f1).1
      (Lra.finish hv hc la.sortLevel la.store la.models f1).2.1)) :
    let r1 := la.finishFm hv hc f1
    let r2 := r1.1.finishFm hv hc (f2 r1.1.store r1.1.models)
    let F := Lra.finish hv hc la.sortLevel la.store la.models f1
    let G := Lra.finish hv hc la.sortLevel F.1 F.2.1 (f2 F.1 F.2.1)
    Keep hv hc r2.1 X Y (fun _ => lev r2.1.trail) ∧ Frame la r2.1 ∧ r1.1.store = F.1 ∧
      r1.1.models = F.2.1 ∧ r1.2 = F.2.2 ∧ r2.1.core = ⟨G.1, G.2.1, la.bnd⟩ ∧ r2.2 = G.2.2 := by
  intro r1 r2 F G
  obtain ⟨k1, k2, k3, k4⟩ := h.finishFm w1 fl1
  have g1 : r1.1.store = F.1 := congrArg St.store k3
  have g2 : r1.1.models = F.2.1 := congrArg St.models k3
  have g0 : r1.1.bnd = la.bnd := congrArg St.bnd k3
  have g3 : r1.1.sortLevel = la.sortLevel := k2.sortLevel
  have w2' : WfTerms (f2 r1.1.store r1.1.models).poly.terms := by rw [g1, g2]; exact w2
  have fl2' : ∀ σ, Agrees r1.1.models σ → ¬ FmTrue σ (f2 r1.1.store r1.1.models) := by
    rw [g1, g2]; exact fl2
  obtain ⟨l1, l2, l3, l4⟩ := k1.finishFm w2' fl2'
  refine ⟨l1, k2.trans l2, g1, g2, k4, ?_, ?_⟩
  · refine l3.trans ?_
    unfold finishSt
    dsimp only [core]
    change St.mk (Lra.finish hv hc r1.1.sortLevel r1.1.store r1.1.models (f2 r1.1.store r1.1.models)).1
      (Lra.finish hv hc r1.1.sortLevel r1.1.store r1.1.models (f2 r1.1.store r1.1.models)).2.1 r1.1.bnd = _
    rw [g0, g1, g2, g3]
  · refine l4.trans ?_
    change (Lra.finish hv hc r1.1.sortLevel r1.1.store r1.1.models (f2 r1.1.store r1.1.models)).2.2 = _
    rw [g1, g2, g3]

theorem Keep.ineqConflict (h : Keep hv hc la X Y (fun _ => lev la.trail)) (x : Nat) :
    let r := la.ineqConflict hv hc x
    Keep hv hc r.1 X Y (fun _ => lev r.1.trail) ∧ Frame la r.1 ∧
      (r.1.core, r.2) = Lra.ineqConflict hv hc la.sortLevel la.core x := by
  intro r
  have hr : r = la.ineqConflict hv hc x := rfl
  unfold LA.ineqConflict at hr
  unfold Lra.ineqConflict
  obtain ⟨hs, hL, _, _⟩ := two_queries hv hc h.base.linv x
  have hk := (shrunk_query la.store la.models la.bnd false x).trans
      (shrunk_query la.store la.models _ true x)
  have h0 := h.bnd hs hk.keepsAll
  have hf0 := Frame.shrunk la hk
  dsimp only [core] at hr ⊢
  cases h1 : (la.bnd.lower la.store la.models x).2 with
  | none => rw [h1] at hr; rw [hr]; exact ⟨h0, hf0, rfl⟩
  | some lb =>
    cases h2 : ((la.bnd.lower la.store la.models x).1.upper la.store la.models x).2 with
    | none => rw [h1, h2] at hr; rw [hr]; exact ⟨h0, hf0, rfl⟩
    | some ub =>
      rw [h1, h2] at hr
      dsimp only at hr ⊢
      by_cases hcond : lb.value ≠ ub.value ∨ lb.reason.isStrict = true ∨ ub.reason.isStrict = true
      · rw [if_pos hcond] at hr
        rw [if_pos hcond, hr]
        exact ⟨h0, hf0, rfl⟩
      · rw [if_neg hcond] at hr
        rw [if_neg hcond]
        have hs3 : Steps hv hc la.core { la.core with
            bnd := ((la.bnd.lower la.store la.models x).1.upper la.store la.models x).1.put x
              ((((la.bnd.lower la.store la.models x).1.upper la.store la.models x).1.vb x).inequality
                la.store la.models lb.value).1 } :=
          Steps.step (.inequality x lb.value) hs trivial
        have hk3 := (hk.trans (shrunk_inequality la.store la.models
          ((la.bnd.lower la.store la.models x).1.upper la.store la.models x).1 x lb.value)).keepsAll
        have h3' := h.bnd hs3 hk3
        have hf3 := Frame.shrunk la (hk.trans (shrunk_inequality la.store la.models
          ((la.bnd.lower la.store la.models x).1.upper la.store la.models x).1 x lb.value))
        cases h3 : ((((la.bnd.lower la.store la.models x).1.upper la.store la.models x).1.vb x).inequality
            la.store la.models lb.value).2 with
        | none => rw [h3] at hr; rw [hr]; exact ⟨h3', hf3, rfl⟩
        | some n =>
          rw [h3] at hr
          dsimp only at hr ⊢
          have hL0 : LInv la.core := h.base.linv
          obtain ⟨⟨w1, f1⟩, w2, f2⟩ :=
            ineqConflict_false hv hc la.sortLevel hL0 x h1 h2 hcond h3
          dsimp only [core] at w1 f1 w2 f2
          obtain ⟨k1, k2, k3, k4, k5, k6, k7⟩ := h3'.finishTwo w1 f1
            (fun s m => (ub.eliminate s m).1.resolve (Fm.initWith s n.reason .lt
              (-(if ((la.store.coefsOf n.reason).head?.getD 0) > 0 then 1 else -1))) n.var) w2 f2
          rw [hr]
          refine ⟨k1, hf3.trans k2, ?_⟩
          have aux : ∀ (L : Clause) (d1 d1' d2 d2' : Option LinCons) (s s' : LinStore) (m m' : LModels),
              d1 = d1' → s = s' → m = m' → d2 = d2' →
              some (sortClause (pushDerived (pushDerived L d1 ++ (ub.eliminate s m).2) d2)) =
              some (sortClause (pushDerived (pushDerived L d1' ++ (ub.eliminate s' m').2) d2')) := by
            rintro L d1 _ d2 _ s _ m _ rfl rfl rfl rfl; rfl
          exact Prod.ext k6 (aux _ _ _ _ _ _ _ _ _ k5 k3 k4 k7)

/-- The clause is true for all values of the variables and all its literals are false on the trail. -/
structure Refuted (la : LA R) (cl : Clause) : Prop where
  valid : ∀ σ, ∃ l ∈ cl, LitMeans la.store l σ
  false : ∀ l ∈ cl, evalLit la.trail.bools l = some false
  real : ∀ l ∈ cl, ∃ c, IsCons la.store c ∧ c.lit.ord = l.ord

theorem Frame.evalLit {la la' : LA R} {Lf Lf' : Nat → Nat → Option Nat} {X' Y' : Nat → Nat → Prop}
    (h : Keep hv hc la X Y Lf) (h' : Keep hv hc la' X' Y' Lf') (hf : Frame la la') {l : Lit} {v : Bool}
    (he : Yaga.evalLit la.trail.bools l = some v) : Yaga.evalLit la'.trail.bools l = some v := by
  unfold Yaga.evalLit at he ⊢
  by_cases hd : la.trail.bools.defined l.ord = true
  · rw [if_pos hd] at he
    obtain ⟨k, hk⟩ := (h.base.tinv.defined ⟨.boolean, l.ord⟩).mp hd
    have hd' : la'.trail.bools.defined l.ord = true :=
      (h'.base.tinv.defined ⟨.boolean, l.ord⟩).mpr ⟨k, hf.lvl _ _ hk⟩
    rw [if_pos hd', hf.bval _ _ hk]
    exact he
  · rw [if_neg hd] at he; cases he

theorem Refuted.frame {la la' : LA R} {Lf Lf' : Nat → Nat → Option Nat} {X' Y' : Nat → Nat → Prop}
    {cl : Clause} (hr : Refuted la cl) (h : Keep hv hc la X Y Lf) (h' : Keep hv hc la' X' Y' Lf')
    (hf : Frame la la') : Refuted la' cl := by
  refine ⟨fun σ => ?_, fun l hl => hf.evalLit h h' (hr.false l hl), fun l hl => ?_⟩
  rotate_left
  · obtain ⟨c, h1, h2⟩ := hr.real l hl
    exact ⟨c, (h1.kept hf.kept).1, h2⟩
  obtain ⟨l, hl, hm⟩ := hr.valid σ
  refine ⟨l, hl, (LinStore.litMeans_kept h.base.inv hf.kept ?_ σ).mpr hm⟩
  have hL := h.base.linv
  have hlen := hL.len
  have hd : la.trail.bools.defined l.ord = true := by
    have := hr.false l hl
    unfold Yaga.evalLit at this
    by_contra hd
    rw [if_neg hd] at this
    cases this
  have := hL.dom l.ord hd
  dsimp only at hlen this
  rw [hlen]; exact this

theorem Refuted.of_conflict {la' : LA R} {cl : Clause} (h : Keep hv hc la X Y (fun _ => lev la.trail))
    (hc' : Conflict la.core la'.core cl) : Refuted la' cl :=
  ⟨hc'.valid, hc'.falsified h.sem.vals, hc'.real⟩

theorem Keep.checkBounds (h : Keep hv hc la X Y (fun _ => lev la.trail)) (x : Nat) :
    let r := la.checkBounds hv hc x
    Keep hv hc r.1 X Y (fun _ => lev r.1.trail) ∧ Frame la r.1 ∧ ∀ cl, r.2 = some cl → Refuted r.1 cl := by
  intro r
  have hr : r = la.checkBounds hv hc x := rfl
  unfold LA.checkBounds at hr
  obtain ⟨k1, k2, k3⟩ := h.boundConflict x
  have hL : LInv la.core := h.base.linv
  have s1 := (boundConflict_spec hv hc la.sortLevel hL x).2
  rw [← k3] at s1
  by_cases hs : (la.boundConflict hv hc x).2.isSome = true
  · have e : r = la.boundConflict hv hc x := by rw [hr]; exact if_pos hs
    rw [e]
    exact ⟨k1, k2, fun cl hcl => Refuted.of_conflict h (s1 cl hcl)⟩
  · have e : r = (la.boundConflict hv hc x).1.ineqConflict hv hc x := by rw [hr]; exact if_neg hs
    rw [e]
    obtain ⟨l1, l2, l3⟩ := k1.ineqConflict x
    have hL' : LInv (la.boundConflict hv hc x).1.core := k1.base.linv
    have s2 := (ineqConflict_spec hv hc (la.boundConflict hv hc x).1.sortLevel hL' x).2
    rw [← l3] at s2
    exact ⟨l1, k2.trans l2, fun cl hcl => Refuted.of_conflict k1 (s2 cl hcl)⟩

theorem Keep.effectivelyDecided {Lf : Nat → Nat → Option Nat} (h : Keep hv hc la X Y Lf) (x : Nat) :
    Keep hv hc (la.effectivelyDecided x).1 X Y Lf ∧ Frame la (la.effectivelyDecided x).1 := by
  unfold LA.effectivelyDecided
  split
  · exact ⟨h, Frame.refl la⟩
  · have hs1 : Steps hv hc la.core { la.core with bnd := (la.bnd.lower la.store la.models x).1 } :=
      Steps.step (.lower x) (Steps.refl _) trivial
    have hL : LInv la.core := h.base.linv
    obtain ⟨hs, _⟩ := two_queries hv hc hL x
    have q1 := shrunk_query la.store la.models la.bnd false x
    have q2 := q1.trans (shrunk_query la.store la.models _ true x)
    have k1 := h.bnd hs1 q1.keepsAll
    have k2 := h.bnd hs q2.keepsAll
    dsimp only
    split
    · exact ⟨k1, Frame.shrunk la q1⟩
    · split
      · exact ⟨k2, Frame.shrunk la q2⟩
      · exact ⟨k2, Frame.shrunk la q2⟩

theorem Keep.decidedList {Lf : Nat → Nat → Option Nat} (h : Keep hv hc la X Y Lf) (ds : List Nat) :
    Keep hv hc { la with decided := ds } X Y Lf ∧ Frame la { la with decided := ds } :=
  ⟨⟨h.base, h.ok, h.sem, h.wat⟩, ⟨rfl, rfl, fun _ => rfl, fun _ => ⟨[], by simp⟩, fun _ _ h => h,
    Kept.refl _, rfl, rfl, fun _ _ _ => rfl, le_refl _, fun _ => rfl,
        fun _ _ h1 h2 => absurd (h1.symm.trans h2) (by simp), fun _ _ h => Or.inl h,
        fun _ _ h1 h2 => absurd (h1.symm.trans h2) (by simp),
        fun _ _ h1 h2 => absurd (h1.symm.trans h2) (by simp), fun _ _ _ h => Or.inl h, MStep.refl _, fun _ h => Or.inl h⟩⟩

theorem Keep.finishLoop (o : LaOpts) : ∀ (xs : List Nat) {la : LA R},
    Keep hv hc la X Y (fun _ => lev la.trail) →
    let r := la.finishLoop hv hc o xs
    Keep hv hc r.1 X Y (fun _ => lev r.1.trail) ∧ Frame la r.1 ∧ ∀ cl ∈ r.2, Refuted r.1 cl := by
  intro xs
  induction xs with
  | nil => intro la h; exact ⟨h, Frame.refl la, by simp [LA.finishLoop]⟩
  | cons x xs ih =>
    intro la h r
    have hr : r = la.finishLoop hv hc o (x :: xs) := rfl
    unfold LA.finishLoop at hr
    obtain ⟨k1, k2, k3⟩ := h.checkBounds x
    generalize hq : la.checkBounds hv hc x = q at *
    dsimp only at hr
    cases hcl : q.2 with
    | some cl =>
      rw [hcl] at hr
      have hre := k3 cl hcl
      by_cases hret : o.returnAll = true
      · dsimp only at hr
        rw [if_pos hret] at hr
        obtain ⟨l1, l2, l3⟩ := ih k1
        rw [hr]
        refine ⟨l1, k2.trans l2, fun d hd => ?_⟩
        rcases List.mem_cons.mp hd with rfl | hd
        · exact hre.frame k1 l1 l2
        · exact l3 d hd
      · dsimp only at hr
        rw [if_neg hret] at hr
        rw [hr]
        refine ⟨k1, k2, fun d hd => ?_⟩
        rw [List.mem_singleton.mp hd]
        exact hre
    | none =>
      rw [hcl] at hr
      dsimp only at hr
      by_cases hp : o.propRational = true
      · rw [if_pos hp] at hr
        obtain ⟨d1, d2⟩ := k1.effectivelyDecided x
        generalize q.1.effectivelyDecided x = d at *
        have key : Keep hv hc (if d.2 = true then { d.1 with decided := d.1.decided ++ [x] } else d.1) X Y
            (fun _ => lev (if d.2 = true then { d.1 with decided := d.1.decided ++ [x] } else d.1).trail) ∧
            Frame d.1 (if d.2 = true then { d.1 with decided := d.1.decided ++ [x] } else d.1) := by
          rw [← d2.lev_eq] at d1
          split
          · exact d1.decidedList _
          · exact ⟨d1, Frame.refl _⟩
        obtain ⟨l1, l2, l3⟩ := ih key.1
        rw [hr]
        exact ⟨l1, ((k2.trans d2).trans key.2).trans l2, l3⟩
      · rw [if_neg hp] at hr
        obtain ⟨l1, l2, l3⟩ := ih k1
        rw [hr]
        exact ⟨l1, k2.trans l2, l3⟩

theorem Keep.finish (o : LaOpts) (h : Keep hv hc la X Y (fun _ => lev la.trail)) :
    let r := la.finish hv hc o
    Keep hv hc r.1 X Y (fun _ => lev r.1.trail) ∧ Frame la r.1 ∧ ∀ cl ∈ r.2, Refuted r.1 cl := by
  intro r
  have hs : Steps hv hc la.core { la.core with bnd := la.bnd.changed.1 } :=
    Steps.step .changed (Steps.refl _) trivial
  have k := h.bnd hs (keepsAll_congr rfl)
  obtain ⟨k1, k2, k3⟩ := Keep.finishLoop o la.bnd.changed.2 k
  exact ⟨k1, (Frame.bnd la _ fun k x e he => Or.inl (by
    cases k <;> exact he)).trans k2, k3⟩

end LA
end Yaga
