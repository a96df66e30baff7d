/-
What the bounds of a variable say about the constraints in which it is the only unassigned variable.
-/
import Verif.Proofs.LraLive
import Verif.Proofs.LraConflict

set_option linter.unusedSimpArgs false
set_option linter.unusedVariables false

namespace Yaga
open Spec
open LinStore (delta WfTerms Inv Kept Made)

/-- The truth of a constraint depends on the values of its variables. -/
theorem consTrue_congr {s : LinStore} (hI : Inv s) {c : LinCons} (hc : IsCons s c) {σ τ : Nat → ℚ}
    (h : ∀ y ∈ s.varsOf c, σ y = τ y) : ConsTrue s c σ ↔ ConsTrue s c τ := by
  have e : lsum σ (s.terms c) = lsum τ (s.terms c) := by
    unfold lsum
    congr 1
    apply List.map_congr_left
    intro p hp
    rw [h p.1 (by rw [hc.varsOf hI]; exact List.mem_map.mpr ⟨p, hp, rfl⟩)]
  unfold ConsTrue LinTrue
  rw [e]

theorem varsOf_kept {s s' : LinStore} (hI : Inv s) (hI' : Inv s') (hK : Kept s s') {c : LinCons}
    (hc : IsCons s c) : (s'.varsOf c).Perm (s.varsOf c) := by
  rw [hc.varsOf hI, (hc.kept hK).1.varsOf hI']
  exact (hc.kept hK).2.map _

namespace Lra

/-- What `m` defines is defined in the same way by `m'`. -/
structure Ext (m m' : LModels) : Prop where
  b : ∀ o, m.bools.defined o = true → m'.bools.defined o = true ∧
    m'.bools.value o = m.bools.value o ∧ m'.bools.ts o = m.bools.ts o
  r : ∀ y, m.rats.defined y = true → m'.rats.defined y = true ∧
    m'.rats.value y = m.rats.value y ∧ m'.rats.ts y = m.rats.ts y

theorem Ext.refl (m : LModels) : Ext m m := ⟨fun _ h => ⟨h, rfl, rfl⟩, fun _ h => ⟨h, rfl, rfl⟩⟩

theorem Ext.live {s s' : LinStore} {m m' : LModels} {S} (hE : Ext m m') (hI : Inv s) (hI' : Inv s')
    (hK : Kept s s') {up : Bool} {b : Bnd} (g : GoodB s m S up b) (h : b.isObsolete s m = false) :
    b.isObsolete s' m' = false :=
  live_of_same hI hI' hK g h (fun o _ hd => hE.b o hd) (fun y _ hd => ⟨(hE.r y hd).1, (hE.r y hd).2.2⟩)

theorem Ext.liveN {s s' : LinStore} {m m' : LModels} (hE : Ext m m') (hI : Inv s) (hI' : Inv s')
    (hK : Kept s s') {x : Nat} {b : Bnd} (g : GoodN s m x b) (h : b.isObsolete s m = false) :
    b.isObsolete s' m' = false := by
  have hd := g.deps
  have hc := g.cons
  rw [bnd_eta b] at h ⊢
  rw [hd, live_iff] at h ⊢
  obtain ⟨⟨h1, h2⟩, h3, _⟩ := h
  have hdf : m.bools.defined b.reason.lit.ord = true := by
    unfold evalLit at h1
    by_contra hu
    rw [if_neg hu] at h1; cases h1
  obtain ⟨a1, a2, a3⟩ := hE.b _ hdf
  refine ⟨⟨?_, by rw [a3]; exact h2⟩, ?_, by simp⟩
  · unfold evalLit at h1 ⊢
    rw [if_pos hdf] at h1
    rw [if_pos a1, a2]; exact h1
  · intro y hy hyx hyd
    obtain ⟨d1, d2⟩ := h3 y ((varsOf_kept hI hI' hK hc).mem_iff.mp hy) hyx hyd
    obtain ⟨e1, _, e2⟩ := hE.r y d1
    exact ⟨e1, by rw [e2]; exact d2⟩

/-- `q` respects all bounds of `x` that are not obsolete. -/
def Permits (s : LinStore) (m : LModels) (b : BState) (x : Nat) (q : ℚ) : Prop :=
  (∀ up, ∀ e ∈ stk b up x, e.isObsolete s m = false → Resp up e.value e.isStrict q) ∧
  ∀ e ∈ (b.vb x).dis, e.isObsolete s m = false → q ≠ e.value

/-- Bounds that are not obsolete are kept. -/
def KeepsAll (s : LinStore) (m : LModels) (b b' : BState) : Prop :=
  KeepsLive s m b b' ∧ ∀ x, ∀ e ∈ (b.vb x).dis, e.isObsolete s m = false → e ∈ (b'.vb x).dis

theorem KeepsAll.refl (s : LinStore) (m : LModels) (b : BState) : KeepsAll s m b b :=
  ⟨KeepsLive.refl _ _ _, fun _ _ h _ => h⟩

theorem KeepsAll.trans {s : LinStore} {m : LModels} {a b c : BState} (h1 : KeepsAll s m a b)
    (h2 : KeepsAll s m b c) : KeepsAll s m a c :=
  ⟨h1.1.trans h2.1, fun x e he hl => h2.2 x e (h1.2 x e he hl) hl⟩

theorem Shrunk.keepsAll {s : LinStore} {m : LModels} {b b' : BState} (h : Shrunk s m b b') :
    KeepsAll s m b b' := ⟨h.live, h.liveD⟩

theorem keepsAll_congr {s : LinStore} {m : LModels} {b b' : BState} (h : b'.vb = b.vb) :
    KeepsAll s m b b' :=
  ⟨fun up x e he _ => by unfold stk at he ⊢; rw [h]; exact he, fun x e he _ => by rw [h]; exact he⟩

theorem KeepsAll.note {s : LinStore} {m : LModels} {b b' : BState} (h : KeepsAll s m b b') (x : Nat)
    (cb : Bool) : KeepsAll s m b (b'.note x cb) := h.trans (keepsAll_congr (note_vb _ _ _))

theorem dis_add (s : LinStore) (m : LModels) (b : BState) (up : Bool) (x : Nat) (v : Bnd) (y : Nat) :
    ((add s m b up x v).1.vb y).dis = (b.vb y).dis := by
  rw [(vbounds_add s m b up x v).2.2 y, dis_query]

theorem keepsAll_add (s : LinStore) (m : LModels) (b : BState) (up : Bool) (x : Nat) (v : Bnd) :
    KeepsAll s m b (add s m b up x v).1 :=
  ⟨keepsLive_add s m b up x v, fun y e he _ => by rw [dis_add]; exact he⟩

theorem dis_addInequality (s : LinStore) (m : LModels) (b : BState) (x : Nat) (v : Bnd) :
    (∀ y, ∀ e ∈ (b.vb y).dis, e.isObsolete s m = false → e ∈ ((b.addInequality s m x v).1.vb y).dis) ∧
    (v ∈ ((b.addInequality s m x v).1.vb x).dis ∨
      ∃ e ∈ ((b.addInequality s m x v).1.vb x).dis, e.isObsolete s m = false ∧ e.value = v.value) := by
  unfold BState.addInequality
  simp only
  constructor
  · intro y e he hl
    rw [vb_put]
    split
    · rename_i h; rw [h] at he
      unfold VBounds.addInequality VBounds.inequality
      simp only
      have : e ∈ VBounds.dropObs s m (b.vb x).dis := by
        unfold VBounds.dropObs; rw [List.mem_filter]; exact ⟨he, by rw [hl]; rfl⟩
      split
      · exact List.mem_append_left _ this
      · exact this
    · exact he
  · rw [vb_put, if_pos rfl]
    unfold VBounds.addInequality VBounds.inequality
    simp only
    split
    · left; exact List.mem_append_right _ (by simp)
    · rename_i h
      right
      cases hf : List.find? (fun b => decide (b.value = v.value)) (VBounds.dropObs s m (b.vb x).dis) with
      | none => rw [hf] at h; simp at h
      | some e =>
        have h1 := List.mem_of_find?_eq_some hf
        have h2 := List.find?_some hf
        refine ⟨e, h1, ?_, by simpa using h2⟩
        unfold VBounds.dropObs at h1
        rw [List.mem_filter] at h1
        simpa using h1.2

theorem keepsAll_update (s : LinStore) (m : LModels) (b : BState) (c : LinCons) :
    KeepsAll s m b (b.update s m c) := by
  refine ⟨keepsLive_update s m b c, ?_⟩
  unfold BState.update
  simp only
  generalize (if evalLit m.bools c.lit = some true then c else c.neg) = c'
  generalize (List.head? (s.terms c)).getD (0, 1) = p
  intro y e he hl
  split
  · rw [note_vb]
    have : ((add s m (add s m b false p.1
        (Bnd.make s m p.1 (s.impliedValue m.rats c / p.2) c' [])).1 true p.1
        (Bnd.make s m p.1 (s.impliedValue m.rats c / p.2) c' [])).1.vb y).dis = (b.vb y).dis :=
      (dis_add s m _ true p.1 _ y).trans (dis_add s m b false p.1 _ y)
    exact this.symm ▸ he
  · split
    · rw [note_vb]
      exact (dis_addInequality s m b p.1 _).1 y e he hl
    · split
      · rw [note_vb]
        exact (dis_add s m b false p.1 _ y).symm ▸ he
      · rw [note_vb]
        exact (dis_add s m b true p.1 _ y).symm ▸ he

theorem dis_ineqLoop (s : LinStore) (m : LModels) (c : LinCons) (ts : List (Nat × ℚ)) (y : Nat) :
    ∀ b d, ((BState.ineqLoop s m c ts b d).1.vb y).dis = (b.vb y).dis := by
  induction ts with
  | nil => intro b d; rfl
  | cons p ts ih =>
    intro b d
    unfold BState.ineqLoop
    split
    · exact ih _ _
    · simp only
      have er : (if BState.upward c p.2 = true then BState.lower s m b p.1 else BState.upper s m b p.1) =
          query s m b (!BState.upward c p.2) p.1 := by
        unfold query; cases BState.upward c p.2 <;> rfl
      rw [er]
      split
      · exact dis_query _ _ _ _ _ _
      · rw [ih]; exact dis_query _ _ _ _ _ _

theorem dis_eqLoop (s : LinStore) (m : LModels) (c : LinCons) (ts : List (Nat × ℚ)) (y : Nat) :
    ∀ b d0 d1, ((BState.eqLoop s m c ts b d0 d1).1.vb y).dis = (b.vb y).dis := by
  induction ts with
  | nil => intro b d0 d1; rfl
  | cons p ts ih =>
    intro b d0 d1
    unfold BState.eqLoop
    split
    · exact ih _ _ _
    · simp only
      have h : (((b.upper s m p.1).1.lower s m p.1).1.vb y).dis = (b.vb y).dis :=
        (dis_query s m (b.upper s m p.1).1 false p.1 y).trans (dis_query s m b true p.1 y)
      generalize (if p.2 < 0 then ((b.upper s m p.1).1.lower s m p.1).2 else (b.upper s m p.1).2) = b0
      generalize (if p.2 < 0 then (b.upper s m p.1).2 else ((b.upper s m p.1).1.lower s m p.1).2) = b1
      split
      · exact h
      · rw [ih]; exact h

theorem dis_eqFinish (s : LinStore) (m : LModels) (c : LinCons) (b : BState) (d : BState.Ded)
    (first : Bool) (y : Nat) : ((BState.eqFinish s m c b d first).vb y).dis = (b.vb y).dis := by
  unfold BState.eqFinish
  split
  · simp only
    rw [note_vb]
    split
    · exact dis_add s m b false _ _ y
    · exact dis_add s m b true _ _ y
  · rfl

theorem keepsAll_deduce (s : LinStore) (m : LModels) (b : BState) (c : LinCons) :
    KeepsAll s m b (b.deduce s m c) := by
  refine ⟨keepsLive_deduce s m b c, fun y e he _ => ?_⟩
  have : ((b.deduce s m c).vb y).dis = (b.vb y).dis := by
    unfold BState.deduce
    split
    · rfl
    · split
      · split
        · rfl
        · unfold BState.deduceEq
          simp only
          split
          · exact dis_eqLoop _ _ _ _ _ _ _ _
          · rw [dis_eqFinish, dis_eqFinish]; exact dis_eqLoop _ _ _ _ _ _ _ _
      · unfold BState.deduceIneq
        simp only
        split
        · exact dis_ineqLoop _ _ _ _ _ _ _
        · split
          · rw [note_vb]
            split
            · exact (dis_add _ _ _ true _ _ y).trans (dis_ineqLoop _ _ _ _ _ _ _)
            · exact (dis_add _ _ _ false _ _ y).trans (dis_ineqLoop _ _ _ _ _ _ _)
          · exact dis_ineqLoop _ _ _ _ _ _ _
  rw [this]; exact he

/-- A value that respects a bound respects every bound that is not better. -/
theorem resp_of_not_better {up : Bool} {v t : Bnd} {q : ℚ}
    (h : Bnd.isBetter (lessOf up) v t = false) (hr : Resp up t.value t.isStrict q) :
    Resp up v.value v.isStrict q := by
  have hn : ¬ (Bnd.isBetter (lessOf up) v t = true) := by rw [h]; simp
  rw [isBetter_iff] at hn
  have hn1 : 0 ≤ dq up * (v.value - t.value) := by
    by_contra h1; exact hn (Or.inl (not_le.mp h1))
  obtain ⟨r1, r2⟩ := hr
  have e : dq up * (q - v.value) = dq up * (q - t.value) - dq up * (v.value - t.value) := by ring
  refine ⟨by rw [e]; linarith, fun hs => ?_⟩
  rw [e]
  by_cases hz : dq up * (v.value - t.value) = 0
  · have hvt : v.value = t.value := by
      rcases dq_cases up with hd | hd <;> rw [hd] at hz <;> linarith
    have : t.isStrict = true := by
      by_contra hts
      exact hn (Or.inr ⟨hvt, hs, by simpa using hts⟩)
    have := r2 this
    linarith
  · have : 0 < dq up * (v.value - t.value) := lt_of_le_of_ne hn1 (Ne.symm hz)
    linarith

/-- After adding a bound, permitted values respect it. -/
theorem resp_add {s : LinStore} {m : LModels} {b b' : BState} {up : Bool} {x : Nat} {v : Bnd}
    (hl : v.isObsolete s m = false) (hk : KeepsLive s m (add s m b up x v).1 b') {q : ℚ}
    (hp : Permits s m b' x q) : Resp up v.value v.isStrict q := by
  obtain ⟨_, h2, _⟩ := vbounds_add s m b up x v
  cases ht : (query s m b up x).2.all (fun t => Bnd.isBetter (lessOf up) v t) with
  | true =>
    have hm : v ∈ stk (add s m b up x v).1 up x := by
      rw [h2 up x, if_pos ⟨rfl, rfl, ht⟩]; simp
    exact hp.1 up v (hk up x v hm hl) hl
  | false =>
    cases hq : (query s m b up x).2 with
    | none => rw [hq] at ht; simp at ht
    | some t =>
      rw [hq] at ht
      simp only [Option.all_some] at ht
      obtain ⟨_, q2, q3⟩ := query_some hq
      have hm : t ∈ stk (add s m b up x v).1 up x := by
        rw [h2 up x, if_neg (by rw [hq]; simp [ht])]; exact q2
      exact resp_of_not_better ht (hp.1 up t (hk up x t hm q3) q3)

/-- After `update` the bounds of the unassigned variable imply the constraint. -/
theorem comp_update {st : St} (h : LInv st) {c0 : LinCons} (hc0 : IsCons st.store c0)
    (hdef : st.models.bools.defined c0.lit.ord = true) {x : Nat} {vs : List Nat}
    (hvs : st.store.varsOf c0 = x :: vs) (hx : st.models.rats.defined x = false)
    (hd : ∀ y ∈ vs, st.models.rats.defined y = true) {c : LinCons} (hc : IsCons st.store c)
    (ho : c.lit.ord = c0.lit.ord) (hct : evalLit st.models.bools c.lit = some true) {q : ℚ}
    (hp : Permits st.store st.models (st.bnd.update st.store st.models c0) x q) :
    ConsTrue st.store c (Function.update st.models.rats.value x q) := by
  obtain ⟨a, ts, c', ha, hcc, hc', hct', htc, htc0, hrhs, hvc, hvts, hD⟩ := update_setup h hc0 hdef hvs hx hd
  have hce : c' = c := by
    rcases hc.same_ord h.inv hc' (by
      rw [ho, ← hcc]; split <;> simp [LinCons.neg, LinStore.Lit.neg_ord]) with e | e
    · exact e.symm
    · exfalso
      rw [e] at hct
      have : evalLit st.models.bools c'.neg.lit = (evalLit st.models.bools c'.lit).map (!·) :=
        evalLit_neg _ _
      rw [this, hct'] at hct
      simp at hct
  subst hce
  unfold BState.update at hp
  rw [hcc, htc0] at hp
  simp only [List.head?_cons, Option.getD_some] at hp
  generalize hval : st.store.impliedValue st.models.rats c0 = val at *
  have hnum : (⟨val, [], 1, x, a⟩ : BState.Ded).num = 1 := rfl
  have hw := hc'.terms_wf h.inv
  have hbd : st.models.bools.defined c'.lit.ord = true := by
    unfold evalLit at hct'
    by_contra hu
    rw [if_neg hu] at hct'; cases hct'
  have hlive : (Bnd.make st.store st.models x (val / a) c' []).isObsolete st.store st.models = false := by
    unfold Bnd.make
    rw [live_iff]
    refine ⟨⟨hct', le_refl _⟩, ?_, by simp⟩
    intro y hy hyx _
    have hyd : st.models.rats.defined y = true := by
      rw [hvc] at hy
      rcases List.mem_cons.mp hy with e | hy
      · exact absurd e hyx
      · exact hd y hy
    exact ⟨hyd, (foldl_ts_ge st.models x (st.store.varsOf c') 0).2 y hy hyx hyd⟩
  have hsum : lsum (Function.update st.models.rats.value x q) (st.store.terms c') =
      a * (q - val / a) + c'.rhs := by
    rw [htc, lsum_cons, hrhs]
    have hsub : ∀ r ∈ ts, Function.update st.models.rats.value x q r.1 = st.models.rats.value r.1 := by
      intro r hr
      rw [Function.update_of_ne]
      intro e
      rw [htc] at hw
      have := hw.nodup
      rw [List.map_cons, List.nodup_cons] at this
      exact this.1 (List.mem_map.mpr ⟨r, hr, e⟩)
    have e := impliedValue_eq htc0 _ hsub
    rw [hval] at e
    have e2 : a * (val / a) = val := mul_div_cancel₀ _ ha
    simp only [Function.update_self]
    linarith
  have hstr : (Bnd.make st.store st.models x (val / a) c' []).isStrict = c'.isStrict := by
    simp [Bnd.make, Bnd.isStrict, Bnd.reason, Bnd.deps]
  have hv : (Bnd.make st.store st.models x (val / a) c' []).value = val / a := rfl
  unfold ConsTrue LinTrue
  rw [hsum]
  by_cases heq : c'.pred = .eq
  · by_cases hn : c'.lit.isNeg = true
    · right
      refine ⟨hn, ?_⟩
      rw [if_neg (by rw [hn]; simp), if_pos ⟨heq, hn⟩] at hp
      rw [heq]
      show ¬ (_ = _)
      have hne : q ≠ val / a := by
        have hp2 := hp.2
        rw [note_vb] at hp2
        rcases (dis_addInequality st.store st.models st.bnd x
          (Bnd.make st.store st.models x (val / a) c' [])).2 with hm | ⟨e, he, hel, hev⟩
        · exact hp2 _ hm hlive
        · have := hp2 e he hel
          rwa [hev] at this
      intro e
      have : a * (q - val / a) = 0 := by linarith
      rcases mul_eq_zero.mp this with h0 | h0
      · exact ha h0
      · exact hne (by linarith)
    · rw [Bool.not_eq_true] at hn
      left
      refine ⟨hn, ?_⟩
      rw [if_pos ⟨heq, hn⟩] at hp
      rw [heq]
      show _ = _
      have r1 : Resp false (val / a) _ q := resp_add (s := st.store) (m := st.models) (b := st.bnd) (up := false) (x := x)
        (v := Bnd.make st.store st.models x (val / a) c' []) hlive
        (keepsLive_note (keepsLive_add st.store st.models _ true x
          (Bnd.make st.store st.models x (val / a) c' [])) _ _) hp
      have r2 : Resp true (val / a) _ q := resp_add (s := st.store) (m := st.models)
        (b := (add st.store st.models st.bnd false x (Bnd.make st.store st.models x (val / a) c' [])).1)
        (up := true) (x := x)
        (v := Bnd.make st.store st.models x (val / a) c' []) hlive
        (keepsLive_note (KeepsLive.refl _ _ _) _ _) hp
      have h1 := r1.1
      have h2 := r2.1
      simp only [dq] at h1 h2
      have : q = val / a := by simp at h1 h2; linarith
      rw [this]; ring
  · rw [if_neg (fun e => heq e.1), if_neg (fun e => heq e.1)] at hp
    have hil : BState.impliesLower c' a = !BState.upward c' a := by
      unfold BState.impliesLower BState.upward
      rw [if_neg heq]
      rcases lt_or_gt_of_ne ha with hlt | hgt
      · cases c'.lit.isNeg <;> simp [hlt, not_lt.mpr hlt.le]
      · cases c'.lit.isNeg <;> simp [hgt, not_lt.mpr hgt.le]
    have hr : Resp (BState.upward c' a) (val / a) c'.isStrict q := by
      rw [← hstr]
      simp only [hil] at hp
      cases hu : BState.upward c' a with
      | false =>
        rw [hu] at hp
        exact resp_add (s := st.store) (m := st.models) (b := st.bnd) (up := false) (x := x) hlive
          (keepsLive_note (KeepsLive.refl _ _ _) _ _) hp
      | true =>
        rw [hu] at hp
        exact resp_add (s := st.store) (m := st.models) (b := st.bnd) (up := true) (x := x) hlive
          (keepsLive_note (KeepsLive.refl _ _ _) _ _) hp
    obtain ⟨r1, r2⟩ := hr
    have hdir := (dq_upward heq ha).1
    -- the direction of the constraint
    have k1 : isg c' * (a * (q - val / a)) ≤ 0 := by
      have : isg c' * (a * (q - val / a)) =
          (dq (BState.upward c' a) * (isg c' * a)) * (dq (BState.upward c' a) * (q - val / a)) := by
        rw [dq_mul]; ring
      rw [this]
      exact mul_nonpos_of_nonneg_of_nonpos hdir.le r1
    have k2 : c'.isStrict = true → isg c' * (a * (q - val / a)) < 0 := by
      intro hs
      have : isg c' * (a * (q - val / a)) =
          (dq (BState.upward c' a) * (isg c' * a)) * (dq (BState.upward c' a) * (q - val / a)) := by
        rw [dq_mul]; ring
      rw [this]
      exact mul_neg_of_pos_of_neg hdir (r2 hs)
    generalize a * (q - val / a) = z at *
    unfold LinCons.isStrict at k2
    unfold isg Fm.initPred at k1 k2
    cases hn : c'.lit.isNeg <;> rw [hn] at k1 k2 <;> cases hpr : c'.pred <;> rw [hpr] at k1 k2 <;>
      simp_all [Rel]
end Lra
end Yaga
