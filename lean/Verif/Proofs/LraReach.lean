/-
The invariant holds in every reachable state of the arithmetic theory.
-/
import Verif.Proofs.LraDeduce
import Verif.Proofs.Literal

set_option linter.unusedVariables false
set_option linter.unusedSimpArgs false

namespace Yaga
open Spec
open LinStore (delta WfTerms Inv Kept Made)

theorem IsCons.neg {s : LinStore} {c : LinCons} (h : IsCons s c) : IsCons s c.neg := by
  obtain ⟨e, he, rfl | rfl⟩ := h
  · exact ⟨_, he, Or.inr rfl⟩
  · refine ⟨e, he, Or.inl ?_⟩
    unfold LinCons.neg
    cases e
    simp [Lit.neg_neg]

namespace Lra

theorem evalLit_of_defined {m : PModel Bool} {l : Lit} (h : m.defined l.ord = true) :
    evalLit m l = some true ∨ evalLit m l.neg = some true := by
  have ho : l.neg.ord = l.ord := Lit.ord_neg l
  unfold evalLit
  rw [ho, h]
  simp only [if_true, Lit.isNeg_neg]
  cases l.isNeg <;> cases m.value l.ord <;> simp

/-! ### Disallowed values -/

theorem LInv.pushDis {st : St} (h : LInv st) {x : Nat} {v : Bnd} (hg : GoodN st.store st.models x v)
    (hx : st.models.rats.defined x = false)
    (hf : (st.store.varsOf v.reason).head? = some x) :
    LInv { st with bnd := (st.bnd.addInequality st.store st.models x v).1 } := by
  have hst : ∀ up y, stk (st.bnd.addInequality st.store st.models x v).1 up y = stk st.bnd up y := by
    intro up y
    unfold BState.addInequality VBounds.addInequality VBounds.inequality
    simp only
    split <;> (rw [stk_put]; split
               · rename_i e; rw [e]; rfl
               · rfl)
  have hdis : ∀ y, ∀ b ∈ ((st.bnd.addInequality st.store st.models x v).1.vb y).dis,
      b ∈ (st.bnd.vb y).dis ∨ (y = x ∧ b = v) := by
    intro y b hb
    unfold BState.addInequality VBounds.addInequality VBounds.inequality at hb
    simp only at hb
    split at hb
    · rw [vb_put] at hb
      split at hb
      · rename_i e
        simp only [List.mem_append, List.mem_singleton] at hb
        rcases hb with hb | hb
        · left; rw [e]; exact List.mem_of_mem_filter hb
        · exact Or.inr ⟨e, hb⟩
      · exact Or.inl hb
    · rw [vb_put] at hb
      split at hb
      · rename_i e
        left; rw [e]; exact List.mem_of_mem_filter hb
      · exact Or.inl hb
  have hstk : stk (st.bnd.addInequality st.store st.models x v).1 = stk st.bnd := by
    funext up y; exact hst up y
  exact
    { inv := h.inv
      len := h.len
      dom := h.dom
      tsb := h.tsb
      tsr := h.tsr
      var := by intro up y b hb; rw [hst] at hb; exact h.var up y b hb
      good := by
        intro up y b hb
        rw [hst] at hb
        show GoodB _ _ (stk (st.bnd.addInequality st.store st.models x v).1) up b
        rw [hstk]; exact h.good up y b hb
      resp := by intro up y b hb; rw [hst] at hb; exact h.resp up y b hb
      best := by intro up y; rw [hst]; exact h.best up y
      dis := by
        intro y b hb
        rcases hdis y b hb with hb | ⟨rfl, rfl⟩
        · exact h.dis y b hb
        · exact hg
      front := by
        intro y b hb hl
        rcases hdis y b hb with hb | ⟨rfl, rfl⟩
        · exact h.front y b hb hl
        · exact hf
      respD := by
        intro y b hb hl hd
        rcases hdis y b hb with hb | ⟨rfl, rfl⟩
        · exact h.respD y b hb hl hd
        · exact absurd hd (by simp only; rw [hx]; simp) }

/-! ### `update` -/

theorem foldl_sub (f : Nat × ℚ → ℚ) (ts : List (Nat × ℚ)) (r : ℚ) :
    ts.foldl (fun r p => r - f p) r = r - (ts.map f).sum := by
  induction ts generalizing r with
  | nil => simp
  | cons p ts ih => rw [List.foldl_cons, ih, List.map_cons, List.sum_cons]; ring

theorem impliedValue_eq {s : LinStore} {m : PModel ℚ} {c : LinCons} {p : Nat × ℚ} {ts}
    (h : s.terms c = p :: ts) (σ : Nat → ℚ) (hσ : ∀ q ∈ ts, σ q.1 = m.value q.1) :
    s.impliedValue m c = c.rhs - lsum σ ts := by
  unfold LinStore.impliedValue
  rw [h, List.drop_one, List.tail_cons, foldl_sub (fun p => p.2 * m.value p.1)]
  congr 1
  unfold lsum
  congr 1
  exact List.map_congr_left fun q hq => by rw [hσ q hq]

/-- The constraint that `update` uses. -/
theorem update_setup {st : St} (h : LInv st) {c0 : LinCons} (hc0 : IsCons st.store c0)
    (hdef : st.models.bools.defined c0.lit.ord = true) {x : Nat} {vs : List Nat}
    (hvs : st.store.varsOf c0 = x :: vs) (hx : st.models.rats.defined x = false)
    (hd : ∀ y ∈ vs, st.models.rats.defined y = true) :
    ∃ (a : ℚ) (ts : List (Nat × ℚ)) (c : LinCons), a ≠ 0 ∧
      (if evalLit st.models.bools c0.lit = some true then c0 else c0.neg) = c ∧
      IsCons st.store c ∧ evalLit st.models.bools c.lit = some true ∧
      st.store.terms c = (x, a) :: ts ∧ (st.store.terms c0) = (x, a) :: ts ∧ c.rhs = c0.rhs ∧
      st.store.varsOf c = x :: vs ∧ vs = ts.map (·.1) ∧
      ∀ dir, DInv st dir c.rhs (st.store.terms c) ⟨st.store.impliedValue st.models.rats c0, [], 1, x, a⟩
        [(x, a)] := by
  have hw := hc0.terms_wf h.inv
  have hv := hc0.varsOf h.inv
  rw [hvs] at hv
  obtain ⟨p, ts, hts⟩ : ∃ p ts, st.store.terms c0 = p :: ts := by
    cases e : st.store.terms c0 with
    | nil => rw [e] at hv; simp at hv
    | cons p ts => exact ⟨p, ts, rfl⟩
  rw [hts, List.map_cons] at hv
  simp only [List.cons.injEq] at hv
  obtain ⟨y, a⟩ := p
  obtain ⟨rfl, hv⟩ := hv
  have hsub : ∀ q ∈ ts, st.models.rats.defined q.1 = true := by
    intro q hq
    exact hd _ (by rw [hv]; exact List.mem_map_of_mem hq)
  have hD : ∀ dir, DInv st dir c0.rhs ((x, a) :: ts)
      ⟨st.store.impliedValue st.models.rats c0, [], 1, x, a⟩ [(x, a)] := by
    intro dir
    refine ⟨?_, by simp, ?_, ?_, by simp, rfl, by simp⟩
    · intro σ ha _
      simp only
      rw [impliedValue_eq hts σ (fun q hq => ha _ (hsub q hq)), lsum_cons, lsum_cons]
      simp
      ring
    · intro q hq hu
      right
      rcases List.mem_cons.mp hq with rfl | hq
      · simp
      · rw [hsub q hq] at hu; cases hu
    · intro q hq
      simp at hq; subst hq
      exact ⟨by simp, hx, by simp⟩
  by_cases ht : evalLit st.models.bools c0.lit = some true
  · exact ⟨a, ts, c0, hw.nz (x, a) (by rw [hts]; simp), by rw [if_pos ht], hc0, ht, hts, hts, rfl, hvs, hv,
      fun dir => by rw [hts]; exact hD dir⟩
  · have hn : evalLit st.models.bools c0.neg.lit = some true := by
      rcases evalLit_of_defined hdef with h1 | h1
      · exact absurd h1 ht
      · exact h1
    have e : st.store.terms c0.neg = (x, a) :: ts := hts
    exact ⟨a, ts, c0.neg, hw.nz (x, a) (by rw [hts]; simp), by rw [if_neg ht], hc0.neg, hn, e, hts, rfl,
      hvs, hv, fun dir => by rw [e]; exact hD dir⟩

theorem goodB_add {st : St} {up up' : Bool} {x : Nat} {v w : Bnd}
    (h : LInv st) (hw : w.var = x) (hg' : GoodB st.store st.models (stk st.bnd) up' w)
    (hg : GoodB st.store st.models (stk st.bnd) up v) :
    GoodB st.store st.models (stk (add st.store st.models st.bnd up' x w).1) up v :=
  hg.mono h.inv h.inv (Kept.refl _) ⟨PStep.refl _, PStep.refl _⟩ (fun up' y e he hl => add_live _ _ _ up' y e he hl)

theorem LInv.update {st : St} (h : LInv st) {c0 : LinCons} (hc0 : IsCons st.store c0)
    (hdef : st.models.bools.defined c0.lit.ord = true) {x : Nat} {vs : List Nat}
    (hvs : st.store.varsOf c0 = x :: vs) (hx : st.models.rats.defined x = false)
    (hd : ∀ y ∈ vs, st.models.rats.defined y = true) :
    LInv { st with bnd := st.bnd.update st.store st.models c0 } := by
  obtain ⟨a, ts, c, ha, hcc, hc, hct, htc, htc0, hrhs, hvc, hvts, hD⟩ := update_setup h hc0 hdef hvs hx hd
  unfold BState.update
  rw [hcc, htc0]
  simp only [List.head?_cons, Option.getD_some]
  generalize hval : st.store.impliedValue st.models.rats c0 = val at *
  have hnum : (⟨val, [], 1, x, a⟩ : BState.Ded).num = 1 := rfl
  by_cases heq : c.pred = .eq
  · by_cases hn : c.lit.isNeg = true
    · -- a disallowed value
      rw [if_neg (by rw [hn]; simp), if_pos ⟨heq, hn⟩]
      refine LInv.congr (h.pushDis (x := x) (v := Bnd.make st.store st.models x (val / a) c []) ?_ hx ?_)
        (note_vb _ _ _)
      · have hw := hc.terms_wf h.inv
        have hbd : st.models.bools.defined c.lit.ord = true := by
          unfold evalLit at hct
          by_contra hu
          rw [if_neg hu] at hct; cases hct
        refine ⟨hc, heq, hn, rfl, rfl, ?_, ⟨(h.tsb _ hbd).2, ?_⟩, st.models.rats.value, ?_, ?_⟩
        · show co x (st.store.terms c) ≠ 0
          rw [htc]
          have : co x ((x, a) :: ts) = a := LinStore.delta_mem (p := (x, a)) (by rw [htc] at hw; exact hw.nodup) (by simp)
          rw [this]; exact ha
        · intro y hy hyx
          have hy' : y ∈ x :: vs := by rw [← hvc]; exact hy
          have hyd : st.models.rats.defined y = true := by
            rcases List.mem_cons.mp hy' with e | hy'
            · exact absurd e hyx
            · exact hd y hy'
          have := h.tsr y hyd
          exact foldl_ts_lt h.tsr _ _ _ (by omega)
        · show lsum (bsub x (val / a) [] st.models.rats.value) (st.store.terms c) = c.rhs
          rw [htc, lsum_cons, hrhs]
          have hsub : ∀ q ∈ ts, bsub x (val / a) [] st.models.rats.value q.1 =
              st.models.rats.value q.1 := by
            intro q hq
            refine bsub_other ?_ (by simp)
            intro e
            rw [htc] at hw
            have := hw.nodup
            rw [List.map_cons, List.nodup_cons] at this
            exact this.1 (List.mem_map.mpr ⟨q, hq, e⟩)
          have e := impliedValue_eq htc0 _ hsub
          rw [hval] at e
          simp only [bsub_self]
          rw [mul_div_cancel₀ _ ha]
          linarith
        · intro y hy hyx _ _; rfl
      · show (st.store.varsOf c).head? = some x
        rw [hvc]; rfl
    · rw [Bool.not_eq_true] at hn
      rw [if_pos ⟨heq, hn⟩]
      have hpe : Fm.initPred c = .eq := by unfold Fm.initPred; rw [hn, heq]; simp
      have key : ∀ up, GoodB st.store st.models (stk st.bnd) up
          (Bnd.make st.store st.models x (val / a) c []) := by
        intro up
        refine (good_make h hc hct (fun e => by rw [hn] at e; exact absurd e.2 (by simp))
          (List.Perm.refl _) (hD (fun b => decide ((if 0 < dq up * a then (1 : ℚ) else -1) * b < 0)))
          hnum (t := if 0 < dq up * a then 1 else -1)
          (up := up) (by split <;> simp) (fun e => absurd hpe e) ?_ ?_).1
        · rw [isg_eq heq, one_mul]
          show 0 < dq up * (_ * a)
          rcases lt_or_gt_of_ne ha with hlt | hgt
          · cases up
            · simp [dq, hlt]
            · simp [dq, not_lt.mpr hlt.le]; exact hlt
          · cases up
            · simp [dq, not_lt.mpr hgt.le]; exact hgt
            · simp [dq, hgt]
        · intro b hb
          rw [isg_eq heq, one_mul]
          have hT : (if 0 < dq up * a then (1 : ℚ) else -1) * b ≠ 0 :=
            mul_ne_zero (by split <;> norm_num) hb
          generalize (if 0 < dq up * a then (1 : ℚ) else -1) * b = T at hT
          rcases lt_or_gt_of_ne hT with hlt | hgt
          · simp [dq, hlt]
          · simp [dq, hgt, not_lt.mpr hgt.le]
      have g1 := h.add (up := false) (x := x) (v := Bnd.make st.store st.models x (val / a) c []) rfl
        (key false) hx
      have g2 := g1.add (up := true) (x := x) (v := Bnd.make st.store st.models x (val / a) c []) rfl
        (goodB_add h rfl (key false) (key true)) hx
      exact g2.congr (note_vb _ _ _)
  · rw [if_neg (fun e => heq e.1), if_neg (fun e => heq e.1)]
    have key : GoodB st.store st.models (stk st.bnd) (BState.upward c a)
        (Bnd.make st.store st.models x (val / a) c []) :=
      (good_make h hc hct (fun e => heq e.1) (List.Perm.refl _) (hD (fun b => !BState.upward c b)) hnum
        (t := 1) (up := BState.upward c a) (Or.inl rfl) (fun _ => rfl)
        (by rw [one_mul]; exact (dq_upward heq ha).1)
        (fun b hb => by rw [one_mul]; exact (dq_upward heq hb).2)).1
    have hil : BState.impliesLower c a = !BState.upward c a := by
      unfold BState.impliesLower BState.upward
      rw [if_neg heq]
      rcases lt_or_gt_of_ne ha with hlt | hgt
      · cases c.lit.isNeg <;> simp [hlt, not_lt.mpr hlt.le]
      · cases c.lit.isNeg <;> simp [hgt, not_lt.mpr hgt.le]
    simp only [hil]
    cases hu : BState.upward c a with
    | false =>
      rw [hu] at key
      exact (h.add (up := false) (x := x) rfl key hx).congr (note_vb _ _ _)
    | true =>
      rw [hu] at key
      exact (h.add (up := true) (x := x) rfl key hx).congr (note_vb _ _ _)

/-! ### Queries -/

/-- `b'` results from `b` by removing obsolete bounds only. -/
structure Shrunk (s : LinStore) (m : LModels) (b b' : BState) : Prop where
  sub : ∀ up x, (stk b' up x).Sublist (stk b up x)
  live : ∀ up x, ∀ e ∈ stk b up x, e.isObsolete s m = false → e ∈ stk b' up x
  dis : ∀ x, ∀ e ∈ (b'.vb x).dis, e ∈ (b.vb x).dis
  liveD : ∀ x, ∀ e ∈ (b.vb x).dis, e.isObsolete s m = false → e ∈ (b'.vb x).dis

theorem Shrunk.refl (s : LinStore) (m : LModels) (b : BState) : Shrunk s m b b :=
  ⟨fun _ _ => List.Sublist.refl _, fun _ _ _ h _ => h, fun _ _ h => h, fun _ _ h _ => h⟩

theorem Shrunk.trans {s : LinStore} {m : LModels} {a b c : BState} (h1 : Shrunk s m a b)
    (h2 : Shrunk s m b c) : Shrunk s m a c :=
  ⟨fun up x => (h2.sub up x).trans (h1.sub up x),
    fun up x e he hl => h2.live up x e (h1.live up x e he hl) hl,
    fun x e he => h1.dis x e (h2.dis x e he),
    fun x e he hl => h2.liveD x e (h1.liveD x e he hl) hl⟩

theorem LInv.shrunk {st : St} (h : LInv st) {b' : BState} (hs : Shrunk st.store st.models st.bnd b') :
    LInv { st with bnd := b' } := h.shrink hs.sub hs.live hs.dis

theorem shrunk_query (s : LinStore) (m : LModels) (b : BState) (up : Bool) (x : Nat) :
    Shrunk s m b (query s m b up x).1 := by
  refine ⟨?_, ?_, ?_, ?_⟩
  · intro up' y
    rw [stk_query]
    split
    · rename_i e
      rw [e.1, e.2]; exact popObs_sublist _ _ _
    · exact List.Sublist.refl _
  · exact query_live (st := ⟨s, m, b⟩) up x
  · intro y e he; rw [dis_query] at he; exact he
  · intro y e he _; rw [dis_query]; exact he

theorem shrunk_inequality (s : LinStore) (m : LModels) (b : BState) (x : Nat) (q : ℚ) :
    Shrunk s m b (b.put x ((b.vb x).inequality s m q).1) := by
  have hst : ∀ up y, stk (b.put x ((b.vb x).inequality s m q).1) up y = stk b up y := by
    intro up y
    rw [stk_put]
    split
    · rename_i e; rw [e]; rfl
    · rfl
  refine ⟨fun up y => by rw [hst], fun up y e he _ => by rw [hst]; exact he, ?_, ?_⟩
  · intro y e he
    rw [vb_put] at he
    split at he
    · rename_i h'; rw [h']; exact List.mem_of_mem_filter he
    · exact he
  · intro y e he hl
    rw [vb_put]
    split
    · rename_i h'; rw [h'] at he
      exact List.mem_filter.mpr ⟨he, by simp [hl]⟩
    · exact he

theorem put_put (b : BState) (x : Nat) (v w : VBounds) : (b.put x v).put x w = b.put x w := by
  unfold BState.put; simp

/-- `is_allowed` in terms of queries: what is left of the stacks, and what the answer means. -/
theorem allowed_spec (s : LinStore) (m : LModels) (b : BState) (x : Nat) (q : ℚ) :
    Shrunk s m b (b.put x ((b.vb x).isAllowed s m q).1) ∧
    (((b.vb x).isAllowed s m q).2 = true →
      (∀ e ∈ (b.vb x).dis, e.isObsolete s m = false → e.value ≠ q) ∧
      ∀ up, ∀ t, (query s m b up x).2 = some t → Resp up t.value t.isStrict q) := by
  have h1 := shrunk_inequality s m b x q
  unfold VBounds.isAllowed
  simp only
  by_cases hi : ((b.vb x).inequality s m q).2.isSome = true
  · rw [if_pos hi]
    exact ⟨h1, by simp⟩
  · rw [if_neg hi]
    generalize hb1 : b.put x ((b.vb x).inequality s m q).1 = b1 at h1
    have e1 : b1.vb x = ((b.vb x).inequality s m q).1 := by rw [← hb1, vb_put, if_pos rfl]
    have hdis : ∀ e ∈ (b.vb x).dis, e.isObsolete s m = false → e.value ≠ q := by
      intro e he hl hq
      have : ((b.vb x).inequality s m q).2 = none := by
        cases hh : ((b.vb x).inequality s m q).2 with
        | none => rfl
        | some w => rw [hh] at hi; simp at hi
      have h3 := List.find?_eq_none.mp this e (List.mem_filter.mpr ⟨he, by simp [hl]⟩)
      simp [hq] at h3
    have hst : ∀ up, stk b1 up x = stk b up x := by
      intro up; unfold stk; rw [e1]; rfl
    unfold VBounds.checkLower
    simp only
    have hq1 := shrunk_query s m b1 false x
    have r1 : (query s m b1 false x).2 = (query s m b false x).2 := by
      rw [query_res, query_res, hst]
    have eq1 : query s m b1 false x = (b.put x ((((b.vb x).inequality s m q).1).lower s m).1,
        ((((b.vb x).inequality s m q).1).lower s m).2) := by
      show (b1.put x ((b1.vb x).lower s m).1, _) = _
      rw [e1, ← hb1, put_put]
    rw [eq1] at hq1 r1
    simp only at hq1 r1
    generalize ((((b.vb x).inequality s m q).1).lower s m) = L at *
    by_cases hl : (L.2.all fun b => decide (b.value < q) || (decide (b.value = q) && !b.isStrict)) = true
    · rw [if_pos hl]
      unfold VBounds.checkUpper
      simp only
      have hq2 := shrunk_query s m (b.put x L.1) true x
      have e2 : (b.put x L.1).vb x = L.1 := by rw [vb_put, if_pos rfl]
      have eq2 : query s m (b.put x L.1) true x = (b.put x (L.1.upper s m).1, (L.1.upper s m).2) := by
        show ((b.put x L.1).put x (((b.put x L.1).vb x).upper s m).1, _) = _
        rw [e2, put_put]
      have hst2 : stk (b.put x L.1) true x = stk b true x := by
        have h9 := congrArg (fun p => p.1) eq1
        simp only at h9
        rw [← h9, stk_query, if_neg (by simp), hst]
      have r2 : (query s m (b.put x L.1) true x).2 = (query s m b true x).2 := by
        rw [query_res, query_res, hst2]
      rw [eq2] at hq2 r2
      simp only at hq2 r2
      generalize L.1.upper s m = U at *
      refine ⟨(h1.trans hq1).trans hq2, fun hu => ⟨hdis, ?_⟩⟩
      intro up t ht
      cases up with
      | false =>
        rw [← r1] at ht
        rw [ht] at hl
        simp only [Option.all_some, Bool.or_eq_true, decide_eq_true_eq, Bool.and_eq_true,
          Bool.not_eq_true'] at hl
        rcases hl with hl | ⟨hl, hs⟩
        · refine ⟨?_, fun _ => ?_⟩ <;> (simp [dq]; linarith)
        · rw [hl, hs]
          exact ⟨by simp, by simp⟩
      | true =>
        rw [← r2] at ht
        rw [ht] at hu
        simp only [Option.all_some, Bool.or_eq_true, decide_eq_true_eq, Bool.and_eq_true,
          Bool.not_eq_true'] at hu
        rcases hu with hu | ⟨hu, hs⟩
        · refine ⟨?_, fun _ => ?_⟩ <;> (simp [dq]; linarith)
        · rw [hu, hs]
          exact ⟨by simp, by simp⟩
    · rw [if_neg hl]
      exact ⟨h1.trans hq1, by simp⟩

/-- The answer of a query is at least as good as every live bound. -/
theorem query_best {st : St} (h : LInv st) {up : Bool} {x : Nat} {e : Bnd} (he : e ∈ stk st.bnd up x)
    (hl : e.isObsolete st.store st.models = false) :
    ∃ t, (Lra.query st.store st.models st.bnd up x).2 = some t ∧
      (t = e ∨ Bnd.isBetter (lessOf up) t e = true) := by
  have hm := popObs_live st.store st.models he hl
  have hp := (h.best up x).sublist (popObs_sublist st.store st.models (stk st.bnd up x))
  rw [query_res]
  cases hs : VBounds.popObs st.store st.models (stk st.bnd up x) with
  | nil => rw [hs] at hm; cases hm
  | cons t ts =>
    rw [hs] at hm hp
    refine ⟨t, rfl, ?_⟩
    rcases List.mem_cons.mp hm with e | hm
    · exact Or.inl e.symm
    · exact Or.inr ((List.pairwise_cons.mp hp).1 _ hm)

theorem shrunk_impliedLoop (s : LinStore) (m : LModels) (c : LinCons) (ts : List (Nat × ℚ)) :
    ∀ (b : BState) (r : ℚ), Shrunk s m b (BState.impliedLoop s m c ts b r).1 := by
  induction ts with
  | nil => intro b r; exact Shrunk.refl _ _ _
  | cons p ts ih =>
    intro b r
    unfold BState.impliedLoop
    split
    · exact ih _ _
    · simp only
      have er : (if BState.upward c p.2 = true then BState.upper s m b p.1 else BState.lower s m b p.1) =
          query s m b (BState.upward c p.2) p.1 := rfl
      rw [er]
      have hq := shrunk_query s m b (BState.upward c p.2) p.1
      split
      · exact hq
      · exact hq.trans (ih _ _)

theorem shrunk_isImplied (s : LinStore) (m : LModels) (b : BState) (c : LinCons) :
    Shrunk s m b (b.isImplied s m c).1 := by
  unfold BState.isImplied
  split
  · exact Shrunk.refl _ _ _
  · simp only
    split <;> exact shrunk_impliedLoop _ _ _ _ _ _

/-! ### All operations -/

theorem MStep.refl (m : LModels) : MStep m m := ⟨PStep.refl _, PStep.refl _⟩

theorem linv_init : LInv St.init where
  inv := LinStore.inv_init
  len := rfl
  dom := by intro o h; simp [St.init, PModel.empty] at h
  tsb := by intro o h; simp [St.init, PModel.empty] at h
  tsr := by intro o h; simp [St.init, PModel.empty] at h
  var := by intro up x b h; cases up <;> simp [stk, St.init, BState.init, VBounds.empty] at h
  good := by intro up x b h; cases up <;> simp [stk, St.init, BState.init, VBounds.empty] at h
  resp := by intro up x b h; cases up <;> simp [stk, St.init, BState.init, VBounds.empty] at h
  best := by intro up x; cases up <;> simp [stk, St.init, BState.init, VBounds.empty]
  dis := by intro x b h; simp [St.init, BState.init, VBounds.empty] at h
  front := by intro x b h; simp [St.init, BState.init, VBounds.empty] at h
  respD := by intro x b h; simp [St.init, BState.init, VBounds.empty] at h

theorem LInv.setRat {st : St} (h : LInv st) {x : Nat} {q : ℚ} (hx : st.models.rats.defined x = false)
    (ha : ((st.bnd.vb x).isAllowed st.store st.models q).2 = true) :
    LInv ⟨st.store, { st.models with rats := st.models.rats.setValue x q },
      st.bnd.put x ((st.bnd.vb x).isAllowed st.store st.models q).1⟩ := by
  obtain ⟨hs, hr⟩ := allowed_spec st.store st.models st.bnd x q
  obtain ⟨hd, hb⟩ := hr ha
  have h1 := h.shrunk hs
  refine h1.models ⟨PStep.refl _, PStep.setValue _ _ _⟩ rfl h.dom h.tsb (TsOk.setValue h.tsr _ _) ?_
  intro y hy
  by_cases e : y = x
  · right
    subst e
    have hv : (st.models.rats.setValue y q).value y = q := by simp [PModel.setValue]
    rw [hv]
    refine ⟨?_, ?_⟩
    · intro up b hm hl
      obtain ⟨t, ht, hor⟩ := query_best h ((hs.sub up y).subset hm) hl
      have := hb up t ht
      rcases hor with e | hbet
      · rw [← e]; exact this
      · exact resp_of_better hbet this
    · intro b hm hl
      exact fun e => hd b (hs.dis y b hm) hl e.symm
  · left
    simp [PModel.setValue, e] at hy ⊢
    exact hy

theorem LInv.swap {st : St} (h : LInv st) {ord i j : Nat} (hi : i < (st.store.get ord).size)
    (hj : j < (st.store.get ord).size)
    (hc : i = j ∨ (0 < i ∧ 0 < j) ∨
        ((∀ x ∈ (st.store.varsOf (st.store.get ord)).head?, st.models.rats.defined x = true) ∧
          ∃ y ∈ st.store.varsOf (st.store.get ord), st.models.rats.defined y = false)) :
    LInv { st with store := st.store.swapTerms (st.store.get ord) i j } := by
  obtain ⟨hI', hK⟩ := LinStore.swap_spec h.inv hi hj
  have hm : st.store.get ord ∈ st.store.set := LinStore.get_mem h.inv (by omega)
  refine h.env hI' hK (MStep.refl _) h.len h.dom h.tsb h.tsr
    (fun y hy => Or.inl ⟨hy, rfl⟩) ?_
  intro x b hb hl hl' hf
  have g := h.dis x b hb
  have hI := h.inv
  generalize st.store.get ord = c at *
  -- what happens to a stored constraint
  have key : ∀ e ∈ st.store.set, (∀ z, z = b.reason → st.store.varsOf z = st.store.varsOf e) →
      (st.store.swapTerms c i j).varsOf b.reason = (st.store.swapTerms c i j).varsOf e →
      ((st.store.swapTerms c i j).varsOf b.reason).head? = some x := by
    intro e he hz1 hz2
    have hz1 := hz1 _ rfl
    rw [hz2]
    rw [hz1] at hf
    by_cases hce : c = e
    · subst hce
      have hr := hI.rng c hm
      have hle := hI.len
      unfold LinCons.size at hi hj
      have hv : (st.store.swapTerms c i j).varsOf c = LinStore.swapAt (st.store.varsOf c) i j := by
        unfold LinStore.varsOf LinStore.swapTerms
        simp only
        exact LinStore.slice_swapAt_inside (by omega) (by omega) hr.2
      have hlen : (st.store.varsOf c).length = c.second - c.first := LinStore.length_slice hr.2
      rcases hc with rfl | ⟨h0, h1⟩ | ⟨h0, y, hy, hyu⟩
      · rw [hv, List.head?_eq_getElem?, LinStore.swapAt_getElem? (by omega) (by omega)]
        rw [List.head?_eq_getElem?] at hf
        split
        · rename_i e0; rw [← e0]; exact hf
        · exact hf
      · rw [hv, List.head?_eq_getElem?, LinStore.swapAt_getElem? (by omega) (by omega),
          if_neg (by omega), if_neg (by omega)]
        rw [List.head?_eq_getElem?] at hf
        exact hf
      · exfalso
        have hxd := h0 x hf
        have hyx : y ≠ x := by
          rintro rfl
          rw [hyu] at hxd; cases hxd
        rw [bnd_eta b, live_iff] at hl
        have := (hl.2.1 y (by rw [hz1]; exact hy) (by rw [g.var]; exact hyx) (by rw [g.deps]; simp)).1
        rw [hyu] at this; cases this
    · rw [LinStore.varsOf_eq hI'.len (hI'.rng e (hK.set e he)).2, LinStore.swap_other hI hm he hce hi hj,
        ← LinStore.varsOf_eq hI.len (hI.rng e he).2]
      exact hf
  obtain ⟨e, he, hre | hre⟩ := g.cons
  · exact key e he (by rintro z rfl; rw [hre]) (by rw [hre])
  · exact key e he (by rintro z rfl; rw [hre]; rfl) (by rw [hre]; rfl)

theorem LInv.constraint (hv : Nat → Nat) (hc : ℚ → Nat) {st : St} (h : LInv st)
    {ts : List (Nat × ℚ)} (hts : (ts.map (·.1)).Nodup) (pred : Pred) (rhs : ℚ) :
    LInv ⟨(Lra.constraint hv hc st.store st.models ts pred rhs).1,
      (Lra.constraint hv hc st.store st.models ts pred rhs).2.1, st.bnd⟩ := by
  obtain ⟨hI', hK, hterms, hlen, ⟨hgr, hgb⟩, _⟩ := constraint_spec hv hc h.inv h.len hts pred rhs
  generalize Lra.constraint hv hc st.store st.models ts pred rhs = r at *
  have hb : PStep st.models.bools r.2.1.bools ∧ TsOk r.2.1.bools ∧
      ∀ o, r.2.1.bools.defined o = true → o < r.2.1.bools.num := by
    rcases hgb with e | ⟨n, hn, e⟩
    · rw [e]; exact ⟨PStep.refl _, h.tsb, h.dom⟩
    · rw [e]
      refine ⟨PStep.resize _ _ _, TsOk.resize h.tsb _ _, ?_⟩
      intro o ho
      simp only [PModel.resize] at ho ⊢
      split at ho
      · rename_i h'; exact h'.2
      · cases ho
  refine h.env hI' hK ⟨hb.1, by rw [hgr]; exact PStep.refl _⟩ hlen hb.2.2 hb.2.1
    (by rw [hgr]; exact h.tsr) (fun y hy => Or.inl ⟨by rw [hgr] at hy; exact hy, by rw [hgr]⟩) ?_
  intro x b hb hl hl' hf
  obtain ⟨e, he, hre⟩ := (h.dis x b hb).cons
  have e1 : r.1.varsOf e = st.store.varsOf e := by
    rw [LinStore.varsOf_eq hI'.len (hI'.rng e (hK.set e he)).2, hterms e he,
      ← LinStore.varsOf_eq h.inv.len (h.inv.rng e he).2]
  rcases hre with hre | hre
  · rw [hre, e1, ← hre]; exact hf
  · rw [hre] at hf ⊢
    show (r.1.varsOf e).head? = some x
    rw [e1]; exact hf

theorem LInv.op (hv : Nat → Nat) (hc : ℚ → Nat) {st : St} (h : LInv st) {op : Op} (ok : op.Ok st) :
    LInv (op.run hv hc st) := by
  cases op with
  | resizeBool n =>
    have ok : st.models.bools.num ≤ n := ok
    obtain ⟨hI', hK⟩ := LinStore.resize_spec h.inv (n := n) (by rw [h.len]; exact ok)
    refine h.env hI' hK ⟨PStep.resize _ _ _, PStep.refl _⟩ ?_ ?_ (TsOk.resize h.tsb _ _) h.tsr
      (fun y hy => Or.inl ⟨hy, rfl⟩) (fun _ _ _ _ _ hf => hf)
    · have := h.len
      simp [LinStore.resize, PModel.resize]
      omega
    · intro o ho
      simp only [PModel.resize] at ho ⊢
      split at ho
      · rename_i h'; exact h'.2
      · cases ho
  | resizeRat n =>
    have ok : st.models.rats.num ≤ n := ok
    refine h.models ⟨PStep.refl _, PStep.resize _ _ _⟩ rfl h.dom h.tsb (TsOk.resize h.tsr _ _) ?_
    intro y hy
    left
    simp only [PModel.resize] at hy ⊢
    split at hy
    · rename_i h'; rw [if_pos h']; exact ⟨hy, rfl⟩
    · cases hy
  | setBool ord v =>
    obtain ⟨h1, h2⟩ := ok
    refine h.models ⟨PStep.setValue _ _ _, PStep.refl _⟩ rfl ?_ (TsOk.setValue h.tsb _ _) h.tsr
      (fun y hy => Or.inl ⟨hy, rfl⟩)
    intro o ho
    by_cases e : o = ord
    · subst e; exact h1
    · simp [PModel.setValue, e] at ho
      exact h.dom o ho
  | clearBool ord =>
    refine h.models ⟨PStep.clear _ _, PStep.refl _⟩ rfl ?_ (TsOk.clear h.tsb _) h.tsr
      (fun y hy => Or.inl ⟨hy, rfl⟩)
    intro o ho
    by_cases e : o = ord
    · subst e; simp [PModel.clear] at ho
    · simp [PModel.clear, e] at ho
      exact h.dom o ho
  | setRat x q => exact h.setRat ok.2.1 ok.2.2
  | clearRat x =>
    refine h.models ⟨PStep.refl _, PStep.clear _ _⟩ rfl h.dom h.tsb (TsOk.clear h.tsr _) ?_
    intro y hy
    left
    by_cases e : y = x
    · subst e; simp [PModel.clear] at hy
    · simp [PModel.clear, e] at hy ⊢
      exact hy
  | constraint ts p r => exact h.constraint hv hc ok p r
  | swap ord i j => exact h.swap ok.1 ok.2.1 ok.2.2
  | update c =>
    obtain ⟨h1, h2, x, vs, h3, h4, h5⟩ := ok
    exact h.update h1 h2 h3 h4 h5
  | deduce c => exact h.deduce ok.1 ok.2
  | upper x => exact h.query true x
  | lower x => exact h.query false x
  | inequality x q => exact h.shrunk (shrunk_inequality _ _ _ _ _)
  | allowed x q => exact h.shrunk (allowed_spec _ _ _ _ _).1
  | implied c => exact h.shrunk (shrunk_isImplied _ _ _ _)
  | changed => exact h.congr rfl

theorem steps_linv (hv : Nat → Nat) (hc : ℚ → Nat) {st t : St} (h : LInv st) (hs : Steps hv hc st t) :
    LInv t := by
  induction hs with
  | refl => exact h
  | step op _ ok ih => exact ih.op hv hc ok

theorem reach_linv {hv : Nat → Nat} {hc : ℚ → Nat} {st : St} (h : Reach hv hc st) : LInv st :=
  steps_linv hv hc linv_init h

end Lra
end Yaga
