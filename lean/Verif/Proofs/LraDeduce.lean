/-
`update` and `deduce` only add well-formed bounds.
-/
import Verif.Proofs.LraInv

set_option linter.unusedVariables false
set_option linter.unusedSimpArgs false

namespace Yaga
open Spec
open LinStore (delta WfTerms Inv Kept Made)

namespace Lra

/-- What the loops of `deduce` have computed after the terms `pre`. `unb` are the unassigned variables
without a bound; `dir a` tells which bound of a variable with coefficient `a` is used. -/
structure DInv (st : St) (dir : ℚ → Bool) (rhs : ℚ) (pre : List (Nat × ℚ)) (d : BState.Ded)
    (unb : List (Nat × ℚ)) : Prop where
  sum : ∀ σ, Agrees st.models σ → (∀ e ∈ d.deps, σ e.var = e.value) →
    lsum σ pre = rhs - d.bound + lsum σ unb
  deps : ∀ e ∈ d.deps, e.isObsolete st.store st.models = false ∧
    ∃ a, (e.var, a) ∈ pre ∧ st.models.rats.defined e.var = false ∧ e ∈ stk st.bnd (dir a) e.var
  cover : ∀ p ∈ pre, st.models.rats.defined p.1 = false → p.1 ∈ d.deps.map Bnd.var ∨ p ∈ unb
  ubd : ∀ p ∈ unb, p ∈ pre ∧ st.models.rats.defined p.1 = false ∧ p.1 ∉ d.deps.map Bnd.var
  nodup : (d.deps.map Bnd.var).Nodup
  num : d.num = unb.length
  last : ∀ p, unb.getLast? = some p → p = (d.var, d.coef)

theorem DInv.init (st : St) (dir : ℚ → Bool) (rhs : ℚ) : DInv st dir rhs [] ⟨rhs, [], 0, 0, 0⟩ [] := by
  refine ⟨?_, by simp, by simp, by simp, by simp, rfl, by simp⟩
  intro σ _ _
  simp

theorem DInv.assigned {st : St} {dir : ℚ → Bool} {rhs : ℚ} {pre d unb} (h : DInv st dir rhs pre d unb)
    {p : Nat × ℚ} (hp : st.models.rats.defined p.1 = true) :
    DInv st dir rhs (pre ++ [p]) (d.assigned p.2 (st.models.rats.value p.1)) unb := by
  refine ⟨?_, ?_, ?_, ?_, h.nodup, h.num, h.last⟩
  · intro σ ha hd
    rw [lsum_append, h.sum σ ha hd]
    show _ + lsum σ [p] = rhs - (d.bound - p.2 * _) + _
    rw [lsum_cons, ha p.1 hp]
    simp
    ring
  · intro e he
    obtain ⟨h1, a, h2, h3⟩ := h.deps e he
    exact ⟨h1, a, List.mem_append_left _ h2, h3⟩
  · intro q hq hu
    rcases List.mem_append.mp hq with hq | hq
    · exact h.cover q hq hu
    · simp at hq; subst hq; rw [hp] at hu; cases hu
  · intro q hq
    obtain ⟨h1, h2⟩ := h.ubd q hq
    exact ⟨List.mem_append_left _ h1, h2⟩

theorem DInv.unassigned {st : St} {dir : ℚ → Bool} {rhs : ℚ} {pre d unb} (h : DInv st dir rhs pre d unb)
    {p : Nat × ℚ} (hp : st.models.rats.defined p.1 = false) (hn : p.1 ∉ pre.map (·.1))
    {o : Option Bnd}
    (ho : ∀ t, o = some t → t.var = p.1 ∧ t.isObsolete st.store st.models = false ∧
      t ∈ stk st.bnd (dir p.2) p.1) :
    ∃ unb', DInv st dir rhs (pre ++ [p]) (d.unassigned p.1 p.2 o) unb' := by
  cases o with
  | some t =>
    obtain ⟨t1, t2, t3⟩ := ho t rfl
    have hnd : p.1 ∉ d.deps.map Bnd.var := by
      intro hm
      obtain ⟨e, he, hev⟩ := List.mem_map.mp hm
      obtain ⟨_, a, h2, _⟩ := h.deps e he
      rw [hev] at h2
      exact hn (List.mem_map.mpr ⟨_, h2, rfl⟩)
    refine ⟨unb, ?_, ?_, ?_, ?_, ?_, h.num, h.last⟩
    · intro σ ha hd
      have hd' : ∀ e ∈ d.deps ++ [t], σ e.var = e.value := hd
      rw [lsum_append, h.sum σ ha (fun e he => hd' e (List.mem_append_left _ he))]
      show _ + lsum σ [p] = rhs - (d.bound - p.2 * t.value) + _
      rw [lsum_cons, ← t1, hd' t (by simp)]
      simp
      ring
    · intro e he
      rcases List.mem_append.mp (show e ∈ d.deps ++ [t] from he) with he | he
      · obtain ⟨h1, a, h2, h3⟩ := h.deps e he
        exact ⟨h1, a, List.mem_append_left _ h2, h3⟩
      · simp at he; subst he
        refine ⟨t2, p.2, by rw [t1]; simp, by rw [t1]; exact hp, by rw [t1]; exact t3⟩
    · intro q hq hu
      show q.1 ∈ (d.deps ++ [t]).map Bnd.var ∨ _
      rcases List.mem_append.mp hq with hq | hq
      · rcases h.cover q hq hu with h' | h'
        · left; rw [List.map_append]; exact List.mem_append_left _ h'
        · exact Or.inr h'
      · simp at hq; subst hq
        left; simp [t1]
    · intro q hq
      obtain ⟨h1, h2, h3⟩ := h.ubd q hq
      refine ⟨List.mem_append_left _ h1, h2, ?_⟩
      show q.1 ∉ (d.deps ++ [t]).map Bnd.var
      rw [List.map_append, List.mem_append, not_or]
      refine ⟨h3, ?_⟩
      simp [t1]
      intro e
      exact hn (e ▸ List.mem_map_of_mem h1)
    · show ((d.deps ++ [t]).map Bnd.var).Nodup
      rw [List.map_append, List.nodup_append]
      refine ⟨h.nodup, by simp, ?_⟩
      intro a ha b hb
      simp at hb
      rw [hb, t1]
      rintro rfl
      exact hnd ha
  | none =>
    have hnd : p.1 ∉ d.deps.map Bnd.var := by
      intro hm
      obtain ⟨e, he, hev⟩ := List.mem_map.mp hm
      obtain ⟨_, a, h2, _⟩ := h.deps e he
      rw [hev] at h2
      exact hn (List.mem_map.mpr ⟨_, h2, rfl⟩)
    refine ⟨unb ++ [p], ?_, ?_, ?_, ?_, h.nodup, ?_, ?_⟩
    · intro σ ha hd
      rw [lsum_append, h.sum σ ha hd, lsum_append]
      show _ = rhs - d.bound + _
      ring
    · intro e he
      obtain ⟨h1, a, h2, h3⟩ := h.deps e he
      exact ⟨h1, a, List.mem_append_left _ h2, h3⟩
    · intro q hq hu
      rcases List.mem_append.mp hq with hq | hq
      · rcases h.cover q hq hu with h' | h'
        · exact Or.inl h'
        · exact Or.inr (List.mem_append_left _ h')
      · exact Or.inr (List.mem_append_right _ hq)
    · intro q hq
      rcases List.mem_append.mp hq with hq | hq
      · obtain ⟨h1, h2⟩ := h.ubd q hq
        exact ⟨List.mem_append_left _ h1, h2⟩
      · simp at hq; subst hq
        exact ⟨by simp, hp, hnd⟩
    · show d.num + 1 = _
      rw [h.num]; simp
    · intro q hq
      simp at hq
      rw [← hq]; rfl

/-- Popping obsolete bounds keeps the loop invariant. -/
theorem DInv.shrink {st : St} {dir : ℚ → Bool} {rhs : ℚ} {pre d unb} (h : DInv st dir rhs pre d unb)
    {b' : BState} (hlive : ∀ up x, ∀ b ∈ stk st.bnd up x,
      b.isObsolete st.store st.models = false → b ∈ stk b' up x) :
    DInv { st with bnd := b' } dir rhs pre d unb := by
  refine ⟨h.sum, ?_, h.cover, h.ubd, h.nodup, h.num, h.last⟩
  intro e he
  obtain ⟨h1, a, h2, h3, h4⟩ := h.deps e he
  exact ⟨h1, a, h2, h3, hlive _ _ _ h4 h1⟩

/-! ### Time stamps of a new bound -/

theorem foldl_ts_ge (m : LModels) (x : Nat) (ys : List Nat) (t : Int) :
    t ≤ ys.foldl (fun t y => if y ≠ x ∧ m.rats.defined y = true then max t (m.rats.ts y) else t) t ∧
    ∀ y ∈ ys, y ≠ x → m.rats.defined y = true → m.rats.ts y ≤
      ys.foldl (fun t y => if y ≠ x ∧ m.rats.defined y = true then max t (m.rats.ts y) else t) t := by
  induction ys generalizing t with
  | nil => simp
  | cons z ys ih =>
    rw [List.foldl_cons]
    obtain ⟨h1, h2⟩ := ih (if z ≠ x ∧ m.rats.defined z = true then max t (m.rats.ts z) else t)
    have hle : t ≤ (if z ≠ x ∧ m.rats.defined z = true then max t (m.rats.ts z) else t) := by
      split
      · exact le_max_left _ _
      · exact le_refl _
    refine ⟨le_trans hle h1, ?_⟩
    intro y hy hyx hd
    rcases List.mem_cons.mp hy with rfl | hy
    · refine le_trans ?_ h1
      rw [if_pos ⟨hyx, hd⟩]; exact le_max_right _ _
    · exact h2 y hy hyx hd

theorem foldl_ts_lt {m : LModels} (h : TsOk m.rats) (x : Nat) (ys : List Nat) (t : Int)
    (ht : t < m.rats.globalTs) :
    ys.foldl (fun t y => if y ≠ x ∧ m.rats.defined y = true then max t (m.rats.ts y) else t) t <
      m.rats.globalTs := by
  induction ys generalizing t with
  | nil => exact ht
  | cons z ys ih =>
    rw [List.foldl_cons]
    apply ih
    split
    · rename_i hz
      exact max_lt ht (h z hz.2).2
    · exact ht

/-- A bound computed from a constraint on the trail is well formed. -/
theorem good_make {st : St} (h : LInv st) {c : LinCons} (hc : IsCons st.store c)
    (hct : evalLit st.models.bools c.lit = some true)
    (hne : ¬ (c.pred = .eq ∧ c.lit.isNeg = true)) {dir : ℚ → Bool} {d : BState.Ded}
    {pre unb : List (Nat × ℚ)} (hpre : pre.Perm (st.store.terms c))
    (hd : DInv st dir c.rhs pre d unb) (hnum : d.num = 1) {t : ℚ} {up : Bool}
    (ht : t = 1 ∨ t = -1) (ht1 : Fm.initPred c ≠ .eq → t = 1)
    (hup : 0 < dq up * (t * (isg c * d.coef)))
    (hdir : ∀ a, a ≠ 0 → dq (dir a) * (t * (isg c * a)) < 0) :
    GoodB st.store st.models (stk st.bnd) up
      (Bnd.make st.store st.models d.var (d.bound / d.coef) c d.deps) ∧
    st.models.rats.defined d.var = false ∧
    (Bnd.make st.store st.models d.var (d.bound / d.coef) c d.deps).isObsolete st.store st.models
      = false := by
  have hw := hc.terms_wf h.inv
  have hwp : WfTerms pre := ⟨(hpre.map _).nodup_iff.mpr hw.nodup, fun p hp => hw.nz p (hpre.subset hp)⟩
  have hunb : unb = [(d.var, d.coef)] := by
    have h1 := hd.num
    rw [hnum] at h1
    match unb, h1, hd.last with
    | [p], _, hl => rw [hl p (by simp)]
  obtain ⟨hx1, hx2, hx3⟩ := hd.ubd (d.var, d.coef) (by rw [hunb]; simp)
  have hco : co d.var (st.store.terms c) = d.coef := LinStore.delta_mem hw.nodup (hpre.subset hx1)
  have hcoef : d.coef ≠ 0 := hwp.nz _ hx1
  have hvars : ∀ y, y ∈ st.store.varsOf c ↔ y ∈ pre.map (·.1) := by
    intro y
    rw [hc.varsOf h.inv]
    exact (hpre.map _).symm.mem_iff
  -- variables that are neither bounded nor dependencies are assigned
  have hdef : ∀ y ∈ st.store.varsOf c, y ≠ d.var → y ∉ d.deps.map Bnd.var →
      st.models.rats.defined y = true := by
    intro y hy hyx hyd
    by_contra hu
    rw [Bool.not_eq_true] at hu
    obtain ⟨p, hp, rfl⟩ := List.mem_map.mp ((hvars y).mp hy)
    rcases hd.cover p hp hu with h' | h'
    · exact hyd h'
    · rw [hunb] at h'
      simp at h'
      exact hyx (by rw [h'])
  have hbd : st.models.bools.defined c.lit.ord = true := by
    unfold evalLit at hct
    by_contra hu
    rw [if_neg hu] at hct; cases hct
  have hdd : ∀ e ∈ d.deps, ∀ a, (e.var, a) ∈ pre → co e.var (st.store.terms c) = a := by
    intro e _ a ha
    exact LinStore.delta_mem hw.nodup (hpre.subset ha)
  refine ⟨?_, hx2, ?_⟩
  · refine GoodB.mk up d.var _ c d.deps _ _ t st.models.rats.value
      (fun e => dir (co e.var (st.store.terms c))) hc hne ht ht1 ?_ hd.nodup hx3 ?_ ?_ ?_ ?_ ?_ ?_
    · rw [hco]; exact hup
    · intro e he
      obtain ⟨_, a, ha, _⟩ := hd.deps e he
      rw [hdd e he a ha]
      exact hdir a (hwp.nz _ ha)
    · -- the value of the bound
      let σ : Nat → ℚ := bsub d.var (d.bound / d.coef) d.deps st.models.rats.value
      show lsum σ (st.store.terms c) = c.rhs
      let σ' : Nat → ℚ := fun y => if st.models.rats.defined y = true then st.models.rats.value y
        else σ y
      have e1 : lsum σ (st.store.terms c) = lsum σ' pre := by
        rw [← lsum_perm hpre]
        refine lsum_congr (fun p hp => ?_)
        by_cases hpd : st.models.rats.defined p.1 = true
        · have hn1 : p.1 ≠ d.var := by
            intro e
            rw [e] at hpd
            rw [show st.models.rats.defined d.var = false from hx2] at hpd; cases hpd
          have hn2 : p.1 ∉ d.deps.map Bnd.var := by
            intro hm
            obtain ⟨e, he, hev⟩ := List.mem_map.mp hm
            obtain ⟨_, a, _, hu, _⟩ := hd.deps e he
            rw [hev, hpd] at hu; cases hu
          simp only [σ', if_pos hpd, σ]
          exact bsub_other hn1 hn2
        · simp only [σ', if_neg hpd]
      rw [e1, hd.sum σ' ?_ ?_, hunb, lsum_cons]
      · simp only [σ', σ, lsum_nil]
        rw [if_neg (by simp; exact hx2)]
        simp only [bsub_self]
        field_simp
        ring
      · intro y hy
        simp only [σ', if_pos hy]
      · intro e he
        obtain ⟨_, a, _, hu, _⟩ := hd.deps e he
        simp only [σ', σ]
        rw [if_neg (by simp [hu])]
        exact bsub_dep hd.nodup hx3 he
    · intro y hy hyx hyd
      have hy' := h.tsr y (hdef y hy hyx hyd)
      refine ⟨foldl_ts_lt h.tsr _ _ _ (by omega), fun _ _ => rfl⟩
    · exact (h.tsb _ hbd).2
    · intro e he _
      obtain ⟨_, a, ha, _, h4⟩ := hd.deps e he
      rw [hdd e he a ha]; exact h4
    · intro e he
      obtain ⟨_, a, ha, _, h4⟩ := hd.deps e he
      rw [hdd e he a ha]
      exact h.good _ _ _ h4
  · unfold Bnd.make
    rw [live_iff]
    refine ⟨⟨hct, le_refl _⟩, ?_, fun e he => (hd.deps e he).1⟩
    intro y hy hyx hyd
    refine ⟨hdef y hy hyx hyd, ?_⟩
    exact (foldl_ts_ge st.models d.var (st.store.varsOf c) 0).2 y hy hyx (hdef y hy hyx hyd)

/-! ### Loops -/

theorem query_live {st : St} (up : Bool) (x : Nat) : ∀ up' y, ∀ b ∈ stk st.bnd up' y,
    b.isObsolete st.store st.models = false →
    b ∈ stk (query st.store st.models st.bnd up x).1 up' y := by
  intro up' y b hb hl
  rw [stk_query]
  split
  · rename_i e
    rw [e.1, e.2] at hb; exact popObs_live _ _ hb hl
  · exact hb

theorem ineqLoop_spec {s : LinStore} {m : LModels} (c : LinCons) (rhs : ℚ) (ts : List (Nat × ℚ)) :
    ∀ (b : BState) (d : BState.Ded) (pre unb : List (Nat × ℚ)), LInv ⟨s, m, b⟩ →
      DInv ⟨s, m, b⟩ (fun a => !BState.upward c a) rhs pre d unb → ((pre ++ ts).map (·.1)).Nodup →
      LInv ⟨s, m, (BState.ineqLoop s m c ts b d).1⟩ ∧
      ∀ d', (BState.ineqLoop s m c ts b d).2 = some d' → ∃ unb',
        DInv ⟨s, m, (BState.ineqLoop s m c ts b d).1⟩ (fun a => !BState.upward c a) rhs (pre ++ ts) d'
          unb' := by
  induction ts with
  | nil =>
    intro b d pre unb hL hD hn
    refine ⟨hL, ?_⟩
    intro d' hd'
    simp only [BState.ineqLoop, Option.some.injEq] at hd'
    subst hd'
    exact ⟨unb, by simpa [BState.ineqLoop] using hD⟩
  | cons p ts ih =>
    intro b d pre unb hL hD hn
    have hn' : ((pre ++ [p] ++ ts).map (·.1)).Nodup := by simpa using hn
    have happ : pre ++ p :: ts = pre ++ [p] ++ ts := by simp
    have hpn : p.1 ∉ pre.map (·.1) := by
      intro hm
      rw [List.map_append, List.nodup_append] at hn
      exact hn.2.2 _ hm p.1 (by simp) rfl
    unfold BState.ineqLoop
    by_cases hdef : m.rats.defined p.1 = true
    · rw [if_pos hdef, happ]
      exact ih b _ (pre ++ [p]) unb hL (hD.assigned (st := ⟨s, m, b⟩) hdef) hn'
    · rw [if_neg hdef]
      rw [Bool.not_eq_true] at hdef
      simp only
      have er : (if BState.upward c p.2 = true then BState.lower s m b p.1 else BState.upper s m b p.1) =
          query s m b (!BState.upward c p.2) p.1 := by
        unfold query
        cases BState.upward c p.2 <;> rfl
      rw [er]
      have hq := hL.query (!BState.upward c p.2) p.1
      have hql := query_live (st := ⟨s, m, b⟩) (!BState.upward c p.2) p.1
      have hqs := fun t => query_some (s := s) (m := m) (b := b) (up := !BState.upward c p.2)
        (x := p.1) (t := t)
      generalize query s m b (!BState.upward c p.2) p.1 = q at *
      have hD' : DInv ⟨s, m, q.1⟩ (fun a => !BState.upward c a) rhs pre d unb := hD.shrink hql
      split
      · exact ⟨hq, by intro d' hd'; cases hd'⟩
      · rw [happ]
        obtain ⟨unb', hU⟩ := hD'.unassigned (p := p) (o := q.2) hdef hpn (by
          intro t ht
          obtain ⟨a1, a2, a3⟩ := hqs t ht
          exact ⟨hL.var _ _ _ a1, a3, a2⟩)
        exact ih q.1 _ (pre ++ [p]) unb' hq hU hn'

theorem eqLoop_spec {s : LinStore} {m : LModels} (c : LinCons) (rhs : ℚ) (ts : List (Nat × ℚ)) :
    ∀ (b : BState) (d0 d1 : BState.Ded) (pre u0 u1 : List (Nat × ℚ)), LInv ⟨s, m, b⟩ →
      DInv ⟨s, m, b⟩ (fun a => !decide (a < 0)) rhs pre d0 u0 →
      DInv ⟨s, m, b⟩ (fun a => decide (a < 0)) rhs pre d1 u1 → ((pre ++ ts).map (·.1)).Nodup →
      LInv ⟨s, m, (BState.eqLoop s m c ts b d0 d1).1⟩ ∧
      ∀ d', (BState.eqLoop s m c ts b d0 d1).2 = some d' → ∃ u0' u1',
        DInv ⟨s, m, (BState.eqLoop s m c ts b d0 d1).1⟩ (fun a => !decide (a < 0)) rhs (pre ++ ts) d'.1 u0' ∧
        DInv ⟨s, m, (BState.eqLoop s m c ts b d0 d1).1⟩ (fun a => decide (a < 0)) rhs (pre ++ ts) d'.2 u1' := by
  induction ts with
  | nil =>
    intro b d0 d1 pre u0 u1 hL hD0 hD1 hn
    refine ⟨hL, ?_⟩
    intro d' hd'
    simp only [BState.eqLoop, Option.some.injEq] at hd'
    subst hd'
    exact ⟨u0, u1, by simpa [BState.eqLoop] using hD0, by simpa [BState.eqLoop] using hD1⟩
  | cons p ts ih =>
    intro b d0 d1 pre u0 u1 hL hD0 hD1 hn
    have hn' : ((pre ++ [p] ++ ts).map (·.1)).Nodup := by simpa using hn
    have happ : pre ++ p :: ts = pre ++ [p] ++ ts := by simp
    have hpn : p.1 ∉ pre.map (·.1) := by
      intro hm
      rw [List.map_append, List.nodup_append] at hn
      exact hn.2.2 _ hm p.1 (by simp) rfl
    unfold BState.eqLoop
    by_cases hdef : m.rats.defined p.1 = true
    · rw [if_pos hdef, happ]
      exact ih b _ _ (pre ++ [p]) u0 u1 hL (hD0.assigned (st := ⟨s, m, b⟩) hdef)
        (hD1.assigned (st := ⟨s, m, b⟩) hdef) hn'
    · rw [if_neg hdef]
      rw [Bool.not_eq_true] at hdef
      simp only
      have er : BState.upper s m b p.1 = query s m b true p.1 := rfl
      rw [er]
      have hq := hL.query true p.1
      have hql := query_live (st := ⟨s, m, b⟩) true p.1
      have hqs := fun t => query_some (s := s) (m := m) (b := b) (up := true) (x := p.1) (t := t)
      generalize query s m b true p.1 = q at *
      have hD0' : DInv ⟨s, m, q.1⟩ (fun a => !decide (a < 0)) rhs pre d0 u0 := hD0.shrink hql
      have hD1' : DInv ⟨s, m, q.1⟩ (fun a => decide (a < 0)) rhs pre d1 u1 := hD1.shrink hql
      have er2 : BState.lower s m q.1 p.1 = query s m q.1 false p.1 := rfl
      rw [er2]
      have hr := hq.query false p.1
      have hrl := query_live (st := ⟨s, m, q.1⟩) false p.1
      have hrs := fun t => query_some (s := s) (m := m) (b := q.1) (up := false) (x := p.1) (t := t)
      generalize query s m q.1 false p.1 = r at *
      have hD0'' : DInv ⟨s, m, r.1⟩ (fun a => !decide (a < 0)) rhs pre d0 u0 := hD0'.shrink hrl
      have hD1'' : DInv ⟨s, m, r.1⟩ (fun a => decide (a < 0)) rhs pre d1 u1 := hD1'.shrink hrl
      have hqt : ∀ t, q.2 = some t → t.var = p.1 ∧ t.isObsolete s m = false ∧ t ∈ stk r.1 true p.1 := by
        intro t ht
        obtain ⟨a1, a2, a3⟩ := hqs t ht
        exact ⟨hL.var _ _ _ a1, a3, hrl _ _ _ a2 a3⟩
      have hrt : ∀ t, r.2 = some t → t.var = p.1 ∧ t.isObsolete s m = false ∧ t ∈ stk r.1 false p.1 := by
        intro t ht
        obtain ⟨a1, a2, a3⟩ := hrs t ht
        exact ⟨hq.var _ _ _ a1, a3, a2⟩
      obtain ⟨v0, hU0⟩ := hD0''.unassigned (p := p) (o := if p.2 < 0 then r.2 else q.2) hdef hpn (by
        intro t ht
        by_cases hneg : p.2 < 0
        · rw [if_pos hneg] at ht; simpa [hneg] using hrt t ht
        · rw [if_neg hneg] at ht; simpa [hneg] using hqt t ht)
      obtain ⟨v1, hU1⟩ := hD1''.unassigned (p := p) (o := if p.2 < 0 then q.2 else r.2) hdef hpn (by
        intro t ht
        by_cases hneg : p.2 < 0
        · rw [if_pos hneg] at ht; simpa [hneg] using hqt t ht
        · rw [if_neg hneg] at ht; simpa [hneg] using hrt t ht)
      generalize (if p.2 < 0 then r.2 else q.2) = o0 at *
      generalize (if p.2 < 0 then q.2 else r.2) = o1 at *
      split
      · exact ⟨hr, by intro d' hd'; cases hd'⟩
      · rw [happ]
        exact ih r.1 _ _ (pre ++ [p]) v0 v1 hr hU0 hU1 hn'

/-! ### Operations -/

theorem note_vb (b : BState) (x : Nat) (c : Bool) : (b.note x c).vb = b.vb := by
  unfold BState.note; split <;> rfl

theorem LInv.congr {st : St} (h : LInv st) {b' : BState} (hb : b'.vb = st.bnd.vb) :
    LInv { st with bnd := b' } := by
  have hs : ∀ up x, stk b' up x = stk st.bnd up x := by intro up x; unfold stk; rw [hb]
  refine h.shrink ?_ ?_ ?_
  · intro up x; rw [hs]
  · intro up x b hm _; rw [hs]; exact hm
  · intro x b hm; rw [hb] at hm; exact hm

theorem upward_isg {c : LinCons} (hne : c.pred ≠ .eq) {a : ℚ} (ha : a ≠ 0) :
    BState.upward c a = true ↔ 0 < isg c * a := by
  unfold BState.upward isg Fm.initPred
  cases hn : c.lit.isNeg <;> cases hp : c.pred <;> simp [hn, hp] at hne ⊢

theorem dq_upward {c : LinCons} (hne : c.pred ≠ .eq) {a : ℚ} (ha : a ≠ 0) :
    0 < dq (BState.upward c a) * (isg c * a) ∧ dq (!BState.upward c a) * (isg c * a) < 0 := by
  have h := upward_isg hne ha
  have h0 : isg c * a ≠ 0 := mul_ne_zero (isg_ne c) ha
  cases hu : BState.upward c a with
  | true =>
    have := h.mp hu
    simp [dq]; linarith
  | false =>
    have h1 : ¬ 0 < isg c * a := fun h' => by rw [h.mpr h'] at hu; cases hu
    have h2 : isg c * a < 0 := lt_of_le_of_ne (not_lt.mp h1) h0
    simp [dq]; linarith

theorem isg_eq {c : LinCons} (hp : c.pred = .eq) : isg c = 1 := by
  unfold isg Fm.initPred
  cases hn : c.lit.isNeg <;> simp [hn, hp]

theorem LInv.addNote {st : St} (h : LInv st) {up : Bool} {x : Nat} {v : Bnd} (hv : v.var = x)
    (hg : GoodB st.store st.models (stk st.bnd) up v) (hx : st.models.rats.defined x = false)
    {y : Nat} {cb : Bool} :
    LInv { st with bnd := (Lra.add st.store st.models st.bnd up x v).1.note y cb } :=
  (h.add hv hg hx).congr (note_vb _ _ _)

theorem LInv.deduceIneq {st : St} (h : LInv st) {c : LinCons} (hc : IsCons st.store c)
    (hct : evalLit st.models.bools c.lit = some true) (hp : c.pred ≠ .eq) :
    LInv { st with bnd := st.bnd.deduceIneq st.store st.models c } := by
  have hw := hc.terms_wf h.inv
  obtain ⟨h1, h2⟩ := ineqLoop_spec c c.rhs (st.store.terms c) st.bnd ⟨c.rhs, [], 0, 0, 0⟩ [] [] h
    (DInv.init _ _ _) (by simpa using hw.nodup)
  unfold BState.deduceIneq
  simp only
  generalize hr : BState.ineqLoop st.store st.models c (st.store.terms c) st.bnd ⟨c.rhs, [], 0, 0, 0⟩ = r
    at *
  cases hd : r.2 with
  | none => exact h1
  | some d =>
    obtain ⟨unb, hD⟩ := h2 d hd
    simp only
    by_cases hcond : Bnd.countDistinct d.deps ≤ (st.store.varsOf c).length ∧ d.num = 1
    · rw [if_pos hcond]
      rw [List.nil_append] at hD
      have hunb : (d.var, d.coef) ∈ st.store.terms c := by
        have hl := hD.num
        rw [hcond.2] at hl
        match unb, hl, hD.last, hD.ubd with
        | [p], _, hl, hu =>
          have := (hu p (by simp)).1
          rw [hl p (by simp)] at this
          exact this
      have hcoef : d.coef ≠ 0 := hw.nz _ hunb
      have hg := good_make h1 hc hct (fun e => hp e.1) (List.Perm.refl _) hD hcond.2 (t := 1)
        (up := BState.upward c d.coef) (Or.inl rfl) (fun _ => rfl)
        (by rw [one_mul]; exact (dq_upward hp hcoef).1)
        (fun a ha => by rw [one_mul]; exact (dq_upward hp ha).2)
      have e : (if BState.upward c d.coef = true then
          BState.addUpper st.store st.models r.1 d.var
            (Bnd.make st.store st.models d.var (d.bound / d.coef) c d.deps)
          else BState.addLower st.store st.models r.1 d.var
            (Bnd.make st.store st.models d.var (d.bound / d.coef) c d.deps)) =
          Lra.add st.store st.models r.1 (BState.upward c d.coef) d.var
            (Bnd.make st.store st.models d.var (d.bound / d.coef) c d.deps) := rfl
      rw [e]
      exact h1.addNote (up := BState.upward c d.coef) rfl hg.1 hg.2.1
    · rw [if_neg hcond]; exact h1

theorem LInv.eqFinish {st : St} (h : LInv st) {c : LinCons} (hc : IsCons st.store c)
    (hct : evalLit st.models.bools c.lit = some true) (hp : c.pred = .eq) (hn : c.lit.isNeg = false)
    {first : Bool} {d : BState.Ded} {unb}
    (hD : DInv st (fun a => xor first (decide (a < 0))) c.rhs (st.store.terms c) d unb) :
    LInv { st with bnd := BState.eqFinish st.store st.models c st.bnd d first } := by
  have hw := hc.terms_wf h.inv
  unfold BState.eqFinish
  by_cases hcond : Bnd.countDistinct d.deps ≤ (st.store.varsOf c).length ∧ d.num = 1
  · rw [if_pos hcond]
    have hunb : (d.var, d.coef) ∈ st.store.terms c := by
      have hl := hD.num
      rw [hcond.2] at hl
      match unb, hl, hD.last, hD.ubd with
      | [p], _, hl, hu =>
        have := (hu p (by simp)).1
        rw [hl p (by simp)] at this
        exact this
    have hcoef : d.coef ≠ 0 := hw.nz _ hunb
    have hg := good_make h hc hct (fun e => by rw [hn] at e; exact absurd e.2 (by simp))
      (List.Perm.refl _) hD hcond.2 (t := if first then -1 else 1)
      (up := !((first && decide (d.coef > 0)) || (!first && decide (d.coef < 0))))
      (by cases first <;> simp) (fun h => by
        exfalso; apply h; unfold Fm.initPred; rw [hn, hp]; simp)
      (by
        rw [isg_eq hp, one_mul]
        rcases lt_or_gt_of_ne hcoef with hlt | hgt
        · cases first <;> simp [dq, hlt, not_lt.mpr hlt.le]
        · cases first <;> simp [dq, hgt, not_lt.mpr hgt.le])
      (fun a ha => by
        rw [isg_eq hp, one_mul]
        rcases lt_or_gt_of_ne ha with hlt | hgt
        · cases first <;> simp [dq, hlt, not_lt.mpr hlt.le]
        · cases first <;> simp [dq, hgt, not_lt.mpr hgt.le])
    have e : (if ((first && decide (d.coef > 0)) || (!first && decide (d.coef < 0))) = true then
        BState.addLower st.store st.models st.bnd d.var
          (Bnd.make st.store st.models d.var (d.bound / d.coef) c d.deps)
        else BState.addUpper st.store st.models st.bnd d.var
          (Bnd.make st.store st.models d.var (d.bound / d.coef) c d.deps)) =
        Lra.add st.store st.models st.bnd
          (!((first && decide (d.coef > 0)) || (!first && decide (d.coef < 0)))) d.var
          (Bnd.make st.store st.models d.var (d.bound / d.coef) c d.deps) := by
      unfold Lra.add
      cases ((first && decide (d.coef > 0)) || (!first && decide (d.coef < 0))) <;> rfl
    simp only
    rw [e]
    exact h.addNote rfl hg.1 hg.2.1
  · rw [if_neg hcond]; exact h

theorem add_live {s : LinStore} {m : LModels} {b : BState} (up : Bool) (x : Nat) (v : Bnd) :
    ∀ up' y, ∀ e ∈ stk b up' y, e.isObsolete s m = false → e ∈ stk (add s m b up x v).1 up' y := by
  intro up' y e he hl
  obtain ⟨_, h2, _⟩ := vbounds_add s m b up x v
  have := query_live (st := ⟨s, m, b⟩) up x up' y e he hl
  rw [h2]
  split
  · rename_i hc
    rw [hc.1, hc.2.1] at this
    exact List.mem_cons_of_mem _ this
  · exact this

theorem eqFinish_live {s : LinStore} {m : LModels} {c : LinCons} {b : BState} {d : BState.Ded}
    {first : Bool} : ∀ up' y, ∀ e ∈ stk b up' y, e.isObsolete s m = false →
      e ∈ stk (BState.eqFinish s m c b d first) up' y := by
  intro up' y e he hl
  unfold BState.eqFinish
  split
  · simp only
    have hh : ∀ (bb : BState) z cb, stk (bb.note z cb) up' y = stk bb up' y := by
      intro bb z cb; unfold stk; rw [note_vb]
    rw [hh]
    split
    · exact add_live false _ _ up' y e he hl
    · exact add_live true _ _ up' y e he hl
  · exact he

theorem LInv.deduce {st : St} (h : LInv st) {c : LinCons} (hc : IsCons st.store c)
    (hct : evalLit st.models.bools c.lit = some true) :
    LInv { st with bnd := st.bnd.deduce st.store st.models c } := by
  unfold BState.deduce
  split
  · exact h
  · split
    · rename_i hp
      split
      · exact h
      · rename_i hn
        rw [Bool.not_eq_true] at hn
        have hw := hc.terms_wf h.inv
        obtain ⟨h1, h2⟩ := eqLoop_spec c c.rhs (st.store.terms c) st.bnd ⟨c.rhs, [], 0, 0, 0⟩
          ⟨c.rhs, [], 0, 0, 0⟩ [] [] [] h (DInv.init _ _ _) (DInv.init _ _ _) (by simpa using hw.nodup)
        unfold BState.deduceEq
        simp only
        generalize hr : BState.eqLoop st.store st.models c (st.store.terms c) st.bnd
          ⟨c.rhs, [], 0, 0, 0⟩ ⟨c.rhs, [], 0, 0, 0⟩ = r at *
        cases hd : r.2 with
        | none => exact h1
        | some d =>
          obtain ⟨u0, u1, hD0, hD1⟩ := h2 d hd
          rw [List.nil_append] at hD0 hD1
          simp only
          have g1 := h1.eqFinish (first := true) hc hct hp hn
            (d := d.1) (unb := u0) (by simpa using hD0)
          have hD1' := hD1.shrink (b' := BState.eqFinish st.store st.models c r.1 d.1 true)
            (fun up x e he hl => eqFinish_live (s := st.store) (m := st.models) up x e he hl)
          exact g1.eqFinish (first := false) hc hct hp hn (d := d.2) (unb := u1) (by simpa using hD1')
    · rename_i hp
      exact h.deduceIneq hc hct hp

end Lra
end Yaga
