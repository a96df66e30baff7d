/-
The internalizer: the traversal succeeds on the terms it supports.
-/
import Verif.Proofs.InternLoop

set_option linter.unusedSectionVars false
set_option linter.unusedVariables false
set_option linter.unusedSimpArgs false

namespace Yaga

open Spec TermTable Internalizer

variable {H : TermHash} {s : TermTable} {st st' : IState}

theorem args_pos (s : TermTable) (t : Tm) : s.args t.pos = s.args t := by
  unfold TermTable.args TermTable.allArgs TermTable.descr
  rw [kind_pos, entry_pos]

theorem const_index (h : WF H s) {t : Tm} (hk : s.kind t = .constant) : t.index = 1 := by
  obtain ⟨e, he, hek⟩ := entry_of_kind (s := s) (t := t) (by rw [hk]; decide)
  have hs := h.shape _ _ he
  rw [hk] at hek
  obtain ⟨k, ty, d⟩ := e
  simp only at hek
  subst hek
  obtain ⟨h0, h1⟩ := hs
  simp only at h0 h1
  subst h0 h1
  exact h.hc.unique t.index Tm.tt.index _ he h.tt (by unfold Consed; simp)

/-- The processed terms: their arguments are processed, and they have variables or literals. -/
structure PInv (s : TermTable) (st : IState) : Prop where
  closed : ∀ i ∈ st.processed, ∀ a ∈ s.args (Tm.positive i), a.index ∈ st.processed
  ratKey : ∀ i ∈ st.processed, IsReal s (Tm.positive i) → VarLike s (Tm.positive i) →
    ∃ v, (Tm.positive i, v) ∈ st.ratVars
  boolKey : ∀ i ∈ st.processed, IsBool s (Tm.positive i) → s.kind (Tm.positive i) ≠ .constant →
    ∃ l, (Tm.positive i, l) ∈ st.boolVars
  keyR : ∀ p ∈ st.ratVars, p.1.index ∈ st.processed
  keyB : ∀ p ∈ st.boolVars, p.1.index ∈ st.processed
  apps : ∀ p ∈ st.apps, s.kind p.2 = .app ∧ p.2.index ∈ st.processed ∧
    (IsBool s p.2 ∨ (IsReal s p.2 ∧ ∃ n, p.1 = Var.rat n ∧ (p.2, n) ∈ st.ratVars))
  appKey : ∀ p ∈ st.ratVars, s.kind p.1 = .app → (Var.rat p.2, p.1) ∈ st.apps

/-- The applications registered when `t` is visited. -/
structure AppsStep (s : TermTable) (st : IState) (t : Tm) (st' : IState) : Prop where
  old : ∀ p ∈ st.apps, p ∈ st'.apps
  new : ∀ p ∈ st'.apps, p ∈ st.apps ∨ (s.kind p.2 = .app ∧ p.2.index = t.index ∧
    (IsBool s p.2 ∨ (IsReal s p.2 ∧ ∃ n, p.1 = Var.rat n ∧ (p.2, n) ∈ st'.ratVars)))
  key : ∀ p ∈ st'.ratVars, p ∈ st.ratVars ∨ (s.kind p.1 = .app → (Var.rat p.2, p.1) ∈ st'.apps)

theorem AppsStep.same {t : Tm} (h1 : st'.apps = st.apps) (h2 : ∀ p ∈ st'.ratVars, p ∈ st.ratVars ∨ s.kind p.1 ≠ .app) :
    AppsStep s st t st' :=
  ⟨fun p hp => by rw [h1]; exact hp, fun p hp => .inl (by rw [← h1]; exact hp), fun p hp => by
    rcases h2 p hp with h | h
    · exact .inl h
    · exact .inr fun h' => absurd h' h⟩

theorem pinv_init (s : TermTable) : PInv s IState.init :=
  ⟨by simp [IState.init], by simp [IState.init], by simp [IState.init], by simp [IState.init],
    by simp [IState.init], by simp [IState.init], by simp [IState.init]⟩

theorem pinv_extend (hP : PInv s st) {t : Tm} (hargs : ∀ a ∈ s.args t, a.index ∈ st.processed)
    (hp : st'.processed = st.processed)
    (hr : ∀ p ∈ st.ratVars, p ∈ st'.ratVars) (hb : ∀ p ∈ st.boolVars, p ∈ st'.boolVars)
    (hr' : ∀ p ∈ st'.ratVars, p ∈ st.ratVars ∨ p.1.index = t.index)
    (hb' : ∀ p ∈ st'.boolVars, p ∈ st.boolVars ∨ p.1.index = t.index)
    (rk : IsReal s t.pos → VarLike s t.pos → ∃ v, (t.pos, v) ∈ st'.ratVars)
    (bk : IsBool s t.pos → s.kind t.pos ≠ .constant → ∃ l, (t.pos, l) ∈ st'.boolVars) (ha : AppsStep s st t st') :
    PInv s { st' with processed := st'.processed ++ [t.index] } := by
  refine ⟨?_, ?_, ?_, ?_, ?_, ?_, ?_⟩
  · intro i hi a ha
    show a.index ∈ st'.processed ++ [t.index]
    rw [hp]
    rcases List.mem_append.mp hi with hi | hi
    · rw [hp] at hi
      exact List.mem_append_left _ (hP.closed i hi a ha)
    · rw [List.mem_singleton.mp hi] at ha
      have ha' : a ∈ s.args t.pos := ha
      rw [args_pos] at ha'
      exact List.mem_append_left _ (hargs a ha')
  · intro i hi h1 h2
    rcases List.mem_append.mp hi with hi | hi
    · rw [hp] at hi
      obtain ⟨v, hv⟩ := hP.ratKey i hi h1 h2
      exact ⟨v, hr _ hv⟩
    · rw [List.mem_singleton.mp hi] at h1 h2 ⊢
      exact rk h1 h2
  · intro i hi h1 h2
    rcases List.mem_append.mp hi with hi | hi
    · rw [hp] at hi
      obtain ⟨v, hv⟩ := hP.boolKey i hi h1 h2
      exact ⟨v, hb _ hv⟩
    · rw [List.mem_singleton.mp hi] at h1 h2 ⊢
      exact bk h1 h2
  · intro p hp'
    show p.1.index ∈ st'.processed ++ [t.index]
    rcases hr' p hp' with h | h
    · rw [hp]; exact List.mem_append_left _ (hP.keyR p h)
    · rw [h]; simp
  · intro p hp'
    show p.1.index ∈ st'.processed ++ [t.index]
    rcases hb' p hp' with h | h
    · rw [hp]; exact List.mem_append_left _ (hP.keyB p h)
    · rw [h]; simp
  · intro p hp'
    show _ ∧ p.2.index ∈ st'.processed ++ [t.index] ∧ _
    rcases ha.new p hp' with h | ⟨h1, h2, h3⟩
    · obtain ⟨k1, k2, k3⟩ := hP.apps p h
      refine ⟨k1, by rw [hp]; exact List.mem_append_left _ k2, k3.imp_right ?_⟩
      rintro ⟨h2, n, h3, h4⟩
      exact ⟨h2, n, h3, hr _ h4⟩
    · exact ⟨h1, by rw [h2]; simp, h3⟩
  · intro p hp' hk
    rcases ha.key p hp' with h | h
    · exact ha.old _ (hP.appKey p h hk)
    · exact h hk

theorem mapFind_none {β : Type} {m : List (Tm × β)} {k : Tm} (h : ∀ v, (k, v) ∉ m) : mapFind m k = none := by
  cases hf : mapFind m k with
  | none => rfl
  | some v => exact absurd (mapFind_mem hf) (h v)

theorem asserts_true {cfg : ICfg} {b : Bool} (h : b = true) : asserts cfg b = some () := by
  unfold asserts; rw [h]; simp

theorem asserts_ndbg {cfg : ICfg} {b : Bool} (h : cfg.dbg = true → b = true) : asserts cfg b = some () := by
  unfold asserts
  cases hd : cfg.dbg with
  | false => rfl
  | true => rw [h hd]; rfl

theorem var_ready (hP : PInv s st) {st2 : IState} (sub : ∀ p ∈ st.ratVars, p ∈ st2.ratVars) {y : Tm}
    (hy : IsReal s y) (hv : VarLike s y) (hp : y.index ∈ st.processed) :
    ∃ v, mapFind st2.ratVars y = some v := by
  have e : Tm.positive y.index = y := (Tm.eq_positive hy.2).symm
  obtain ⟨v, h1⟩ := hP.ratKey _ hp (by rw [e]; exact hy) (by rw [e]; exact hv)
  rw [e] at h1
  exact mapFind_isSome (sub _ h1)

theorem lit_ready (hP : PInv s st) {st2 : IState} (sub : ∀ p ∈ st.boolVars, p ∈ st2.boolVars) {y : Tm}
    (hy : IsBool s y) (hk : s.kind y ≠ .constant) (hp : y.index ∈ st.processed) :
    ∃ v, mapFind st2.boolVars y.pos = some v := by
  obtain ⟨v, h1⟩ := hP.boolKey _ hp (by show s.type y.pos = _; rw [type_pos]; exact hy)
    (by show s.kind y.pos ≠ _; rw [kind_pos]; exact hk)
  exact mapFind_isSome (sub _ h1)

theorem closed' (hP : PInv s st) {x a : Tm} (hx : x.index ∈ st.processed) (ha : a ∈ s.args x) :
    a.index ∈ st.processed := by
  refine hP.closed _ hx a ?_
  show a ∈ s.args x.pos
  rw [args_pos]; exact ha

theorem poly_ready (h : WF H s) (hP : PInv s st) {st2 : IState} (sub : ∀ p ∈ st.ratVars, p ∈ st2.ratVars)
    {x : Tm} (hx : IsReal s x) (hp : x.index ∈ st.processed) : ∃ ip, poly s st2 x = some ip := by
  have prod : ∀ {y : Tm}, y.index ∈ st.processed → ∀ c z, s.entry y = some ⟨.product, .real, .comp [c, z]⟩ →
      ∃ v, mapFind st2.ratVars z = some v := by
    intro y hy c z he
    obtain ⟨_, c', x', q, h1, h2, h3, _, h4, h5⟩ := h.shape _ _ he
    simp only [Descr.comp.injEq, List.cons.injEq, and_true] at h1
    obtain ⟨rfl, rfl⟩ := h1
    refine var_ready hP sub h4 h5 (closed' hP hy ?_)
    rw [args_of_entry he (by simp)]; simp
  refine poly_total h hx (fun hv => var_ready hP sub hx hv hp) (prod hp) ?_
  intro as he a ha
  have hap : a.index ∈ st.processed := closed' hP hp (by rw [args_of_entry he (by simp)]; exact ha)
  refine ⟨fun hv => ?_, prod hap⟩
  obtain ⟨_, as', p, h1, _, _, h2⟩ := h.shape _ _ he
  simp only [Descr.comp.injEq] at h1
  subst h1
  exact var_ready hP sub (forall₂_right h2 (fun _ _ => MonoTerm.real) a ha) hv hap

theorem orLits_total : ∀ {as : List Tm}, (∀ a ∈ as, ∃ l, mapFind st.boolVars a.pos = some l) →
    ∃ ls, orLits st as = some ls := by
  intro as
  induction as with
  | nil => intro _; exact ⟨[], rfl⟩
  | cons a as ih =>
    intro h
    obtain ⟨l, hl⟩ := h a (by simp)
    obtain ⟨ls, hls⟩ := ih fun b hb => h b (by simp [hb])
    exact ⟨_, by rw [orLits, hl, hls]⟩

/-- The next state of the traversal. -/
def Next (s : TermTable) (st : IState) (t : Tm) (r : Option IState) : Prop :=
  ∃ st', r = some st' ∧ st'.processed = st.processed ∧
    PInv s { st' with processed := st'.processed ++ [t.index] }

theorem next_same (hP : PInv s st) {t : Tm} (hargs : ∀ a ∈ s.args t, a.index ∈ st.processed)
    (hr : IsReal s t.pos → VarLike s t.pos → False)
    (hb : IsBool s t.pos → s.kind t.pos ≠ .constant → False) : Next s st t (some st) :=
  ⟨st, rfl, rfl, pinv_extend hP hargs rfl (fun _ h => h) (fun _ h => h) (fun _ h => .inl h) (fun _ h => .inl h)
    (fun h1 h2 => (hr h1 h2).elim) (fun h1 h2 => (hb h1 h2).elim) (.same rfl fun _ h => .inl h)⟩

/-- The literal of an atom is entered. -/
theorem next_atom (hP : PInv s st) {st1 : IState} {t : Tm}
    (hargs : ∀ a ∈ s.args t, a.index ∈ st.processed) (hb : IsBool s t) (lit : Lit)
    (h1 : st1.processed = st.processed) (h2 : st1.ratVars = st.ratVars) (h3 : st1.boolVars = st.boolVars)
    (h4 : st1.apps = st.apps ∨ ∃ v, st1.apps = st.apps ++ [(v, t)] ∧ s.kind t = .app) :
    Next s st t (some { st1 with boolVars := mapInsert st1.boolVars t.pos lit }) := by
  refine ⟨_, rfl, h1, pinv_extend hP hargs h1 ?_ ?_ ?_ ?_ ?_ ?_ ?_⟩
  · intro p hp; show p ∈ st1.ratVars; rw [h2]; exact hp
  · intro p hp; apply mapInsert_sub; rw [h3]; exact hp
  · intro p hp; left; rw [← h2]; exact hp
  · intro p hp
    rcases mem_mapInsert hp with hp | rfl
    · left; rw [← h3]; exact hp
    · right; exact Tm.pos_index t
  · intro hr; exfalso
    have := hr.1
    rw [type_pos, hb] at this
    cases this
  · intro _ _; exact mapInsert_has _ _ _
  · rcases h4 with h4 | ⟨v, h4, hk⟩
    · exact .same h4 fun p hp => .inl (by rw [← h2]; exact hp)
    · refine ⟨fun p hp => ?_, fun p hp => ?_, fun p hp => .inl (by rw [← h2]; exact hp)⟩
      · show p ∈ st1.apps
        rw [h4]; exact List.mem_append_left _ hp
      · have hp : p ∈ st1.apps := hp
        rw [h4] at hp
        rcases List.mem_append.mp hp with hp | hp
        · exact .inl hp
        · right
          rw [List.mem_singleton.mp hp]
          exact ⟨hk, rfl, .inl hb⟩

theorem key_free_bool (hP : PInv s st) {t k : Tm} (ht : t.index ∉ st.processed) (hk : k.index = t.index) :
    mapFind st.boolVars k = none :=
  mapFind_none fun v hv => ht (by rw [← hk]; exact hP.keyB _ hv)

theorem key_free_rat (hP : PInv s st) {t k : Tm} (ht : t.index ∉ st.processed) (hk : k.index = t.index) :
    mapFind st.ratVars k = none :=
  mapFind_none fun v hv => ht (by rw [← hk]; exact hP.keyR _ hv)

theorem poly_range (hI : IInv s st) {t : Tm} {ip : UPoly} (hps : PolySpec s st t ip) :
    ∀ p ∈ ip.terms, p.1 < st.numRat := by
  intro p hp
  obtain ⟨x, _, h⟩ := hps.vars p hp
  exact (hI.rat _ h).2.2

theorem visitGe_next (h : WF H s) (hI : IInv s st) (hP : PInv s st) {cfg : ICfg} {t : Tm}
    (hk : s.kind t = .arithGe) (ht : t.index ∉ st.processed)
    (hargs : ∀ a ∈ s.args t, a.index ∈ st.processed) : Next s st t (visitGe cfg s st t) := by
  obtain ⟨e, he, hek⟩ := entry_of_kind (s := s) (t := t) (by rw [hk]; decide)
  have hs := h.shape _ _ he
  rw [hk] at hek
  obtain ⟨k, ty, d⟩ := e
  simp only at hek
  subst hek
  obtain ⟨h0, p, h1, hpr, hpk⟩ := hs
  simp only at h0 h1
  subst h0 h1
  have ha := args_of_entry he (by simp)
  have hb : IsBool s t := type_of_entry he
  obtain ⟨ip, hip⟩ := poly_ready h hP (fun _ h => h) hpr (hargs p (by rw [ha]; simp))
  have hps := poly_spec h hI hpr hip
  obtain ⟨q, hq⟩ := List.exists_mem_of_ne_nil _ (hps.ne hpk)
  unfold visitGe
  rw [ha]
  simp only [List.getElem?_cons_zero, Option.bind_eq_bind, Option.bind_some]
  rw [asserts_true (by
    rw [decide_eq_true_eq]
    rintro rfl
    exact hpk (kind_of_entry h.zero)), Option.bind_some, hip, Option.bind_some]
  cases hn : t.isNeg with
  | false =>
    simp only [hn, Bool.false_eq_true, if_false]
    have hnd : ((ip.negate).terms.map (·.1)).Nodup := by
      unfold UPoly.negate; rw [map_fst_neg]; exact hps.nodup
    obtain ⟨⟨st1, l⟩, hl, _⟩ := linearConstraint_some (cfg := cfg) hI hnd (by
        intro p hp
        obtain ⟨p', hp', rfl⟩ := List.mem_map.mp hp
        exact poly_range hI hps p' hp')
      ⟨(q.1, -q.2), List.mem_map.mpr ⟨q, hq, rfl⟩, neg_ne_zero.mpr (hps.nz q hq)⟩ .leq (-ip.negate.const)
    have hL := linearConstraint_spec hI hnd hl
    rw [hl, Option.bind_some, asserts_true (by
      simp only; rw [hL.bool, key_free_bool hP ht (Tm.pos_index t)]; rfl), Option.bind_some]
    exact next_atom hP hargs hb _ hL.proc hL.rat hL.bool (.inl hL.apps)
  | true =>
    simp only [hn, if_true]
    obtain ⟨⟨st1, l⟩, hl, _⟩ := linearConstraint_some (cfg := cfg) hI hps.nodup (poly_range hI hps)
      ⟨q, hq, hps.nz q hq⟩ .lt (-ip.const)
    have hL := linearConstraint_spec hI hps.nodup hl
    rw [hl, Option.bind_some, asserts_true (by
      simp only; rw [hL.bool, key_free_bool hP ht (Tm.pos_index t)]; rfl), Option.bind_some]
    exact next_atom hP hargs hb _ hL.proc hL.rat hL.bool (.inl hL.apps)

theorem visitEq_next (h : WF H s) (hI : IInv s st) (hP : PInv s st) {cfg : ICfg} {t : Tm}
    (hk : s.kind t = .arithEq) (ht : t.index ∉ st.processed)
    (hargs : ∀ a ∈ s.args t, a.index ∈ st.processed) : Next s st t (visitEq cfg s st t) := by
  obtain ⟨e, he, hek⟩ := entry_of_kind (s := s) (t := t) (by rw [hk]; decide)
  have hs := h.shape _ _ he
  rw [hk] at hek
  obtain ⟨k, ty, d⟩ := e
  simp only at hek
  subst hek
  obtain ⟨h0, p, h1, hpr, hpk⟩ := hs
  simp only at h0 h1
  subst h0 h1
  have ha := args_of_entry he (by simp)
  have hb : IsBool s t := type_of_entry he
  obtain ⟨ip, hip⟩ := poly_ready h hP (fun _ h => h) hpr (hargs p (by rw [ha]; simp))
  have hps := poly_spec h hI hpr hip
  obtain ⟨q, hq⟩ := List.exists_mem_of_ne_nil _ (hps.ne hpk)
  obtain ⟨⟨st1, l⟩, hl, hpos⟩ := linearConstraint_some (cfg := cfg) hI hps.nodup (poly_range hI hps)
    ⟨q, hq, hps.nz q hq⟩ .eq (-ip.const)
  have hL := linearConstraint_spec hI hps.nodup hl
  unfold visitEq
  rw [ha]
  simp only [List.getElem?_cons_zero, Option.bind_eq_bind, Option.bind_some]
  rw [hip, Option.bind_some, hl, Option.bind_some, asserts_true (by simp [hpos rfl]), Option.bind_some,
    asserts_true (by simp only; rw [hL.bool, key_free_bool hP ht (Tm.pos_index t)]; rfl), Option.bind_some]
  exact next_atom hP hargs hb _ hL.proc hL.rat hL.bool (.inl hL.apps)

theorem visitBinEq_next (h : WF H s) (hI : IInv s st) (hP : PInv s st) {cfg : ICfg} {t : Tm}
    (hk : s.kind t = .arithBinEq) (ht : t.index ∉ st.processed)
    (hd : cfg.dbg = true → ∀ a ∈ s.args t, s.kind a ≠ .app)
    (hargs : ∀ a ∈ s.args t, a.index ∈ st.processed) : Next s st t (visitBinEq cfg s st t) := by
  obtain ⟨e, he, hek⟩ := entry_of_kind (s := s) (t := t) (by rw [hk]; decide)
  have hs := h.shape _ _ he
  rw [hk] at hek
  obtain ⟨k, ty, d⟩ := e
  simp only at hek
  subst hek
  obtain ⟨h0, a, b, h1, har, hbr, hav, hbv, hab⟩ := hs
  simp only at h0 h1
  subst h0 h1
  have ha := args_of_entry he (by simp)
  have hb : IsBool s t := type_of_entry he
  rw [ha] at hd
  obtain ⟨v, hv⟩ := var_ready hP (fun _ h => h) har hav (hargs a (by rw [ha]; simp))
  obtain ⟨ip, hip, hnd, hrg, hnz⟩ : ∃ ip, binEqPoly s st a b = some ip ∧ (ip.terms.map (·.1)).Nodup ∧
      (∀ p ∈ ip.terms, p.1 < st.numRat) ∧ ∃ p ∈ ip.terms, p.2 ≠ 0 := by
    unfold binEqPoly
    rw [hv]
    split
    · refine ⟨_, rfl, by simp, ?_, by simp⟩
      intro p hp
      simp only [List.mem_singleton] at hp
      rw [hp]; exact (hI.rat _ (mapFind_mem hv)).2.2
    · rename_i hc
      have hbv : VarLike s b := by
        rcases hbv with h | h
        · exact h
        · exact absurd (by simpa [TermTable.isArithConst] using h) hc
      obtain ⟨w, hw⟩ := var_ready hP (fun _ h => h) hbr hbv (hargs b (by rw [ha]; simp))
      rw [hw]
      refine ⟨_, rfl, ?_, ?_, by simp⟩
      · simp only [List.map_cons, List.map_nil, List.nodup_cons, List.mem_singleton, List.not_mem_nil,
          not_false_eq_true, List.nodup_nil, and_self, and_true]
        rintro rfl
        exact hab (ord_inj hI (mapFind_mem hv) (mapFind_mem hw))
      · intro p hp
        simp only [List.mem_cons, List.not_mem_nil, or_false] at hp
        rcases hp with rfl | rfl
        · exact (hI.rat _ (mapFind_mem hv)).2.2
        · exact (hI.rat _ (mapFind_mem hw)).2.2
  obtain ⟨⟨st1, l⟩, hl, hpos⟩ := linearConstraint_some (cfg := cfg) hI hnd hrg hnz .eq (-ip.const)
  have hL := linearConstraint_spec hI hnd hl
  unfold visitBinEq
  rw [ha]
  simp only [List.getElem?_cons_zero, List.getElem?_cons_succ, Option.bind_eq_bind, Option.bind_some]
  rw [asserts_ndbg (by
      intro hdb
      have := hd hdb a (by simp)
      rcases hav with h | h | h
      · simp [h]
      · simp [h]
      · exact absurd h this), Option.bind_some,
    asserts_ndbg (by
      intro hdb
      have := hd hdb b (by simp)
      rcases hbv with (h | h | h) | h
      · simp [h]
      · simp [h]
      · exact absurd h this
      · simp [h, TermTable.isArithConst]), Option.bind_some,
    hip, Option.bind_some, hl, Option.bind_some, asserts_true (by simp [hpos rfl]), Option.bind_some,
    asserts_true (by simp only; rw [hL.bool, key_free_bool hP ht (Tm.pos_index t)]; rfl), Option.bind_some]
  exact next_atom hP hargs hb _ hL.proc hL.rat hL.bool (.inl hL.apps)

/-- A variable for a real term is entered. -/
theorem next_rat (hP : PInv s st) {t : Tm} (hargs : ∀ a ∈ s.args t, a.index ∈ st.processed)
    (hr : IsReal s t) {st1 : IState} {v : Nat} (h1 : st1.processed = st.processed)
    (h2 : st1.ratVars = mapInsert st.ratVars t v) (h3 : st1.boolVars = st.boolVars)
    (h4 : (st1.apps = st.apps ∧ s.kind t ≠ .app) ∨
      (st1.apps = st.apps ++ [(Var.rat v, t)] ∧ s.kind t = .app ∧ t.index ∉ st.processed)) :
    Next s st t (some st1) := by
  have e : t.pos = t := Tm.pos_of_not_neg hr.2
  refine ⟨_, rfl, h1, pinv_extend hP hargs h1 ?_ ?_ ?_ ?_ ?_ ?_ ?_⟩
  · intro p hp; rw [h2]; exact mapInsert_sub hp
  · intro p hp; rw [h3]; exact hp
  · intro p hp
    rw [h2] at hp
    rcases mem_mapInsert hp with hp | rfl
    · exact .inl hp
    · exact .inr rfl
  · intro p hp; left; rw [← h3]; exact hp
  · intro _ _; rw [e, h2]; exact mapInsert_has _ _ _
  · intro hb; exfalso
    unfold IsBool at hb
    rw [e, hr.1] at hb
    cases hb
  · rcases h4 with ⟨h4, hk⟩ | ⟨h4, hk, hf⟩
    · refine .same h4 fun p hp => ?_
      rw [h2] at hp
      rcases mem_mapInsert hp with hp | rfl
      · exact .inl hp
      · exact .inr hk
    · refine ⟨fun p hp => by rw [h4]; exact List.mem_append_left _ hp, fun p hp => ?_, fun p hp => ?_⟩
      · rw [h4] at hp
        rcases List.mem_append.mp hp with hp | hp
        · exact .inl hp
        · right
          rw [List.mem_singleton.mp hp]
          refine ⟨hk, rfl, .inr ⟨hr, v, rfl, ?_⟩⟩
          rw [h2]
          unfold mapInsert
          rw [key_free_rat hP hf rfl]
          simp
      · rw [h2] at hp
        rcases mem_mapInsert hp with hp | rfl
        · exact .inl hp
        · right; intro _; rw [h4]; simp

theorem visitApp_next (hP : PInv s st) {cfg : ICfg} {t : Tm} (hk : s.kind t = .app) (hty : Typed s t)
    (hn : t.isNeg = false) (ht : t.index ∉ st.processed) (hargs : ∀ a ∈ s.args t, a.index ∈ st.processed) :
    Next s st t (visitApp cfg s st t) := by
  unfold visitApp
  rcases hty with hb | hr
  · rw [show s.type t = .bool from hb]
    simp only [Option.bind_eq_bind]
    rw [asserts_true (by rw [show (newBool st).1.boolVars = st.boolVars from rfl, key_free_bool hP ht rfl]; rfl),
      Option.bind_some]
    have e : t.pos = t := Tm.pos_of_not_neg hn
    have := next_atom hP (st1 := { (newBool st).1 with apps := (newBool st).1.apps ++ [(Var.bool (newBool st).2, t)] })
      hargs hb (Lit.pos (newBool st).2) rfl rfl rfl (.inr ⟨_, rfl, hk⟩)
    rw [e] at this
    exact this
  · rw [hr.1]
    simp only [Option.bind_eq_bind]
    rw [asserts_true (by rw [show (newRat st).1.ratVars = st.ratVars from rfl, key_free_rat hP ht rfl]; rfl),
      Option.bind_some]
    exact next_rat hP hargs hr rfl rfl rfl (.inr ⟨rfl, hk, ht⟩)

theorem visitConst_next (hP : PInv s st) {cfg : ICfg} {t : Tm} (hk : s.kind t = .uninterpreted) (hty : Typed s t)
    (ht : t.index ∉ st.processed) (hargs : ∀ a ∈ s.args t, a.index ∈ st.processed) :
    Next s st t (visitConst cfg s st t) := by
  unfold visitConst
  rcases hty with hb | hr
  · rw [show s.type t = .bool from hb]
    simp only [Option.bind_eq_bind]
    rw [asserts_true (by
      rw [show (newBool st).1.boolVars = st.boolVars from rfl, key_free_bool hP ht (Tm.pos_index t)]; rfl),
      Option.bind_some]
    exact next_atom hP (st1 := (newBool st).1) hargs hb (Lit.pos (newBool st).2) rfl rfl rfl (.inl rfl)
  · rw [hr.1]
    simp only [Option.bind_eq_bind]
    rw [asserts_true (by rw [show (newRat st).1.ratVars = st.ratVars from rfl, key_free_rat hP ht rfl]; rfl),
      Option.bind_some]
    exact next_rat hP hargs hr rfl rfl rfl (.inl ⟨rfl, by rw [hk]; decide⟩)

theorem visitOr_next (h : WF H s) (hI : IInv s st) (hP : PInv s st) {cfg : ICfg} {t : Tm}
    (hk : s.kind t = .or) (ht : t.index ∉ st.processed)
    (hargs : ∀ a ∈ s.args t, a.index ∈ st.processed) : Next s st t (visitOr cfg s st t) := by
  obtain ⟨e, he, hek⟩ := entry_of_kind (s := s) (t := t) (by rw [hk]; decide)
  have hs := h.shape _ _ he
  rw [hk] at hek
  obtain ⟨k, ty, d⟩ := e
  simp only at hek
  subst hek
  obtain ⟨h0, as, h1, ⟨hlen, hne⟩, hasb⟩ := hs
  simp only at h0 h1
  subst h0 h1
  have ha := args_of_entry he (by simp)
  have hb : IsBool s t := type_of_entry he
  unfold visitOr
  simp only [Option.bind_eq_bind]
  rw [ha, asserts_true (by simpa using hlen), Option.bind_some,
    asserts_true (by rw [List.all_eq_true]; intro a h1; exact decide_eq_true (hasb a h1)), Option.bind_some,
    asserts_true (by rw [key_free_bool hP ht (Tm.pos_index t)]; rfl), Option.bind_some]
  obtain ⟨ls, hls⟩ := orLits_total (st := { (newBool st).1 with
      boolVars := mapInsert (newBool st).1.boolVars t.pos (Lit.pos (newBool st).2) }) (as := as) (by
    intro a h1
    refine lit_ready hP (fun p hp => mapInsert_sub hp) (hasb a h1) ?_ (hargs a (by rw [ha]; exact h1))
    intro h2
    exact hne a h1 (const_index h h2))
  rw [hls, Option.bind_some, foldl_assert]
  exact next_atom hP (st1 := { (newBool st).1 with
      clauses := (newBool st).1.clauses ++ ls.map (fun l => [Lit.pos (newBool st).2, l.neg]) ++
        [ls ++ [(Lit.pos (newBool st).2).neg]] }) hargs hb (Lit.pos (newBool st).2) rfl rfl rfl (.inl rfl)

theorem visitIte_next (h : WF H s) (hI : IInv s st) (hP : PInv s st) {cfg : ICfg} {t : Tm}
    (hk : s.kind t = .ite) (hty : Typed s t) (ht : t.index ∉ st.processed)
    (hargs : ∀ a ∈ s.args t, a.index ∈ st.processed) : Next s st t (visitIte cfg s st t) := by
  obtain ⟨e, he, hek⟩ := entry_of_kind (s := s) (t := t) (by rw [hk]; decide)
  have hs := h.shape _ _ he
  rw [hk] at hek
  obtain ⟨k, ty, d⟩ := e
  simp only at hek
  subst hek
  obtain ⟨h0, c, a, b, h1, hc, har, hbr⟩ := hs
  simp only at h0 h1
  subst h0 h1
  have hta : s.type t = .real := type_of_entry he
  have htr : IsReal s t := by
    rcases hty with hb | hr
    · unfold IsBool at hb; rw [hta] at hb; cases hb
    · exact hr
  have ha := args_of_entry he (by simp)
  have hbelow := h.below _ _ he
  have hiA := iinv_insert_rat hI htr (.inr (.inl hk)) st.apps
  have hnum : (newRat st).2 = st.numRat := rfl
  unfold visitIte
  rw [ha, if_pos hta]
  simp only [List.getElem?_cons_zero, List.getElem?_cons_succ, Option.bind_eq_bind, Option.bind_some]
  rw [asserts_true (by simpa using hta), Option.bind_some, asserts_true (by
    rw [show (newRat st).1.ratVars = st.ratVars from rfl, key_free_rat hP ht rfl]; rfl), Option.bind_some, hnum]
  generalize hA : ({ (newRat st).1 with ratVars := mapInsert (newRat st).1.ratVars t st.numRat } : IState) = stA at *
  have hiA : IInv s stA := by rw [← hA]; exact hiA
  have hAr : stA.ratVars = mapInsert st.ratVars t st.numRat := by rw [← hA]; rfl
  have hAb : stA.boolVars = st.boolVars := by rw [← hA]; rfl
  have hAn : stA.numRat = st.numRat + 1 := by rw [← hA]; rfl
  have hAp : stA.processed = st.processed := by rw [← hA]; rfl
  have sub : ∀ p ∈ st.ratVars, p ∈ stA.ratVars := fun p hp => by rw [hAr]; exact mapInsert_sub hp
  obtain ⟨tp, htp⟩ := poly_ready h hP sub har (hargs a (by rw [ha]; simp))
  obtain ⟨fp, hfp⟩ := poly_ready h hP sub hbr (hargs b (by rw [ha]; simp))
  have branch : ∀ {x : Tm} {p : UPoly}, IsReal s x → x.index < t.index → poly s stA x = some p →
      ((p.subtractVar st.numRat).terms.map (·.1)).Nodup ∧
        ∀ q ∈ (p.subtractVar st.numRat).terms, q.1 < stA.numRat := by
    intro x p hx hxi hp
    have hps := poly_spec h hiA hx hp
    constructor
    · unfold UPoly.subtractVar
      rw [List.map_append]
      refine List.nodup_append.mpr ⟨hps.nodup, by simp, ?_⟩
      intro u hu w hw
      simp only [List.map_cons, List.map_nil, List.mem_singleton] at hw
      obtain ⟨q, hq, rfl⟩ := List.mem_map.mp hu
      obtain ⟨y, h2, h3⟩ := hps.vars q hq
      rw [hw]
      rw [hAr] at h3
      rcases mem_mapInsert h3 with h3 | h3
      · exact Nat.ne_of_lt (hI.rat _ h3).2.2
      · rw [(Prod.mk.inj h3).1] at h2
        omega
    · intro q hq
      rcases List.mem_append.mp hq with hq | hq
      · exact poly_range hiA hps q hq
      · rw [List.mem_singleton.mp hq, hAn]; exact Nat.lt_succ_self _
  have nz : ∀ p : UPoly, ∃ q ∈ (p.subtractVar st.numRat).terms, q.2 ≠ 0 := fun p =>
    ⟨(st.numRat, -1), by simp [UPoly.subtractVar], by simp⟩
  obtain ⟨n1, r1⟩ := branch har (hbelow a (by simp [argsOf])) htp
  obtain ⟨n2, r2⟩ := branch hbr (hbelow b (by simp [argsOf])) hfp
  obtain ⟨⟨st1, lt⟩, hl1, _⟩ := linearConstraint_some (cfg := cfg) hiA n1 r1 (nz tp) .eq
    (-(tp.subtractVar st.numRat).const)
  have hL1 := linearConstraint_spec hiA n1 hl1
  obtain ⟨⟨st2, lf⟩, hl2, _⟩ := linearConstraint_some (cfg := cfg) hL1.inv n2
    (fun q hq => by rw [hL1.numRat]; exact r2 q hq) (nz fp) .eq (-(fp.subtractVar st.numRat).const)
  have hL2 := linearConstraint_spec hL1.inv n2 hl2
  have hbools : st2.boolVars = st.boolVars := by rw [hL2.bool, hL1.bool, hAb]
  obtain ⟨l, hl⟩ := lit_ready hP (st2 := st2) (fun p hp => by rw [hbools]; exact hp) hc.1 (by
    intro h2
    have := const_index h h2
    have h3 := Tm.eq_positive hc.2.1
    rw [this] at h3
    exact hc.2.2 h3) (hargs c (by rw [ha]; simp))
  rw [Tm.pos_of_not_neg hc.2.1] at hl
  rw [htp, Option.bind_some, hfp, Option.bind_some, hl1, Option.bind_some, hl2, Option.bind_some,
    asserts_true (by rw [hc.2.1]; rfl), Option.bind_some, hl, Option.bind_some]
  exact next_rat hP hargs htr (v := st.numRat)
    (by show st2.processed = _; rw [hL2.proc, hL1.proc, hAp])
    (by show st2.ratVars = _; rw [hL2.rat, hL1.rat, hAr]) hbools
    (.inl ⟨by show st2.apps = _; rw [hL2.apps, hL1.apps, ← hA]; rfl, by rw [hk]; decide⟩)

theorem visit_next (h : WF H s) (hI : IInv s st) (hP : PInv s st) {cfg : ICfg} (hS : Supported cfg s)
    {t : Tm} (hty : Typed s t) (hff : t ≠ Tm.ff) (happ : s.kind t = .app → t.isNeg = false)
    (ht : t.index ∉ st.processed) (hargs : ∀ a ∈ s.args t, a.index ∈ st.processed) :
    Next s st t (visit cfg s st t) := by
  have hnv : s.kind t ≠ .uninterpreted → s.kind t ≠ .ite → s.kind t ≠ .app → ¬ VarLike s t.pos := by
    intro h1 h2 h3 hv
    unfold VarLike at hv
    rw [kind_pos] at hv
    rcases hv with hv | hv | hv
    · exact h1 hv
    · exact h2 hv
    · exact h3 hv
  have nb : ∀ {e : TEntry}, s.entry t = some e → e.type = .real → ¬ IsBool s t.pos := by
    intro e he hr hb
    unfold IsBool at hb
    rw [type_pos, type_of_entry he, hr] at hb
    cases hb
  unfold visit
  cases hk : s.kind t <;> simp only
  case reserved =>
    exfalso
    obtain ⟨e, he, hty'⟩ := entry_of_type (s := s) (t := t) (by
      rcases hty with h | h
      · rw [show s.type t = .bool from h]; decide
      · rw [h.1]; decide)
    have hs := h.shape _ _ he
    rw [kind_of_entry he] at hk
    obtain ⟨k, ty, d⟩ := e
    simp only at hk
    subst hk
    have := hs.1
    rw [hty'] at this
    rcases hty with h | h
    · rw [show s.type t = .bool from h] at this; cases this
    · rw [h.1] at this; cases this
  case constant =>
    have hi := const_index h hk
    have : t = Tm.tt := by
      cases hn : t.isNeg with
      | false => have := Tm.eq_positive hn; rw [hi] at this; exact this
      | true =>
        exfalso
        have := Tm.eq_opp_pos hn
        unfold Tm.pos at this
        rw [hi] at this
        exact hff this
    rw [if_neg (by simp [this])]
    exact next_same hP hargs (fun _ hv => hnv (by rw [hk]; decide) (by rw [hk]; decide) (by rw [hk]; decide) hv)
      (fun _ h2 => h2 (by rw [kind_pos]; exact hk))
  case arithConst =>
    obtain ⟨e, he, hek⟩ := entry_of_kind (s := s) (t := t) (by rw [hk]; decide)
    have hs := h.shape _ _ he
    rw [hk] at hek
    obtain ⟨k, ty, d⟩ := e
    simp only at hek
    subst hek
    exact next_same hP hargs (fun _ hv => hnv (by rw [hk]; decide) (by rw [hk]; decide) (by rw [hk]; decide) hv)
      (fun h1 _ => nb he hs.1 h1)
  case uninterpreted => exact visitConst_next hP hk hty ht hargs
  case ite => exact visitIte_next h hI hP hk hty ht hargs
  case app => exact visitApp_next hP hk hty (happ hk) ht hargs
  case or => exact visitOr_next h hI hP hk ht hargs
  case arithEq => exact visitEq_next h hI hP hk ht hargs
  case arithGe => exact visitGe_next h hI hP hk ht hargs
  case arithBinEq => exact visitBinEq_next h hI hP hk ht (fun hd => hS.eq hd t hk) hargs
  case product =>
    obtain ⟨e, he, hek⟩ := entry_of_kind (s := s) (t := t) (by rw [hk]; decide)
    have hs := h.shape _ _ he
    rw [hk] at hek
    obtain ⟨k, ty, d⟩ := e
    simp only at hek
    subst hek
    exact next_same hP hargs (fun _ hv => hnv (by rw [hk]; decide) (by rw [hk]; decide) (by rw [hk]; decide) hv)
      (fun h1 _ => nb he hs.1 h1)
  case poly =>
    obtain ⟨e, he, hek⟩ := entry_of_kind (s := s) (t := t) (by rw [hk]; decide)
    have hs := h.shape _ _ he
    rw [hk] at hek
    obtain ⟨k, ty, d⟩ := e
    simp only at hek
    subst hek
    exact next_same hP hargs (fun _ hv => hnv (by rw [hk]; decide) (by rw [hk]; decide) (by rw [hk]; decide) hv)
      (fun h1 _ => nb he hs.1 h1)

/-! ### Termination of the traversal -/

/-- What is left to do for the term with index `i`. -/
def todo (s : TermTable) (done : List Nat) (stk : List (Tm × Nat)) (i : Nat) : Nat :=
  if i ∈ done then 0
  else
    match stk.find? (fun e => decide (e.1.index = i)) with
    | some e => (s.args (Tm.positive i)).length - e.2 + 1
    | none => (s.args (Tm.positive i)).length + 2

/-- What is left to do. -/
def todos (s : TermTable) (done : List Nat) (stk : List (Tm × Nat)) : Nat :=
  ((List.range s.terms.length).map (todo s done stk)).sum

theorem sum_le_of_le (f g : Nat → Nat) (l : List Nat) (h : ∀ i ∈ l, f i ≤ g i) :
    (l.map f).sum ≤ (l.map g).sum := by
  induction l with
  | nil => simp
  | cons a l ih =>
    simp only [List.map_cons, List.sum_cons]
    have h1 := h a (by simp)
    have h2 := ih fun i hi => h i (by simp [hi])
    omega

theorem sum_lt_of_lt (f g : Nat → Nat) (l : List Nat) (h : ∀ i ∈ l, f i ≤ g i) {j : Nat} (hj : j ∈ l)
    (hlt : f j < g j) : (l.map f).sum < (l.map g).sum := by
  induction l with
  | nil => cases hj
  | cons a l ih =>
    simp only [List.map_cons, List.sum_cons]
    have h1 := h a (by simp)
    rcases List.mem_cons.mp hj with rfl | hj
    · have h2 := sum_le_of_le f g l fun i hi => h i (by simp [hi])
      omega
    · have h2 := ih (fun i hi => h i (by simp [hi])) hj
      omega

theorem todos_le_fuel (s : TermTable) (done : List Nat) (stk : List (Tm × Nat)) :
    todos s done stk ≤ fuel s := by
  unfold todos fuel
  apply sum_le_of_le
  intro i _
  unfold todo
  split
  · omega
  · split <;> omega

theorem todos_lt {s : TermTable} {d d' : List Nat} {stk stk' : List (Tm × Nat)}
    (h : ∀ i, todo s d' stk' i ≤ todo s d stk i) {j : Nat} (hj : j < s.terms.length)
    (hlt : todo s d' stk' j < todo s d stk j) : todos s d' stk' < todos s d stk :=
  sum_lt_of_lt _ _ _ (fun i _ => h i) (List.mem_range.mpr hj) hlt

/-- The worklist of the traversal. -/
structure StackOK (s : TermTable) (st : IState) (stk : List (Tm × Nat)) : Prop where
  typed : ∀ e ∈ stk, Typed s e.1 ∧ e.1 ≠ Tm.ff ∧ (s.kind e.1 = .app → e.1.isNeg = false)
  fresh : ∀ e ∈ stk, e.1.index ∉ st.processed
  sorted : stk.Pairwise fun e e' => e.1.index < e'.1.index
  before : ∀ e ∈ stk, ∀ j a, j < e.2 → (s.args e.1)[j]? = some a → a.index ∈ st.processed ∨
    ∃ e' ∈ stk, e'.1.index = a.index ∧ e'.1.index < e.1.index

theorem todo_done {s : TermTable} {d : List Nat} {stk : List (Tm × Nat)} {i : Nat} (h : i ∈ d) :
    todo s d stk i = 0 := by unfold todo; rw [if_pos h]

theorem todo_head {s : TermTable} {d : List Nat} {stk : List (Tm × Nat)} {t : Tm} {k : Nat}
    (h : t.index ∉ d) : todo s d ((t, k) :: stk) t.index = (s.args t).length - k + 1 := by
  unfold todo
  rw [if_neg h, List.find?_cons_of_pos (by simp), ← args_pos s t]
  rfl

theorem todo_other {s : TermTable} {d : List Nat} {stk : List (Tm × Nat)} {t : Tm} {k i : Nat}
    (h : i ≠ t.index) : todo s d ((t, k) :: stk) i = todo s d stk i := by
  unfold todo
  rw [List.find?_cons_of_neg (by simpa using Ne.symm h)]

theorem todo_new {s : TermTable} {d : List Nat} {stk : List (Tm × Nat)} {c : Tm}
    (h : c.index ∉ d) (hs : ∀ e ∈ stk, e.1.index ≠ c.index) :
    todo s d stk c.index = (s.args c).length + 2 := by
  unfold todo
  rw [if_neg h, List.find?_eq_none.mpr (by intro e he; simpa using hs e he), ← args_pos s c]
  rfl

theorem todo_append {s : TermTable} {d : List Nat} {stk : List (Tm × Nat)} {i j : Nat} (h : i ≠ j) :
    todo s (d ++ [j]) stk i = todo s d stk i := by
  unfold todo; simp [h]

theorem Typed.index_lt {t : Tm} (h : Typed s t) : t.index < s.terms.length := h.elim (·.index_lt) (·.index_lt)

/-- A property that every visit of a term keeps. -/
def Kept (cfg : ICfg) (s : TermTable) (Q : IState → Prop) : Prop :=
  ∀ (st st' : IState) (t : Tm), IInv s st → PInv s st → Q st → Typed s t → t.index ∉ st.processed →
    (∀ a ∈ s.args t, a.index ∈ st.processed) → visit cfg s st t = some st' → st'.processed = st.processed →
    PInv s { st' with processed := st'.processed ++ [t.index] } →
    Q { st' with processed := st'.processed ++ [t.index] }

theorem loop_kept (h : WF H s) {cfg : ICfg} (hS : Supported cfg s) {Q : IState → Prop} (hQ : Kept cfg s Q) : ∀ (n : Nat) (stk : List (Tm × Nat))
    (st : IState), todos s st.processed stk ≤ n → IInv s st → PInv s st → Q st → StackOK s st stk →
    ∃ st', loop cfg s n stk st = some st' ∧ IInv s st' ∧ PInv s st' ∧ Q st' ∧
      (∀ i ∈ st.processed, i ∈ st'.processed) ∧ ∀ e ∈ stk, e.1.index ∈ st'.processed := by
  intro n
  induction n with
  | zero =>
    intro stk st hn hI hP hq hK
    cases stk with
    | nil => exact ⟨st, by rw [loop], hI, hP, hq, fun _ h => h, by simp⟩
    | cons e stk =>
      exfalso
      obtain ⟨t, k⟩ := e
      have hf := hK.fresh (t, k) (by simp)
      have hlt := (hK.typed (t, k) (by simp)).1.index_lt
      have := sum_lt_of_lt (fun _ => 0) (todo s st.processed ((t, k) :: stk)) (List.range s.terms.length)
        (fun i _ => Nat.zero_le _) (List.mem_range.mpr hlt) (by rw [todo_head hf]; omega)
      unfold todos at hn
      omega
  | succ n ih =>
    intro stk st hn hI hP hq hK
    cases stk with
    | nil => exact ⟨st, by rw [loop], hI, hP, hq, fun _ h => h, by simp⟩
    | cons e stk =>
      obtain ⟨t, k⟩ := e
      obtain ⟨htt, htf, hta⟩ := hK.typed (t, k) (by simp)
      have hfr := hK.fresh (t, k) (by simp)
      simp only at htt htf hta hfr
      have hsort := List.pairwise_cons.mp hK.sorted
      have hhead : ∀ j a, j < k → (s.args t)[j]? = some a → a.index ∈ st.processed := by
        intro j a hj haj
        rcases hK.before (t, k) (by simp) j a hj haj with h1 | ⟨e', h1, _, h3⟩
        · exact h1
        · exfalso
          rcases List.mem_cons.mp h1 with rfl | h1
          · exact lt_irrefl _ h3
          · have := hsort.1 e' h1
            simp only at this h3
            omega
      rw [loop]
      cases hc : (s.args t)[k]? with
      | some c =>
        have hkl : k < (s.args t).length := (List.getElem?_eq_some_iff.mp hc).1
        have hmem := List.mem_of_getElem? hc
        have hcl : c.index < t.index := args_below h c hmem
        simp only
        by_cases hp : c.index ∈ st.processed
        · rw [if_pos hp]
          have hdec : todos s st.processed ((t, k + 1) :: stk) < todos s st.processed ((t, k) :: stk) := by
            refine todos_lt (fun i => ?_) htt.index_lt ?_
            · by_cases hi : i = t.index
              · rw [hi, todo_head hfr, todo_head hfr]; omega
              · rw [todo_other hi, todo_other hi]
            · rw [todo_head hfr, todo_head hfr]; omega
          have hK' : StackOK s st ((t, k + 1) :: stk) := by
            refine ⟨?_, ?_, ?_, ?_⟩
            · intro e he
              rcases List.mem_cons.mp he with rfl | he
              · exact ⟨htt, htf, hta⟩
              · exact hK.typed e (by simp [he])
            · intro e he
              rcases List.mem_cons.mp he with rfl | he
              · exact hfr
              · exact hK.fresh e (by simp [he])
            · exact List.pairwise_cons.mpr hsort
            · intro e he j a hj haj
              rcases List.mem_cons.mp he with rfl | he
              · simp only at hj haj
                left
                by_cases hjk : j = k
                · rw [hjk, hc] at haj; cases haj; exact hp
                · exact hhead j a (by omega) haj
              · rcases hK.before e (by simp [he]) j a hj haj with h1 | ⟨e', h1, h2, h3⟩
                · exact .inl h1
                · right
                  rcases List.mem_cons.mp h1 with rfl | h1
                  · exact ⟨(t, k + 1), by simp, h2, h3⟩
                  · exact ⟨e', by simp [h1], h2, h3⟩
          obtain ⟨st', h1, h2, h3, h3q, h4, h5⟩ := ih ((t, k + 1) :: stk) st (by omega) hI hP hq hK'
          refine ⟨st', h1, h2, h3, h3q, h4, fun e he => ?_⟩
          rcases List.mem_cons.mp he with rfl | he
          · exact h5 (t, k + 1) (by simp)
          · exact h5 e (by simp [he])
        · rw [if_neg hp]
          have hne : ∀ e ∈ (t, k) :: stk, e.1.index ≠ c.index := by
            intro e he
            rcases List.mem_cons.mp he with rfl | he
            · exact Nat.ne_of_gt hcl
            · have := hsort.1 e he
              simp only at this
              omega
          have hdec : todos s st.processed ((c, 0) :: (t, k + 1) :: stk) < todos s st.processed ((t, k) :: stk) := by
            refine todos_lt (fun i => ?_) htt.index_lt ?_
            · by_cases hi : i = c.index
              · rw [hi, todo_head hp, todo_new hp hne]; omega
              · rw [todo_other hi]
                by_cases hi' : i = t.index
                · rw [hi', todo_head hfr, todo_head hfr]; omega
                · rw [todo_other hi', todo_other hi']
            · rw [todo_other (by omega), todo_head hfr, todo_head hfr]; omega
          have hK' : StackOK s st ((c, 0) :: (t, k + 1) :: stk) := by
            refine ⟨?_, ?_, ?_, ?_⟩
            · intro e he
              rcases List.mem_cons.mp he with rfl | he
              · exact ⟨args_typed h c hmem, fun hf => hS.ff t (by rw [← hf]; exact hmem), hS.app t c hmem⟩
              · rcases List.mem_cons.mp he with rfl | he
                · exact ⟨htt, htf, hta⟩
                · exact hK.typed e (by simp [he])
            · intro e he
              rcases List.mem_cons.mp he with rfl | he
              · exact hp
              · rcases List.mem_cons.mp he with rfl | he
                · exact hfr
                · exact hK.fresh e (by simp [he])
            · refine List.pairwise_cons.mpr ⟨?_, List.pairwise_cons.mpr hsort⟩
              intro e he
              rcases List.mem_cons.mp he with rfl | he
              · exact hcl
              · have := hsort.1 e he
                simp only at this ⊢
                omega
            · intro e he j a hj haj
              rcases List.mem_cons.mp he with rfl | he
              · simp at hj
              · rcases List.mem_cons.mp he with rfl | he
                · simp only at hj haj
                  by_cases hjk : j = k
                  · rw [hjk, hc] at haj
                    cases haj
                    exact .inr ⟨(c, 0), by simp, rfl, hcl⟩
                  · exact .inl (hhead j a (by omega) haj)
                · rcases hK.before e (by simp [he]) j a hj haj with h1 | ⟨e', h1, h2, h3⟩
                  · exact .inl h1
                  · right
                    rcases List.mem_cons.mp h1 with rfl | h1
                    · exact ⟨(t, k + 1), by simp, h2, h3⟩
                    · exact ⟨e', by simp [h1], h2, h3⟩
          obtain ⟨st', h1, h2, h3, h3q, h4, h5⟩ := ih ((c, 0) :: (t, k + 1) :: stk) st (by omega) hI hP hq hK'
          refine ⟨st', h1, h2, h3, h3q, h4, fun e he => ?_⟩
          rcases List.mem_cons.mp he with rfl | he
          · exact h5 (t, k + 1) (by simp)
          · exact h5 e (by simp [he])
      | none =>
        have hkl : (s.args t).length ≤ k := List.getElem?_eq_none_iff.mp hc
        have hargs : ∀ a ∈ s.args t, a.index ∈ st.processed := by
          intro a ha
          obtain ⟨j, hj⟩ := List.mem_iff_getElem?.mp ha
          have := (List.getElem?_eq_some_iff.mp hj).1
          exact hhead j a (by omega) hj
        obtain ⟨st1, hv, hpr, hP1⟩ := visit_next h hI hP hS htt htf hta hfr hargs
        have hstep := visit_step h hI htt hv
        have hI1 := (Step.processed hstep.inv (st1.processed ++ [t.index])).inv
        simp only [Option.bind_eq_bind]
        rw [asserts_true (by simpa using hfr), Option.bind_some, hv, Option.bind_some]
        have hdec : todos s (st1.processed ++ [t.index]) stk < todos s st.processed ((t, k) :: stk) := by
          rw [hpr]
          refine todos_lt (fun i => ?_) htt.index_lt ?_
          · by_cases hi : i = t.index
            · rw [hi, todo_done (by simp)]; omega
            · rw [todo_append hi, todo_other hi]
          · rw [todo_done (by simp), todo_head hfr]; omega
        have hK' : StackOK s { st1 with processed := st1.processed ++ [t.index] } stk := by
          refine ⟨?_, ?_, ?_, ?_⟩
          · intro e he; exact hK.typed e (by simp [he])
          · intro e he hi
            simp only at hi
            rcases List.mem_append.mp hi with hi | hi
            · rw [hpr] at hi; exact hK.fresh e (by simp [he]) hi
            · have h6 := hsort.1 e he
              have h7 := List.mem_singleton.mp hi
              simp only at h6
              omega
          · exact hsort.2
          · intro e he j a hj haj
            rcases hK.before e (by simp [he]) j a hj haj with h1 | ⟨e', h1, h2, h3⟩
            · left; simp only; rw [hpr]; exact List.mem_append_left _ h1
            · rcases List.mem_cons.mp h1 with rfl | h1
              · left; simp only; rw [← h2]; simp
              · exact .inr ⟨e', h1, h2, h3⟩
        obtain ⟨st', h1, h2, h3, h3q, h4, h5⟩ := ih stk { st1 with processed := st1.processed ++ [t.index] }
          (by simp only; omega) hI1 hP1 (hQ st st1 t hI hP hq htt hfr hargs hv hpr hP1) hK'
        refine ⟨st', h1, h2, h3, h3q, fun i hi => h4 i ?_, fun e he => ?_⟩
        · show i ∈ st1.processed ++ [t.index]
          rw [hpr]; exact List.mem_append_left _ hi
        · rcases List.mem_cons.mp he with rfl | he
          · exact h4 _ (by simp)
          · exact h5 e he

theorem roots_kept (h : WF H s) {cfg : ICfg} (hS : Supported cfg s) {Q : IState → Prop} (hQ : Kept cfg s Q) : ∀ (ts : List Tm) (st : IState),
    IInv s st → PInv s st → Q st →
    (∀ t ∈ ts, Typed s t ∧ t ≠ Tm.ff ∧ (s.kind t = .app → t.isNeg = false)) →
    ∃ st', roots cfg s ts st = some st' ∧ IInv s st' ∧ PInv s st' ∧ Q st' ∧
      (∀ i ∈ st.processed, i ∈ st'.processed) ∧ ∀ t ∈ ts, t.index ∈ st'.processed := by
  intro ts
  induction ts with
  | nil => intro st hI hP hq _; exact ⟨st, rfl, hI, hP, hq, fun _ h => h, by simp⟩
  | cons t ts ih =>
    intro st hI hP hq ht
    have hts : ∀ t ∈ ts, Typed s t ∧ t ≠ Tm.ff ∧ (s.kind t = .app → t.isNeg = false) :=
      fun t' ht' => ht t' (by simp [ht'])
    rw [roots]
    by_cases hp : t.index ∈ st.processed
    · rw [if_pos hp]
      obtain ⟨st', h1, h2, h3, h3q, h4, h5⟩ := ih st hI hP hq hts
      refine ⟨st', h1, h2, h3, h3q, h4, fun t' ht' => ?_⟩
      rcases List.mem_cons.mp ht' with rfl | ht'
      · exact h4 _ hp
      · exact h5 t' ht'
    · rw [if_neg hp]
      obtain ⟨st1, h1, h2, h3, h3q, h4, h5⟩ := loop_kept h hS hQ (fuel s) [(t, 0)] st (todos_le_fuel _ _ _) hI hP hq
        ⟨by simpa using ht t (by simp), by simpa using hp, by simp, by simp⟩
      obtain ⟨st', g1, g2, g3, g3q, g4, g5⟩ := ih st1 h2 h3 h3q hts
      refine ⟨st', by rw [h1]; exact g1, g2, g3, g3q, fun i hi => g4 i (h4 i hi), fun t' ht' => ?_⟩
      rcases List.mem_cons.mp ht' with rfl | ht'
      · exact g4 _ (h5 (t', 0) (by simp))
      · exact g5 t' ht'

theorem roots_total (h : WF H s) {cfg : ICfg} (hS : Supported cfg s) (ts : List Tm) (st : IState)
    (hI : IInv s st) (hP : PInv s st)
    (ht : ∀ t ∈ ts, Typed s t ∧ t ≠ Tm.ff ∧ (s.kind t = .app → t.isNeg = false)) :
    ∃ st', roots cfg s ts st = some st' ∧ IInv s st' ∧ PInv s st' ∧
      (∀ i ∈ st.processed, i ∈ st'.processed) ∧ ∀ t ∈ ts, t.index ∈ st'.processed := by
  obtain ⟨st', h1, h2, h3, _, h4⟩ := roots_kept h hS (Q := fun _ => True) (fun _ _ _ _ _ _ _ _ _ _ _ _ => trivial) ts st hI hP
    trivial ht
  exact ⟨st', h1, h2, h3, h4⟩

theorem units_total : ∀ (as : List Tm) (st : IState),
    (∀ a ∈ as, a ≠ Tm.tt → ∃ l, mapFind st.boolVars a.pos = some l) → ∃ st', units as st = some st' := by
  intro as
  induction as with
  | nil => intro st _; exact ⟨st, rfl⟩
  | cons a as ih =>
    intro st h
    rw [units]
    split
    · exact ih st fun b hb => h b (by simp [hb])
    · rename_i ha
      obtain ⟨l, hl⟩ := h a (by simp) ha
      rw [hl]
      exact ih _ fun b hb hne => h b (by simp [hb]) hne

/-- `check` succeeds on supported assertions. -/
theorem check_total (h : WF H s) {cfg : ICfg} (hS : Supported cfg s) {as : List Tm}
    (hb : ∀ a ∈ as, IsBool s a) (hap : ∀ a ∈ as, s.kind a = .app → a.isNeg = false)
    (hI : IInv s { st with clauses := [] }) (hP : PInv s { st with clauses := [] }) :
    ∃ r, check cfg s st as = some r := by
  unfold check
  split
  · exact ⟨_, rfl⟩
  · rename_i hff
    have hff : Tm.ff ∉ as := fun hm => hff (List.any_eq_true.mpr ⟨_, hm, by simp⟩)
    obtain ⟨st1, h1, h2, h3, _, h5⟩ := roots_total h hS as _ hI hP
      fun t ht => ⟨.inl (hb t ht), fun hf => hff (by rw [← hf]; exact ht), hap t ht⟩
    obtain ⟨st2, hu⟩ := units_total as st1 (by
      intro a ha hne
      refine lit_ready h3 (fun _ h => h) (hb a ha) ?_ (h5 a ha)
      intro hk
      have hi := const_index h hk
      cases hn : a.isNeg with
      | false => have := Tm.eq_positive hn; rw [hi] at this; exact hne this
      | true =>
        have := Tm.eq_opp_pos hn
        unfold Tm.pos at this
        rw [hi] at this
        exact hff (by rw [show Tm.ff = (Tm.positive 1).opp from rfl, ← this]; exact ha))
    exact ⟨some st2, by rw [h1, Option.bind_some, hu]; rfl⟩

end Yaga
