/-
The internalizer: what visiting a term does to the models of the state.
-/
import Verif.Proofs.InternPoly

set_option linter.unusedSectionVars false
set_option linter.unusedVariables false
set_option linter.unusedSimpArgs false

namespace Yaga

open Spec TermTable Internalizer

variable {H : TermHash} {s : TermTable} {st st' : IState}

/-- A step of the internalizer: the models of the new state are models of the old state, they give the new
terms their values, and models of the old state can be extended to the new state. -/
structure Step (s : TermTable) (st st' : IState) : Prop where
  inv : IInv s st'
  ratSub : ∀ p ∈ st.ratVars, p ∈ st'.ratVars
  boolSub : ∀ p ∈ st.boolVars, p ∈ st'.boolVars
  back : ∀ m r, Models st' m r → Models st m r
  sound : ∀ I m r, Models st' m r → AgreeAll I s st m r → Agree I s st' m r → AgreeAll I s st' m r
  compl : ∀ I m r, Models st m r → AgreeAll I s st m r →
    ∃ m' r', Models st' m' r' ∧ AgreeAll I s st' m' r'

theorem Step.refl (hI : IInv s st) : Step s st st :=
  ⟨hI, fun _ h => h, fun _ h => h, fun _ _ h => h, fun _ _ _ _ h _ => h, fun _ m r h h' => ⟨m, r, h, h'⟩⟩

theorem agree_sub {I : Interp} (hr : ∀ p ∈ st.ratVars, p ∈ st'.ratVars)
    (hb : ∀ p ∈ st.boolVars, p ∈ st'.boolVars) {m : Assignment} {r : Nat → ℚ} (h : Agree I s st' m r) :
    Agree I s st m r := by
  refine ⟨fun p hp => h.1 p ?_, fun p hp => h.2 p ?_⟩
  · obtain ⟨h1, h2⟩ := List.mem_filter.mp hp
    exact List.mem_filter.mpr ⟨hr p h1, h2⟩
  · obtain ⟨h1, h2⟩ := List.mem_filter.mp hp
    exact List.mem_filter.mpr ⟨hb p h1, h2⟩

theorem Step.trans {st1 st2 : IState} (h1 : Step s st st1) (h2 : Step s st1 st2) : Step s st st2 where
  inv := h2.inv
  ratSub p hp := h2.ratSub p (h1.ratSub p hp)
  boolSub p hp := h2.boolSub p (h1.boolSub p hp)
  back m r h := h1.back m r (h2.back m r h)
  sound I m r h ha hg := h2.sound I m r h
    (h1.sound I m r (h2.back m r h) ha (agree_sub h2.ratSub h2.boolSub hg)) hg
  compl I m r h ha := by
    obtain ⟨m', r', h3, h4⟩ := h1.compl I m r h ha
    exact h2.compl I m' r' h3 h4

/-- Marking a term as processed. -/
theorem Step.processed (hI : IInv s st) (l : List Nat) : Step s st { st with processed := l } :=
  ⟨⟨hI.store, hI.num, hI.nonempty, hI.cvars, hI.clauses, hI.ratOrds, hI.rat, hI.bool⟩, fun _ h => h,
    fun _ h => h, fun _ _ h => h, fun _ _ _ _ h _ => ⟨h.rat, h.bool⟩,
    fun _ m r h h' => ⟨m, r, h, ⟨h'.rat, h'.bool⟩⟩⟩

/-! ### Literals for linear constraints -/

theorem step_lin {st1 : IState} {l : Lit} {ts : List (Nat × ℚ)} {pred : Pred} {rhs : ℚ}
    (hI : IInv s st) (hL : LCSpec s st st1 l ts pred rhs) {k : Tm} (hk : IsBool s k) {lit : Lit}
    (hord : lit.ord < st1.numBool)
    (hm : ∀ I m r, Models st1 m r → AgreeAll I s st m r → (litTrue m lit ↔ denB I s k = true)) :
    Step s st { st1 with boolVars := mapInsert st1.boolVars k lit } := by
  have hi := hL.inv
  have agr : ∀ I m r, Models st1 m r → AgreeAll I s st m r →
      AgreeAll I s { st1 with boolVars := mapInsert st1.boolVars k lit } m r := by
    intro I m r h1 h2
    refine ⟨fun p hp => h2.rat p (by rw [← hL.rat]; exact hp), fun p hp => ?_⟩
    rcases mem_mapInsert hp with hp | rfl
    · exact h2.bool p (by rw [← hL.bool]; exact hp)
    · exact hm I m r h1 h2
  refine ⟨⟨hi.store, hi.num, hi.nonempty, hi.cvars, hi.clauses, hi.ratOrds, hi.rat, ?_⟩, ?_, ?_, ?_, ?_, ?_⟩
  · intro p hp
    rcases mem_mapInsert hp with hp | rfl
    · exact hi.bool p hp
    · exact ⟨hk, hord⟩
  · intro p hp; show p ∈ st1.ratVars; rw [hL.rat]; exact hp
  · intro p hp; apply mapInsert_sub; rw [hL.bool]; exact hp
  · intro m r h; exact hL.back m r h
  · intro I m r h ha _; exact agr I m r h ha
  · intro I m r h ha
    obtain ⟨m', h1, h2⟩ := hL.ext m r h
    exact ⟨m', r, h2, agr I m' r h2 (agree_congr hI h1 (fun _ _ => rfl) ha)⟩

/-! ### Constants and applications -/

theorem step_bool (hI : IInv s st) {k : Tm} (hk : IsBool s k)
    (hkind : s.kind k = .uninterpreted ∨ s.kind k = .app) (ap : List (Var × Tm)) :
    Step s st { (newBool st).1 with
      boolVars := mapInsert (newBool st).1.boolVars k (Lit.pos (newBool st).2), apps := ap } := by
  obtain ⟨hi, hmod⟩ := newBool_spec hI
  refine ⟨⟨hi.store, hi.num, hi.nonempty, hi.cvars, hi.clauses, hi.ratOrds, hi.rat, ?_⟩, fun p hp => hp,
    fun p hp => mapInsert_sub hp, fun m r h => (hmod m r).mp h, ?_, ?_⟩
  · intro p hp
    rcases mem_mapInsert hp with hp | rfl
    · exact hi.bool p hp
    · exact ⟨hk, by show (Lit.pos st.numBool).ord < st.numBool + 1; rw [LinStore.Lit.pos_ord]; omega⟩
  · intro I m r _ ha hg
    refine ⟨ha.rat, fun p hp => ?_⟩
    rcases mem_mapInsert hp with hp' | rfl
    · exact ha.bool p hp'
    · exact hg.2 _ (List.mem_filter.mpr ⟨hp, by simpa using hkind⟩)
  · intro I m r h ha
    have hm : ∀ j, j < st.numBool → (fun j => if j = st.numBool then denB I s k else m j) j = m j := by
      intro j hj; simp only; rw [if_neg (by omega)]
    refine ⟨fun j => if j = st.numBool then denB I s k else m j, r, ?_, ?_⟩
    · exact (hmod _ _).mpr (models_congr hI hm (fun _ _ => rfl) h)
    · have ha' := agree_congr hI hm (fun _ _ => rfl) ha
      refine ⟨ha'.rat, fun p hp => ?_⟩
      rcases mem_mapInsert hp with hp' | rfl
      · exact ha'.bool p hp'
      · show litTrue _ (Lit.pos st.numBool) ↔ _
        rw [litTrue_pos]; simp

theorem nodup_insert_rat (hI : IInv s st) (k : Tm) :
    ((mapInsert st.ratVars k st.numRat).map (·.2)).Nodup := by
  unfold mapInsert
  split
  · exact hI.ratOrds
  · rw [List.map_append, List.map_singleton]
    refine List.nodup_append.mpr ⟨hI.ratOrds, by simp, ?_⟩
    intro a ha b hb
    obtain ⟨p, hp, rfl⟩ := List.mem_map.mp ha
    rw [List.mem_singleton.mp hb]
    exact Nat.ne_of_lt (hI.rat p hp).2.2

theorem iinv_insert_rat (hI : IInv s st) {k : Tm} (hk : IsReal s k) (hv : VarLike s k) (ap : List (Var × Tm)) :
    IInv s { (newRat st).1 with ratVars := mapInsert (newRat st).1.ratVars k (newRat st).2, apps := ap } := by
  obtain ⟨hi, hmod⟩ := newRat_spec hI
  refine ⟨hi.store, hi.num, hi.nonempty, hi.cvars, hi.clauses, nodup_insert_rat hI k, ?_, hi.bool⟩
  intro p hp
  rcases mem_mapInsert hp with hp | rfl
  · exact hi.rat p hp
  · exact ⟨hk, hv, Nat.lt_succ_self _⟩

theorem step_rat (hI : IInv s st) {k : Tm} (hk : IsReal s k)
    (hkind : s.kind k = .uninterpreted ∨ s.kind k = .app) (ap : List (Var × Tm)) :
    Step s st { (newRat st).1 with
      ratVars := mapInsert (newRat st).1.ratVars k (newRat st).2, apps := ap } := by
  have hv : VarLike s k := by rcases hkind with h | h <;> simp [VarLike, h]
  refine ⟨iinv_insert_rat hI hk hv ap, fun p hp => mapInsert_sub hp,
    fun p hp => hp, fun m r h => h, ?_, ?_⟩
  · intro I m r _ ha hg
    refine ⟨fun p hp => ?_, ha.bool⟩
    rcases mem_mapInsert hp with hp' | rfl
    · exact ha.rat p hp'
    · exact hg.1 _ (List.mem_filter.mpr ⟨hp, by simpa using hkind⟩)
  · intro I m r h ha
    have hr : ∀ j, j < st.numRat → (fun j => if j = st.numRat then denQ I s k else r j) j = r j := by
      intro j hj; simp only; rw [if_neg (by omega)]
    refine ⟨m, fun j => if j = st.numRat then denQ I s k else r j, ?_, ?_⟩
    · exact models_congr hI (fun _ _ => rfl) hr h
    · have ha' := agree_congr hI (fun _ _ => rfl) hr ha
      refine ⟨fun p hp => ?_, ha'.bool⟩
      rcases mem_mapInsert hp with hp' | rfl
      · exact ha'.rat p hp'
      · show (if st.numRat = st.numRat then _ else _) = _
        rw [if_pos rfl]

/-! ### Atoms -/

theorem Tm.pos_index (t : Tm) : t.pos.index = t.index := by
  show t.x / 2 * 2 / 2 = t.x / 2; omega

theorem Tm.pos_isNeg (t : Tm) : t.pos.isNeg = false := by
  show decide (t.x / 2 * 2 % 2 = 1) = false
  exact decide_eq_false (by omega)

theorem entry_pos (s : TermTable) (t : Tm) : s.entry t.pos = s.entry t := by
  unfold TermTable.entry; rw [Tm.pos_index]

theorem type_pos (s : TermTable) (t : Tm) : s.type t.pos = s.type t := by
  unfold TermTable.type; rw [entry_pos]

theorem kind_pos (s : TermTable) (t : Tm) : s.kind t.pos = s.kind t := by
  unfold TermTable.kind; rw [entry_pos]

theorem Tm.pos_of_not_neg {t : Tm} (h : t.isNeg = false) : t.pos = t := (Tm.eq_positive h).symm

theorem Tm.eq_opp_pos {t : Tm} (h : t.isNeg = true) : t = t.pos.opp := by
  unfold Tm.isNeg at h
  have h' : t.x % 2 = 1 := by simpa using h
  cases t with
  | mk x =>
    have h'' : x % 2 = 1 := h'
    unfold Tm.opp Tm.pos Tm.positive Tm.index
    simp only
    rw [if_pos (by omega)]
    congr 1; omega

theorem denB_sign (h : WF H s) {t : Tm} (ht : IsBool s t) (I : Interp) :
    denB I s t = if t.isNeg then !denB I s t.pos else denB I s t.pos := by
  cases hn : t.isNeg with
  | false => rw [Tm.pos_of_not_neg hn]; rfl
  | true =>
    have hb : IsBool s t.pos := by unfold IsBool; rw [type_pos]; exact ht
    conv_lhs => rw [Tm.eq_opp_pos hn, denB_opp h hb]
    rfl

theorem litTrue_sign {m : Assignment} {l : Lit} {b : Bool} (h : litTrue m l ↔ b = true) (n : Bool) :
    litTrue m (if n then l.neg else l) ↔ (if n then !b else b) = true := by
  cases n
  · exact h
  · simp only [if_true]; rw [litTrue_neg, h]; simp

theorem poly_lin {t : Tm} {ip : UPoly} (hp : PolySpec s st t ip) {I : Interp} {m : Assignment} {r : Nat → ℚ}
    (ha : AgreeAll I s st m r) : lsum r ip.terms + ip.const = denQ I s t :=
  hp.val I r fun p hp' _ => ha.rat p hp'

theorem lsum_neg (r : Nat → ℚ) (ts : List (Nat × ℚ)) :
    lsum r (ts.map fun t => (t.1, -t.2)) = - lsum r ts := by
  induction ts with
  | nil => simp [lsum]
  | cons a ts ih =>
    unfold lsum at ih ⊢
    simp only [List.map_cons, List.sum_cons] at ih ⊢
    rw [ih]; ring

theorem map_fst_neg (ts : List (Nat × ℚ)) :
    (ts.map fun t => (t.1, -t.2)).map (·.1) = ts.map (·.1) := by
  rw [List.map_map]; rfl

theorem visitGe_step (h : WF H s) (hI : IInv s st) {cfg : ICfg} {t : Tm} (hk : s.kind t = .arithGe)
    (hv : visitGe cfg s st t = some st') : Step s st st' := by
  obtain ⟨e, he, hek⟩ := entry_of_kind (s := s) (t := t) (by rw [hk]; decide)
  have hs := h.shape _ _ he
  rw [hk] at hek
  obtain ⟨k, ty, d⟩ := e
  simp only at hek
  subst hek
  obtain ⟨h0, p, h1, hpr, hpk⟩ := hs
  simp only at h0 h1
  subst h0 h1
  have hb : IsBool s t.pos := by unfold IsBool; rw [type_pos]; exact type_of_entry he
  have hden : ∀ I, denB I s t.pos = decide (0 ≤ denQ I s p) := by
    intro I
    unfold denB denQ
    rw [h.den (by rw [entry_pos]; exact he) (Tm.pos_isNeg t)]
    rfl
  unfold visitGe at hv
  rw [args_of_entry he (by simp)] at hv
  simp only [List.getElem?_cons_zero, Option.bind_eq_bind, Option.bind_some, Option.bind_eq_some_iff,
    Option.some.injEq] at hv
  obtain ⟨_, _, ip, hip, ⟨st1, l⟩, hl, _, _, rfl⟩ := hv
  have hps := poly_spec h hI hpr hip
  cases hn : t.isNeg with
  | false =>
    simp only [hn, Bool.false_eq_true, if_false] at hl ⊢
    have hL := linearConstraint_spec hI (by unfold UPoly.negate; rw [map_fst_neg]; exact hps.nodup) hl
    refine step_lin hI hL hb hL.ord ?_
    intro I m r hm ha
    rw [hL.means m r hm, hden, decide_eq_true_eq]
    have := poly_lin hps ha
    unfold LinTrue Rel UPoly.negate
    simp only [lsum_neg]
    rw [← this]
    constructor <;> intro h <;> linarith
  | true =>
    simp only [hn, if_true] at hl ⊢
    have hL := linearConstraint_spec hI hps.nodup hl
    refine step_lin hI hL hb (by rw [LinStore.Lit.neg_ord]; exact hL.ord) ?_
    intro I m r hm ha
    rw [litTrue_neg, hL.means m r hm, hden, decide_eq_true_eq]
    have := poly_lin hps ha
    unfold LinTrue Rel
    simp only
    rw [← this, not_lt]
    constructor <;> intro h <;> linarith

theorem visitEq_step (h : WF H s) (hI : IInv s st) {cfg : ICfg} {t : Tm} (hk : s.kind t = .arithEq)
    (hv : visitEq cfg s st t = some st') : Step s st st' := by
  obtain ⟨e, he, hek⟩ := entry_of_kind (s := s) (t := t) (by rw [hk]; decide)
  have hs := h.shape _ _ he
  rw [hk] at hek
  obtain ⟨k, ty, d⟩ := e
  simp only at hek
  subst hek
  obtain ⟨h0, p, h1, hpr, hpk⟩ := hs
  simp only at h0 h1
  subst h0 h1
  have hb : IsBool s t.pos := by unfold IsBool; rw [type_pos]; exact type_of_entry he
  have hden : ∀ I, denB I s t.pos = decide (denQ I s p = 0) := by
    intro I
    unfold denB denQ
    rw [h.den (by rw [entry_pos]; exact he) (Tm.pos_isNeg t)]
    rfl
  unfold visitEq at hv
  rw [args_of_entry he (by simp)] at hv
  simp only [List.getElem?_cons_zero, Option.bind_eq_bind, Option.bind_some, Option.bind_eq_some_iff,
    Option.some.injEq] at hv
  obtain ⟨ip, hip, ⟨st1, l⟩, hl, _, _, _, _, rfl⟩ := hv
  have hps := poly_spec h hI hpr hip
  have hL := linearConstraint_spec hI hps.nodup hl
  refine step_lin hI hL hb hL.ord ?_
  intro I m r hm ha
  rw [hL.means m r hm, hden, decide_eq_true_eq]
  have := poly_lin hps ha
  unfold LinTrue Rel
  simp only
  rw [← this]
  constructor <;> intro h <;> linarith

theorem visitBinEq_step (h : WF H s) (hI : IInv s st) {cfg : ICfg} {t : Tm} (hk : s.kind t = .arithBinEq)
    (hv : visitBinEq cfg s st t = some st') : Step s st st' := by
  obtain ⟨e, he, hek⟩ := entry_of_kind (s := s) (t := t) (by rw [hk]; decide)
  have hs := h.shape _ _ he
  rw [hk] at hek
  obtain ⟨k, ty, d⟩ := e
  simp only at hek
  subst hek
  obtain ⟨h0, a, b, h1, har, hbr, hav, hbv, hab⟩ := hs
  simp only at h0 h1
  subst h0 h1
  have hb : IsBool s t.pos := by unfold IsBool; rw [type_pos]; exact type_of_entry he
  have hden : ∀ I, denB I s t.pos = decide (denQ I s a = denQ I s b) := by
    intro I
    unfold denB denQ
    rw [h.den (by rw [entry_pos]; exact he) (Tm.pos_isNeg t)]
    rfl
  unfold visitBinEq at hv
  rw [args_of_entry he (by simp)] at hv
  simp only [List.getElem?_cons_zero, List.getElem?_cons_succ, Option.bind_eq_bind, Option.bind_some,
    Option.bind_eq_some_iff, Option.some.injEq] at hv
  obtain ⟨_, _, _, _, ip, hip, ⟨st1, l⟩, hl, _, _, _, _, rfl⟩ := hv
  have key : (ip.terms.map (·.1)).Nodup ∧ ∀ I m r, AgreeAll I s st m r →
      lsum r ip.terms + ip.const = denQ I s a - denQ I s b := by
    unfold binEqPoly at hip
    split at hip
    · rename_i hc
      simp only [Option.map_eq_some_iff] at hip
      obtain ⟨v, hv, rfl⟩ := hip
      refine ⟨by simp, fun I m r ha => ?_⟩
      have hbk : s.kind b = .arithConst := by simpa [TermTable.isArithConst] using hc
      have hbq : denQ I s b = s.constValue b := by
        rcases real_cases h hbr with ⟨q, he⟩ | hv | ⟨c, x, q, he, _⟩ | ⟨as, p, he, _⟩
        · rw [denQ_const h he hbr.2, constValue_of_entry he]
        · rcases hv with hv | hv | hv <;> rw [hv] at hbk <;> cases hbk
        · rw [kind_of_entry he] at hbk; cases hbk
        · rw [kind_of_entry he] at hbk; cases hbk
      have := ha.rat _ (mapFind_mem hv)
      simp only [lsum, List.map_cons, List.map_nil, List.sum_cons, List.sum_nil]
      rw [hbq, this]; ring
    · simp only [Option.bind_eq_some_iff, Option.map_eq_some_iff] at hip
      obtain ⟨v, hv, w, hw, rfl⟩ := hip
      constructor
      · simp only [List.map_cons, List.map_nil, List.nodup_cons, List.mem_singleton, List.not_mem_nil,
          not_false_eq_true, List.nodup_nil, and_self, and_true]
        rintro rfl
        exact hab (ord_inj hI (mapFind_mem hv) (mapFind_mem hw))
      · intro I m r ha
        have h1 := ha.rat _ (mapFind_mem hv)
        have h2 := ha.rat _ (mapFind_mem hw)
        simp only [lsum, List.map_cons, List.map_nil, List.sum_cons, List.sum_nil]
        rw [h1, h2]; ring
  have hL := linearConstraint_spec hI key.1 hl
  refine step_lin hI hL hb hL.ord ?_
  intro I m r hm ha
  rw [hL.means m r hm, hden, decide_eq_true_eq]
  have := key.2 I m r ha
  unfold LinTrue Rel
  simp only
  constructor <;> intro h <;> linarith

/-! ### Constants and applications -/

theorem visitApp_step (hI : IInv s st) {cfg : ICfg} {t : Tm} (hk : s.kind t = .app)
    (hneg : t.isNeg = true → IsBool s t) (hv : visitApp cfg s st t = some st') : Step s st st' := by
  unfold visitApp at hv
  cases hty : s.type t with
  | null => rw [hty] at hv; cases hv
  | real =>
    rw [hty] at hv
    simp only [Option.bind_eq_bind, Option.bind_eq_some_iff, Option.some.injEq] at hv
    obtain ⟨_, _, rfl⟩ := hv
    have hn : t.isNeg = false := by
      cases hn : t.isNeg with
      | false => rfl
      | true => have := hneg hn; unfold IsBool at this; rw [hty] at this; cases this
    exact step_rat hI ⟨hty, hn⟩ (.inr hk) _
  | bool =>
    rw [hty] at hv
    simp only [Option.bind_eq_bind, Option.bind_eq_some_iff, Option.some.injEq] at hv
    obtain ⟨_, _, rfl⟩ := hv
    exact step_bool hI hty (.inr hk) _

theorem visitConst_step (hI : IInv s st) {cfg : ICfg} {t : Tm} (hk : s.kind t = .uninterpreted)
    (hneg : t.isNeg = true → IsBool s t) (hv : visitConst cfg s st t = some st') : Step s st st' := by
  unfold visitConst at hv
  cases hty : s.type t with
  | null => rw [hty] at hv; cases hv; exact Step.refl hI
  | real =>
    rw [hty] at hv
    simp only [Option.bind_eq_bind, Option.bind_eq_some_iff, Option.some.injEq] at hv
    obtain ⟨_, _, rfl⟩ := hv
    have hn : t.isNeg = false := by
      cases hn : t.isNeg with
      | false => rfl
      | true => have := hneg hn; unfold IsBool at this; rw [hty] at this; cases this
    exact step_rat hI ⟨hty, hn⟩ (.inl hk) _
  | bool =>
    rw [hty] at hv
    simp only [Option.bind_eq_bind, Option.bind_eq_some_iff, Option.some.injEq] at hv
    obtain ⟨_, _, rfl⟩ := hv
    exact step_bool hI (by unfold IsBool; rw [type_pos]; exact hty) (.inl (by rw [kind_pos]; exact hk)) _

/-! ### Clauses -/

theorem forall₂_imp_mem {α β : Type} {R S : α → β → Prop} {l : List α} {l' : List β}
    (h : List.Forall₂ R l l') (hp : ∀ a ∈ l, ∀ b, R a b → S a b) : List.Forall₂ S l l' := by
  induction h with
  | nil => exact .nil
  | cons h1 _ ih => exact .cons (hp _ (by simp) _ h1) (ih fun a ha => hp a (by simp [ha]))

theorem iinv_clauses (hI : IInv s st) {cs : List Clause} (hc : ∀ c ∈ cs, ∀ l ∈ c, l.ord < st.numBool) :
    IInv s { st with clauses := st.clauses ++ cs } := by
  refine ⟨hI.store, hI.num, hI.nonempty, hI.cvars, ?_, hI.ratOrds, hI.rat, hI.bool⟩
  intro c hc' l hl
  rcases List.mem_append.mp hc' with h | h
  · exact hI.clauses c h l hl
  · exact hc c h l hl

theorem foldl_assert (f : Lit → Clause) (ls : List Lit) : ∀ st : IState,
    ls.foldl (fun st l => assertClause st (f l)) st = { st with clauses := st.clauses ++ ls.map f } := by
  induction ls with
  | nil => intro st; simp
  | cons l ls ih =>
    intro st
    rw [List.foldl_cons, ih]
    simp [assertClause]

theorem clauseTrue_pair {m : Assignment} {a b : Lit} : clauseTrue m [a, b] ↔ (litTrue m a ∨ litTrue m b) := by
  unfold clauseTrue; simp

/-- The literals of the arguments of a disjunction. -/
def ArgLit (st : IState) (a : Tm) (l : Lit) : Prop :=
  ∃ l0, (a.pos, l0) ∈ st.boolVars ∧ l = if a.isNeg then l0.neg else l0

theorem orLits_spec : ∀ {as : List Tm} {ls : List Lit}, orLits st as = some ls →
    List.Forall₂ (ArgLit st) as ls := by
  intro as
  induction as with
  | nil => intro ls h; simp only [orLits, Option.some.injEq] at h; rw [← h]; exact .nil
  | cons a as ih =>
    intro ls h
    rw [orLits] at h
    cases h1 : mapFind st.boolVars a.pos with
    | none => rw [h1] at h; cases h
    | some l =>
      cases h2 : orLits st as with
      | none => rw [h1, h2] at h; cases h
      | some ls' =>
        rw [h1, h2] at h
        simp only [Option.some.injEq] at h
        rw [← h]
        exact .cons ⟨l, mapFind_mem h1, rfl⟩ (ih h2)

theorem signed_ord (b : Bool) (l : Lit) : (if b then l.neg else l).ord = l.ord := by
  cases b
  · rfl
  · exact LinStore.Lit.neg_ord l

theorem argLit_true (h : WF H s) {a : Tm} {l : Lit} (hb : IsBool s a) (hl : ArgLit st a l) {I : Interp}
    {m : Assignment} {r : Nat → ℚ} (ha : AgreeAll I s st m r) : litTrue m l ↔ denB I s a = true := by
  obtain ⟨l0, h1, rfl⟩ := hl
  rw [denB_sign h hb]
  exact litTrue_sign (ha.bool _ h1) _

theorem visitOr_step (h : WF H s) (hI : IInv s st) {cfg : ICfg} {t : Tm} (hk : s.kind t = .or)
    (hv : visitOr cfg s st t = some st') : Step s st st' := by
  obtain ⟨e, he, hek⟩ := entry_of_kind (s := s) (t := t) (by rw [hk]; decide)
  have hs := h.shape _ _ he
  rw [hk] at hek
  obtain ⟨k, ty, d⟩ := e
  simp only at hek
  subst hek
  obtain ⟨h0, as, h1, _, hasb⟩ := hs
  simp only at h0 h1
  subst h0 h1
  have hb : IsBool s t.pos := by unfold IsBool; rw [type_pos]; exact type_of_entry he
  have hbelow : ∀ a ∈ as, a.index < t.index := h.below _ _ he
  have hden : ∀ I, denB I s t.pos = as.any fun a => denB I s a := by
    intro I
    unfold denB
    rw [h.den (by rw [entry_pos]; exact he) (Tm.pos_isNeg t)]
    rfl
  unfold visitOr at hv
  rw [args_of_entry he (by simp)] at hv
  simp only [Option.bind_eq_bind, Option.bind_eq_some_iff, Option.some.injEq] at hv
  obtain ⟨_, _, _, _, _, _, ls, hls, hv⟩ := hv
  rw [foldl_assert] at hv
  obtain ⟨hi, hmod⟩ := newBool_spec hI
  have hnum : (newBool st).2 = st.numBool := rfl
  rw [hnum] at hls hv
  -- the literals are those of the arguments, which were visited before
  have hf : List.Forall₂ (ArgLit st) as ls := by
    refine forall₂_imp_mem (orLits_spec hls) ?_
    rintro a ha l ⟨l0, h2, h3⟩
    rcases mem_mapInsert h2 with h2 | h2
    · exact ⟨l0, h2, h3⟩
    · exfalso
      have h4 := congrArg Tm.index (Prod.mk.inj h2).1
      rw [Tm.pos_index, Tm.pos_index] at h4
      have := hbelow a ha
      omega
  have hord : ∀ l ∈ ls, l.ord < st.numBool := by
    intro l hl
    obtain ⟨a, _, l0, h2, h3⟩ := forall₂_mem_right hf hl
    rw [h3, signed_ord]
    exact (hI.bool _ h2).2
  have hany : ∀ I m r, AgreeAll I s st m r → ((∃ l ∈ ls, litTrue m l) ↔ denB I s t.pos = true) := by
    intro I m r ha
    rw [hden, List.any_eq_true]
    constructor
    · rintro ⟨l, hl, h2⟩
      obtain ⟨a, h3, h4⟩ := forall₂_mem_right hf hl
      exact ⟨a, h3, (argLit_true h (hasb a h3) h4 ha).mp h2⟩
    · rintro ⟨a, h3, h2⟩
      obtain ⟨l, hl, h4⟩ := forall₂_mem_left hf h3
      exact ⟨l, hl, (argLit_true h (hasb a h3) h4 ha).mpr h2⟩
  subst hv
  have hi2 : IInv s { (newBool st).1 with boolVars := mapInsert (newBool st).1.boolVars t.pos (Lit.pos st.numBool) } := by
    refine ⟨hi.store, hi.num, hi.nonempty, hi.cvars, hi.clauses, hi.ratOrds, hi.rat, ?_⟩
    intro p hp
    rcases mem_mapInsert hp with hp | rfl
    · exact hi.bool p hp
    · exact ⟨hb, by show (Lit.pos st.numBool).ord < st.numBool + 1; rw [LinStore.Lit.pos_ord]; omega⟩
  have hposord : (Lit.pos st.numBool).ord < st.numBool + 1 := by rw [LinStore.Lit.pos_ord]; omega
  have hi3 := iinv_clauses hi2 (cs := ls.map fun l => [Lit.pos st.numBool, l.neg]) (by
    intro c hc l hl
    obtain ⟨l0, h2, rfl⟩ := List.mem_map.mp hc
    simp only [List.mem_cons, List.not_mem_nil, or_false] at hl
    rcases hl with rfl | rfl
    · exact hposord
    · rw [LinStore.Lit.neg_ord]; exact Nat.lt_succ_of_lt (hord l0 h2))
  have hi4 := iinv_clauses hi3 (cs := [ls ++ [(Lit.pos st.numBool).neg]]) (by
    intro c hc l hl
    rw [List.mem_singleton.mp hc] at hl
    rcases List.mem_append.mp hl with hl | hl
    · exact Nat.lt_succ_of_lt (hord l hl)
    · rw [List.mem_singleton.mp hl, LinStore.Lit.neg_ord]; exact hposord)
  refine ⟨hi4, fun p hp => hp, fun p hp => mapInsert_sub hp, ?_, ?_, ?_⟩
  · intro m r hm
    refine (hmod m r).mp ⟨fun c hc => hm.1 c ?_, hm.2⟩
    exact List.mem_append_left _ (List.mem_append_left _ hc)
  · intro I m r hm ha _
    refine ⟨ha.rat, fun p hp => ?_⟩
    rcases mem_mapInsert hp with hp | rfl
    · exact ha.bool p hp
    · simp only
      rw [← hany I m r ha]
      constructor
      · intro hl
        have := hm.1 (ls ++ [(Lit.pos st.numBool).neg]) (by simp [assertClause])
        obtain ⟨l, h2, h3⟩ := this
        rcases List.mem_append.mp h2 with h2 | h2
        · exact ⟨l, h2, h3⟩
        · rw [List.mem_singleton.mp h2, litTrue_neg] at h3
          exact absurd hl h3
      · rintro ⟨l, hl, h2⟩
        have := hm.1 [Lit.pos st.numBool, l.neg]
          (List.mem_append_left _ (List.mem_append_right _ (List.mem_map.mpr ⟨l, hl, rfl⟩)))
        rcases clauseTrue_pair.mp this with h3 | h3
        · exact h3
        · exact absurd h2 ((litTrue_neg m l).mp h3)
  · intro I m r hm ha
    have hm' : ∀ j, j < st.numBool → (fun j => if j = st.numBool then denB I s t.pos else m j) j = m j := by
      intro j hj; simp only; rw [if_neg (by omega)]
    have hlit : litTrue (fun j => if j = st.numBool then denB I s t.pos else m j) (Lit.pos st.numBool) ↔
        denB I s t.pos = true := by rw [litTrue_pos]; simp
    have ha' := agree_congr hI hm' (fun _ _ => rfl) ha
    have hany' := hany I _ r ha'
    have hmd := (hmod _ _).mpr (models_congr hI hm' (fun _ _ => rfl) hm)
    refine ⟨fun j => if j = st.numBool then denB I s t.pos else m j, r, ⟨fun c hc => ?_, hmd.2⟩, ?_⟩
    · rcases List.mem_append.mp hc with hc | hc
      · rcases List.mem_append.mp hc with hc | hc
        · exact hmd.1 c hc
        · obtain ⟨l, hl, rfl⟩ := List.mem_map.mp hc
          rw [clauseTrue_pair, litTrue_neg, hlit, ← hany']
          by_cases h5 : litTrue (fun j => if j = st.numBool then denB I s t.pos else m j) l
          · exact .inl ⟨l, hl, h5⟩
          · exact .inr h5
      · rw [List.mem_singleton.mp hc]
        by_cases h5 : denB I s t.pos = true
        · obtain ⟨l, h6, h7⟩ := hany'.mpr h5
          exact ⟨l, List.mem_append_left _ h6, h7⟩
        · exact ⟨_, List.mem_append_right _ (List.mem_singleton.mpr rfl), by rw [litTrue_neg, hlit]; exact h5⟩
    · refine ⟨ha'.rat, fun p hp => ?_⟩
      rcases mem_mapInsert hp with hp | rfl
      · exact ha'.bool p hp
      · exact hlit

/-! ### Conditional terms -/

theorem visitIte_step (h : WF H s) (hI : IInv s st) {cfg : ICfg} {t : Tm} (hk : s.kind t = .ite)
    (htn : t.isNeg = true → IsBool s t) (hv : visitIte cfg s st t = some st') : Step s st st' := by
  obtain ⟨e, he, hek⟩ := entry_of_kind (s := s) (t := t) (by rw [hk]; decide)
  have hs := h.shape _ _ he
  rw [hk] at hek
  obtain ⟨k, ty, d⟩ := e
  simp only at hek
  subst hek
  obtain ⟨h0, c, a, b, h1, hc, har, hbr⟩ := hs
  simp only at h0 h1
  subst h0 h1
  have hty : s.type t = .real := type_of_entry he
  have hn : t.isNeg = false := by
    cases hn : t.isNeg with
    | false => rfl
    | true => have := htn hn; unfold IsBool at this; rw [hty] at this; cases this
  have htr : IsReal s t := ⟨hty, hn⟩
  have hbelow := h.below _ _ he
  have hden : ∀ I, denQ I s t = if denB I s c then denQ I s a else denQ I s b := by
    intro I
    unfold denB denQ
    rw [h.den he hn]
    show (if (den I s c).bool then den I s a else den I s b).num = _
    split <;> rfl
  unfold visitIte at hv
  rw [args_of_entry he (by simp), if_pos hty] at hv
  simp only [List.getElem?_cons_zero, List.getElem?_cons_succ, Option.bind_eq_bind, Option.bind_some,
    Option.bind_eq_some_iff, Option.some.injEq] at hv
  obtain ⟨_, _, _, _, tp, htp, fp, hfp, ⟨st1, lt⟩, hlt, ⟨st2, lf⟩, hlf, _, _, l, hl, hv⟩ := hv
  have hiA := iinv_insert_rat hI htr (.inr (.inl hk)) st.apps
  have hnum : (newRat st).2 = st.numRat := rfl
  generalize hA : ({ (newRat st).1 with ratVars := mapInsert (newRat st).1.ratVars t (newRat st).2 } : IState) = stA at *
  have hiA : IInv s stA := by rw [← hA]; exact hiA
  have hAr : stA.ratVars = mapInsert st.ratVars t st.numRat := by rw [← hA]; rfl
  have hAb : stA.boolVars = st.boolVars := by rw [← hA]; rfl
  have hAn : stA.numRat = st.numRat + 1 := by rw [← hA]; rfl
  have hAnb : stA.numBool = st.numBool := by rw [← hA]; rfl
  have hAm : ∀ m r, Models stA m r ↔ Models st m r := by rw [← hA]; exact fun m r => Iff.rfl
  have hAc : stA.clauses = st.clauses := by rw [← hA]; rfl
  rw [hnum] at hlt hlf
  -- the polynomials of the branches do not contain the new variable
  have branch : ∀ {x : Tm} {p : UPoly}, IsReal s x → x.index < t.index → poly s stA x = some p →
      ((p.subtractVar st.numRat).terms.map (·.1)).Nodup ∧ ∀ I m r, AgreeAll I s st m r →
        lsum r p.terms + p.const = denQ I s x := by
    intro x p hx hxi hp
    have hps := poly_spec h hiA hx hp
    constructor
    · unfold UPoly.subtractVar
      rw [List.map_append]
      refine List.nodup_append.mpr ⟨hps.nodup, by simp, ?_⟩
      intro u hu w hw
      simp only [List.map_cons, List.map_nil, List.mem_singleton] at hw
      obtain ⟨q, hq, rfl⟩ := List.mem_map.mp hu
      obtain ⟨y, h2, h3⟩ := hps.vars q hq
      rw [hw]
      rw [hAr] at h3
      rcases mem_mapInsert h3 with h3 | h3
      · exact Nat.ne_of_lt (hI.rat _ h3).2.2
      · rw [(Prod.mk.inj h3).1] at h2
        omega
    · intro I m r ha
      refine hps.val I r fun q hq hqi => ?_
      rw [hAr] at hq
      rcases mem_mapInsert hq with hq | rfl
      · exact ha.rat q hq
      · simp only at hqi; omega
  obtain ⟨tn, tval⟩ := branch har (hbelow a (by simp [argsOf])) htp
  obtain ⟨fn, fval⟩ := branch hbr (hbelow b (by simp [argsOf])) hfp
  have hL1 := linearConstraint_spec hiA tn hlt
  have hL2 := linearConstraint_spec hL1.inv fn hlf
  have hlc : (c, l) ∈ st.boolVars := by
    have := mapFind_mem hl
    simp only at this
    rwa [hL2.bool, hL1.bool, hAb] at this
  have lin : ∀ {x : Tm} {p : UPoly} {I : Interp} {m : Assignment} {r : Nat → ℚ},
      lsum r p.terms + p.const = denQ I s x →
      (LinTrue r (p.subtractVar st.numRat).terms .eq (-(p.subtractVar st.numRat).const) ↔
        r st.numRat = denQ I s x) := by
    intro x p I m r hx
    unfold LinTrue Rel UPoly.subtractVar
    simp only [lsum_append]
    rw [show lsum r [(st.numRat, -1)] = - r st.numRat by simp [lsum]]
    constructor <;> intro h <;> linarith
  subst hv
  have hlo : l.ord < st2.numBool := by
    have h1 := (hI.bool _ hlc).2
    have h2 := hL1.numBool
    have h3 := hL2.numBool
    simp only at h1; omega
  have hi3 := iinv_clauses hL2.inv (cs := [[l, lf], [l.neg, lt]]) (by
    intro c hc x hx
    simp only [List.mem_cons, List.not_mem_nil, or_false] at hc
    rcases hc with rfl | rfl <;> simp only [List.mem_cons, List.not_mem_nil, or_false] at hx <;>
      rcases hx with rfl | rfl
    · exact hlo
    · exact hL2.ord
    · rw [LinStore.Lit.neg_ord]; exact hlo
    · exact lt_of_lt_of_le hL1.ord hL2.numBool)
  have hstate : assertClause (assertClause st2 [l, lf]) [l.neg, lt] =
      { st2 with clauses := st2.clauses ++ [[l, lf], [l.neg, lt]] } := by simp [assertClause]
  show Step s st (assertClause (assertClause st2 [l, lf]) [l.neg, lt])
  rw [hstate]
  have hrats : st2.ratVars = mapInsert st.ratVars t st.numRat := by rw [hL2.rat, hL1.rat, hAr]
  have hbools : st2.boolVars = st.boolVars := by rw [hL2.bool, hL1.bool, hAb]
  have back2 : ∀ m r, Models { st2 with clauses := st2.clauses ++ [[l, lf], [l.neg, lt]] } m r →
      Models st2 m r := fun m r hm => ⟨fun c hc => hm.1 c (List.mem_append_left _ hc), hm.2⟩
  refine ⟨hi3, ?_, ?_, ?_, ?_, ?_⟩
  · intro p hp; show p ∈ st2.ratVars; rw [hrats]; exact mapInsert_sub hp
  · intro p hp; show p ∈ st2.boolVars; rw [hbools]; exact hp
  · intro m r hm; exact (hAm m r).mp (hL1.back m r (hL2.back m r (back2 m r hm)))
  · intro I m r hm ha _
    refine ⟨fun p hp => ?_, fun p hp => ha.bool p (by rw [← hbools]; exact hp)⟩
    have hp' : p ∈ st2.ratVars := hp
    rw [hrats] at hp'
    rcases mem_mapInsert hp' with hp' | rfl
    · exact ha.rat p hp'
    · simp only
      have hm2 := back2 m r hm
      have hc1 := clauseTrue_pair.mp (hm.1 [l, lf] (by simp))
      have hc2 := clauseTrue_pair.mp (hm.1 [l.neg, lt] (by simp))
      have hcl := ha.bool _ hlc
      simp only at hcl
      rw [hL2.means m r hm2, lin (m := m) (fval I m r ha), hcl] at hc1
      rw [litTrue_neg, hL1.means m r (hL2.back m r hm2), lin (m := m) (tval I m r ha), hcl] at hc2
      rw [hden I]
      cases hcc : denB I s c with
      | true =>
        simp only [if_true]
        rcases hc2 with hc2 | hc2
        · exact absurd hcc hc2
        · exact hc2
      | false =>
        simp only [Bool.false_eq_true, if_false]
        rcases hc1 with hc1 | hc1
        · rw [hcc] at hc1; cases hc1
        · exact hc1
  · intro I m r hm ha
    have hr' : ∀ j, j < st.numRat → (fun j => if j = st.numRat then denQ I s t else r j) j = r j := by
      intro j hj; simp only; rw [if_neg (by omega)]
    have hm0 := (hAm _ _).mpr (models_congr hI (fun _ _ => rfl) hr' hm)
    obtain ⟨m1, e1, hm1⟩ := hL1.ext _ _ hm0
    obtain ⟨m2, e2, hm2⟩ := hL2.ext _ _ hm1
    have e : ∀ j, j < st.numBool → m2 j = m j := by
      intro j hj
      rw [e2 j (lt_of_lt_of_le (by rw [hAnb]; exact hj) hL1.numBool), e1 j (by rw [hAnb]; exact hj)]
    have ha' := agree_congr hI e hr' ha
    refine ⟨m2, _, ⟨fun cl hcl => ?_, hm2.2⟩, ⟨fun p hp => ?_, fun p hp => ha'.bool p (by rw [← hbools]; exact hp)⟩⟩
    · rcases List.mem_append.mp hcl with hcl | hcl
      · exact hm2.1 cl hcl
      · have hcb := ha'.bool _ hlc
        simp only at hcb
        have hl1 := (hL2.means _ _ hm2).trans (lin (m := m2) (fval I _ _ ha'))
        have hl2 := (hL1.means _ _ (hL2.back _ _ hm2)).trans (lin (m := m2) (tval I _ _ ha'))
        simp only [if_true] at hl1 hl2
        rw [hden I] at hl1 hl2
        simp only [List.mem_cons, List.not_mem_nil, or_false] at hcl
        rcases hcl with rfl | rfl
        · rw [clauseTrue_pair, hl1, hcb]
          cases hcc : denB I s c with
          | true => exact .inl rfl
          | false => right; simp
        · rw [clauseTrue_pair, litTrue_neg, hl2, hcb]
          cases hcc : denB I s c with
          | true => right; simp
          | false => left; simp
    · have hp' : p ∈ st2.ratVars := hp
      rw [hrats] at hp'
      rcases mem_mapInsert hp' with hp' | rfl
      · exact ha'.rat p hp'
      · simp

end Yaga
