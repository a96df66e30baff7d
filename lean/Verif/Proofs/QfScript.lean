/-
The first state of `check` for a script: the conversion of the assertions builds a plugin for linear
arithmetic with the same constraints.
-/
import Verif.Proofs.InternKeys
import Verif.Proofs.QfModel

set_option linter.unusedSectionVars false
set_option linter.unusedVariables false
set_option linter.unusedSimpArgs false

namespace Yaga

open Spec TermTable Internalizer

variable {H : TermHash} {s : TermTable} {st st' : IState} {cfg : ICfg}

/-- A plugin for linear arithmetic built by declarations and constraints has the constraints and the
variables of the state of the internalizer. -/
def Sim (cfg : ICfg) (st : IState) : Prop :=
  ∃ la P, Qf.Built cfg.hv cfg.hc la P ∧ la.store = st.store ∧ la.trail.bools.num = st.numBool ∧
    la.trail.rats.num = st.numRat

/-- The part of the state that the visit of a term keeps. -/
structure Mirror (cfg : ICfg) (st : IState) : Prop where
  sim : Sim cfg st
  ne : ∀ c ∈ st.clauses, c ≠ []

theorem Mirror.congr (h : Mirror cfg st) (h1 : st'.store = st.store) (h2 : st'.numBool = st.numBool)
    (h3 : st'.numRat = st.numRat) (h4 : st'.clauses = st.clauses) : Mirror cfg st' := by
  obtain ⟨⟨la, P, b, c1, c2, c3⟩, hne⟩ := h
  exact ⟨⟨la, P, b, by rw [h1, c1], by rw [h2, c2], by rw [h3, c3]⟩, by rw [h4]; exact hne⟩

theorem Mirror.clauses (h : Mirror cfg st) {cs : List Clause} (hcs : ∀ c ∈ cs, c ≠ []) :
    Mirror cfg { st with clauses := st.clauses ++ cs } := by
  refine ⟨h.sim, fun c hc => ?_⟩
  rcases List.mem_append.1 hc with hc | hc
  · exact h.ne c hc
  · exact hcs c hc

theorem Mirror.newBool (h : Mirror cfg st) : Mirror cfg (newBool st).1 := by
  obtain ⟨⟨la, P, b, c1, c2, c3⟩, hne⟩ := h
  refine ⟨⟨la.resize .boolean (st.numBool + 1), P, .resize b .boolean _ ?_, ?_, rfl, c3⟩, hne⟩
  · show la.trail.bools.num ≤ _; omega
  · show la.store.resize _ = st.store.resize _
    rw [c1]

theorem Mirror.newRat (h : Mirror cfg st) : Mirror cfg (newRat st).1 := by
  obtain ⟨⟨la, P, b, c1, c2, c3⟩, hne⟩ := h
  refine ⟨⟨la.resize .rational (st.numRat + 1), P, .resize b .rational _ ?_, c1, c2, rfl⟩, hne⟩
  show la.trail.rats.num ≤ _; omega

theorem linearConstraint_nz (hI : IInv s st) {ts : List (Nat × ℚ)} (hts : (ts.map (·.1)).Nodup) {pred : Pred}
    {rhs : ℚ} {l : Lit} (h : linearConstraint cfg st ts pred rhs = some (st', l)) : ∃ q ∈ ts, q.2 ≠ 0 := by
  have hL := linearConstraint_spec hI hts h
  by_contra hcon
  cases hk : LinStore.findNorm ts with
  | some k =>
    obtain ⟨q, q1, q2, _⟩ := LinStore.findNorm_some hk
    exact hcon ⟨q, q1, q2⟩
  | none =>
    obtain ⟨ha, _⟩ := LinStore.append_none (s := st.store) pred rhs hk
    obtain ⟨_, _, _, _, _, e, he, _, he3, _⟩ :=
      LinStore.dedup_spec cfg.hv cfg.hc hI.store ha (LinStore.append st.store ts pred rhs).2.2
    have he' : e ∈ (st.store.make cfg.hv cfg.hc ts pred rhs).1.set := he
    have ht : (st.store.make cfg.hv cfg.hc ts pred rhs).1.terms e = [] := he3.eq_nil
    have : e ∈ st'.store.set ∧ st'.store.terms e = (st.store.make cfg.hv cfg.hc ts pred rhs).1.terms e := by
      unfold linearConstraint at h
      split at h
      · cases h
      simp only at h
      split at h
      · split at h
        · cases h
        · simp only [Option.some.injEq, Prod.mk.injEq] at h
          rw [← h.1]; exact ⟨he', rfl⟩
      · simp only [Option.some.injEq, Prod.mk.injEq] at h
        rw [← h.1]; exact ⟨he', rfl⟩
    exact hL.inv.nonempty e this.1 (by rw [this.2, ht])

theorem Mirror.constraint (hM : Mirror cfg st) (hI : IInv s st) {ts : List (Nat × ℚ)}
    (hts : (ts.map (·.1)).Nodup) {pred : Pred} {rhs : ℚ} {l : Lit}
    (h : linearConstraint cfg st ts pred rhs = some (st', l)) : Mirror cfg st' := by
  have hne := linearConstraint_nz hI hts h
  have hL := linearConstraint_spec hI hts h
  obtain ⟨⟨la, P, b, c1, c2, c3⟩, hcl⟩ := hM
  refine ⟨?_, by rw [hL.cls]; exact hcl⟩
  unfold linearConstraint at h
  split at h
  · cases h
  rename_i hrange
  have hrange : ∀ p ∈ ts, p.1 < st.numRat := by
    intro p hp
    by_contra hc
    exact hrange (List.any_eq_true.mpr ⟨p, hp, by simpa using hc⟩)
  simp only at h
  have hb' := Qf.Built.cons b ts pred rhs hts hne (by rw [c3]; exact hrange)
  obtain ⟨hR, hlv, _⟩ := Qf.built_spec (op := ⟨false, false, false⟩) b
  obtain ⟨w, hg⟩ := hR.good
  have hun : ∀ v, la.trail.rats.defined v = false := by
    intro v
    by_contra hcon
    obtain ⟨k, hk⟩ := (hg.keep.base.tinv.defined ⟨.rational, v⟩).mp (by simpa [Trail.isDefined] using hcon)
    have : la.trail.level ⟨.rational, v⟩ = none :=
      BS.isEmpty_level hg.keep.base.tinv (by simp [Trail.isEmpty, Trail.assigned, hlv]) _
    rw [this] at hk; cases hk
  obtain ⟨g1, g2, e, g3⟩ := LinStore.make_spec cfg.hv cfg.hc hI.store hts pred rhs
  refine ⟨_, _, hb', ?_⟩
  unfold LA.constraint Lra.constraint
  rw [c1]
  simp only
  by_cases hord : st.numBool ≤ (st.store.make cfg.hv cfg.hc ts pred rhs).2.lit.ord
  · rw [if_pos hord] at h
    split at h
    · cases h
    simp only [Option.some.injEq, Prod.mk.injEq] at h
    have hord' : (st.store.make cfg.hv cfg.hc ts pred rhs).2.lit.ord ≥ la.models.bools.num := by
      show la.trail.bools.num ≤ _; omega
    simp only [if_pos hord']
    rw [if_pos (by omega)]
    rw [← h.1]
    refine ⟨?_, rfl, c3⟩
    show Lra.watchLoop _ _ _ _ _ _ = _
    refine Lra.watchLoop_unassigned _ _ _ _ _ (fun y _ => hun y) ?_
    have hlen : (((st.store.make cfg.hv cfg.hc ts pred rhs).1.resize
        ((st.store.make cfg.hv cfg.hc ts pred rhs).2.lit.ord + 1)).varsOf
        (st.store.make cfg.hv cfg.hc ts pred rhs).2).length = (st.store.make cfg.hv cfg.hc ts pred rhs).2.size := by
      have h2 : (st.store.make cfg.hv cfg.hc ts pred rhs).2.second ≤
          (st.store.make cfg.hv cfg.hc ts pred rhs).1.vars.length := by
        have := (g1.rng e g3.mem).2
        rcases g3.eq with h | h <;> rw [h] <;> exact this
      show (LinStore.slice _ _ _).length = _
      exact LinStore.length_slice h2
    omega
  · rw [if_neg hord] at h
    simp only [Option.some.injEq, Prod.mk.injEq] at h
    have hord' : ¬ (st.store.make cfg.hv cfg.hc ts pred rhs).2.lit.ord ≥ la.models.bools.num := by
      show ¬ la.trail.bools.num ≤ _; omega
    simp only [if_neg hord']
    rw [if_neg (by show ¬ la.trail.bools.num ≤ _; omega)]
    rw [← h.1]
    exact ⟨rfl, c2, c3⟩

/-! ### Visits -/

theorem visitGe_mirror (h : WF H s) (hI : IInv s st) (hM : Mirror cfg st) {t : Tm} (hk : s.kind t = .arithGe)
    (hv : visitGe cfg s st t = some st') : Mirror cfg st' := by
  obtain ⟨e, he, hek⟩ := entry_of_kind (s := s) (t := t) (by rw [hk]; decide)
  have hs := h.shape _ _ he
  rw [hk] at hek
  obtain ⟨k, ty, d⟩ := e
  simp only at hek
  subst hek
  obtain ⟨h0, p, h1, hpr, hpk⟩ := hs
  simp only at h0 h1
  subst h0 h1
  unfold visitGe at hv
  rw [args_of_entry he (by simp)] at hv
  simp only [List.getElem?_cons_zero, Option.bind_eq_bind, Option.bind_some, Option.bind_eq_some_iff,
    Option.some.injEq] at hv
  obtain ⟨_, _, ip, hip, ⟨st1, l⟩, hl, _, _, rfl⟩ := hv
  have hps := poly_spec h hI hpr hip
  have hM1 : Mirror cfg st1 := by
    cases hn : t.isNeg with
    | false =>
      simp only [hn, Bool.false_eq_true, if_false] at hl
      exact hM.constraint hI (by unfold UPoly.negate; rw [map_fst_neg]; exact hps.nodup) hl
    | true =>
      simp only [hn, if_true] at hl
      exact hM.constraint hI hps.nodup hl
  exact hM1.congr rfl rfl rfl rfl

theorem visitEq_mirror (h : WF H s) (hI : IInv s st) (hM : Mirror cfg st) {t : Tm} (hk : s.kind t = .arithEq)
    (hv : visitEq cfg s st t = some st') : Mirror cfg st' := by
  obtain ⟨e, he, hek⟩ := entry_of_kind (s := s) (t := t) (by rw [hk]; decide)
  have hs := h.shape _ _ he
  rw [hk] at hek
  obtain ⟨k, ty, d⟩ := e
  simp only at hek
  subst hek
  obtain ⟨h0, p, h1, hpr, hpk⟩ := hs
  simp only at h0 h1
  subst h0 h1
  unfold visitEq at hv
  rw [args_of_entry he (by simp)] at hv
  simp only [List.getElem?_cons_zero, Option.bind_eq_bind, Option.bind_some, Option.bind_eq_some_iff,
    Option.some.injEq] at hv
  obtain ⟨ip, hip, ⟨st1, l⟩, hl, _, _, _, _, rfl⟩ := hv
  exact (hM.constraint hI (poly_spec h hI hpr hip).nodup hl).congr rfl rfl rfl rfl

theorem visitBinEq_mirror (h : WF H s) (hI : IInv s st) (hM : Mirror cfg st) {t : Tm}
    (hk : s.kind t = .arithBinEq) (hv : visitBinEq cfg s st t = some st') : Mirror cfg st' := by
  obtain ⟨e, he, hek⟩ := entry_of_kind (s := s) (t := t) (by rw [hk]; decide)
  have hs := h.shape _ _ he
  rw [hk] at hek
  obtain ⟨k, ty, d⟩ := e
  simp only at hek
  subst hek
  obtain ⟨h0, a, b, h1, har, hbr, hav, hbv, hab⟩ := hs
  simp only at h0 h1
  subst h0 h1
  unfold visitBinEq at hv
  rw [args_of_entry he (by simp)] at hv
  simp only [List.getElem?_cons_zero, List.getElem?_cons_succ, Option.bind_eq_bind, Option.bind_some,
    Option.bind_eq_some_iff, Option.some.injEq] at hv
  obtain ⟨_, _, _, _, ip, hip, ⟨st1, l⟩, hl, _, _, _, _, rfl⟩ := hv
  have key : (ip.terms.map (·.1)).Nodup := by
    unfold binEqPoly at hip
    split at hip
    · simp only [Option.map_eq_some_iff] at hip
      obtain ⟨v, hv, rfl⟩ := hip
      simp
    · simp only [Option.bind_eq_some_iff, Option.map_eq_some_iff] at hip
      obtain ⟨v, hv, w, hw, rfl⟩ := hip
      simp only [List.map_cons, List.map_nil, List.nodup_cons, List.mem_singleton, List.not_mem_nil,
        not_false_eq_true, List.nodup_nil, and_self, and_true]
      rintro rfl
      exact hab (ord_inj hI (mapFind_mem hv) (mapFind_mem hw))
  exact (hM.constraint hI key hl).congr rfl rfl rfl rfl

theorem visitApp_mirror (hM : Mirror cfg st) {t : Tm} (hv : visitApp cfg s st t = some st') :
    Mirror cfg st' := by
  unfold visitApp at hv
  split at hv
  · simp only [Option.bind_eq_bind, Option.bind_eq_some_iff, Option.some.injEq] at hv
    obtain ⟨_, _, rfl⟩ := hv
    exact hM.newRat.congr rfl rfl rfl rfl
  · simp only [Option.bind_eq_bind, Option.bind_eq_some_iff, Option.some.injEq] at hv
    obtain ⟨_, _, rfl⟩ := hv
    exact hM.newBool.congr rfl rfl rfl rfl
  · cases hv

theorem visitConst_mirror (hM : Mirror cfg st) {t : Tm} (hv : visitConst cfg s st t = some st') :
    Mirror cfg st' := by
  unfold visitConst at hv
  split at hv
  · simp only [Option.bind_eq_bind, Option.bind_eq_some_iff, Option.some.injEq] at hv
    obtain ⟨_, _, rfl⟩ := hv
    exact hM.newBool.congr rfl rfl rfl rfl
  · simp only [Option.bind_eq_bind, Option.bind_eq_some_iff, Option.some.injEq] at hv
    obtain ⟨_, _, rfl⟩ := hv
    exact hM.newRat.congr rfl rfl rfl rfl
  · cases hv; exact hM

theorem visitOr_mirror (hM : Mirror cfg st) {t : Tm} (hv : visitOr cfg s st t = some st') :
    Mirror cfg st' := by
  unfold visitOr at hv
  simp only [Option.bind_eq_bind, Option.bind_eq_some_iff, Option.some.injEq] at hv
  obtain ⟨_, _, _, _, _, _, ls, hls, hv⟩ := hv
  rw [foldl_assert] at hv
  have h1 : Mirror cfg { (newBool st).1 with
      boolVars := mapInsert (newBool st).1.boolVars t.pos (Lit.pos (newBool st).2) } :=
    hM.newBool.congr rfl rfl rfl rfl
  have h2 := h1.clauses (cs := ls.map fun l => [Lit.pos (newBool st).2, l.neg]) (by
    intro c hc
    obtain ⟨l, _, rfl⟩ := List.mem_map.1 hc
    simp)
  have h3 := h2.clauses (cs := [ls ++ [(Lit.pos (newBool st).2).neg]]) (by simp)
  rw [← hv]
  exact h3

theorem visitIte_mirror (h : WF H s) (hI : IInv s st) (hM : Mirror cfg st) {t : Tm} (hk : s.kind t = .ite)
    (htn : t.isNeg = true → IsBool s t) (hv : visitIte cfg s st t = some st') : Mirror cfg st' := by
  obtain ⟨e, he, hek⟩ := entry_of_kind (s := s) (t := t) (by rw [hk]; decide)
  have hs := h.shape _ _ he
  rw [hk] at hek
  obtain ⟨k, ty, d⟩ := e
  simp only at hek
  subst hek
  obtain ⟨h0, c, a, b, h1, hc, har, hbr⟩ := hs
  simp only at h0 h1
  subst h0 h1
  have hty : s.type t = .real := type_of_entry he
  have hn : t.isNeg = false := by
    cases hn : t.isNeg with
    | false => rfl
    | true => have := htn hn; unfold IsBool at this; rw [hty] at this; cases this
  have htr : IsReal s t := ⟨hty, hn⟩
  have hbelow := h.below _ _ he
  unfold visitIte at hv
  rw [args_of_entry he (by simp), if_pos hty] at hv
  simp only [List.getElem?_cons_zero, List.getElem?_cons_succ, Option.bind_eq_bind, Option.bind_some,
    Option.bind_eq_some_iff, Option.some.injEq] at hv
  obtain ⟨_, _, _, _, tp, htp, fp, hfp, ⟨st1, lt⟩, hlt, ⟨st2, lf⟩, hlf, _, _, l, hl, hv⟩ := hv
  have hiA := iinv_insert_rat hI htr (.inr (.inl hk)) st.apps
  have hnum : (newRat st).2 = st.numRat := rfl
  have hMA : Mirror cfg { (newRat st).1 with ratVars := mapInsert (newRat st).1.ratVars t (newRat st).2 } :=
    hM.newRat.congr rfl rfl rfl rfl
  generalize hA : ({ (newRat st).1 with ratVars := mapInsert (newRat st).1.ratVars t (newRat st).2 } : IState) = stA at *
  have hiA : IInv s stA := by rw [← hA]; exact hiA
  have hAr : stA.ratVars = mapInsert st.ratVars t st.numRat := by rw [← hA]; rfl
  rw [hnum] at hlt hlf
  have branch : ∀ {x : Tm} {p : UPoly}, IsReal s x → x.index < t.index → poly s stA x = some p →
      ((p.subtractVar st.numRat).terms.map (·.1)).Nodup := by
    intro x p hx hxi hp
    have hps := poly_spec h hiA hx hp
    unfold UPoly.subtractVar
    rw [List.map_append]
    refine List.nodup_append.mpr ⟨hps.nodup, by simp, ?_⟩
    intro u hu w hw
    simp only [List.map_cons, List.map_nil, List.mem_singleton] at hw
    obtain ⟨q, hq, rfl⟩ := List.mem_map.mp hu
    obtain ⟨y, h2, h3⟩ := hps.vars q hq
    rw [hw]
    rw [hAr] at h3
    rcases mem_mapInsert h3 with h3 | h3
    · exact Nat.ne_of_lt (hI.rat _ h3).2.2
    · rw [(Prod.mk.inj h3).1] at h2
      omega
  have tn := branch har (hbelow a (by simp [argsOf])) htp
  have fn := branch hbr (hbelow b (by simp [argsOf])) hfp
  have hL1 := linearConstraint_spec hiA tn hlt
  have hM2 := (hMA.constraint hiA tn hlt).constraint hL1.inv fn hlf
  subst hv
  exact (hM2.clauses (cs := [[l, lf]]) (by simp)).clauses (cs := [[l.neg, lt]]) (by simp)

theorem visit_mirror (h : WF H s) (hI : IInv s st) (hM : Mirror cfg st) {t : Tm} (ht : Typed s t)
    (hv : visit cfg s st t = some st') : Mirror cfg st' := by
  unfold visit at hv
  split at hv
  · rename_i hk; exact visitGe_mirror h hI hM hk hv
  · rename_i hk; exact visitEq_mirror h hI hM hk hv
  · rename_i hk; exact visitBinEq_mirror h hI hM hk hv
  · exact visitApp_mirror hM hv
  · exact visitConst_mirror hM hv
  · exact visitOr_mirror hM hv
  · rename_i hk; exact visitIte_mirror h hI hM hk (fun hn => ht.neg hn) hv
  · split at hv
    · cases hv
    · cases hv; exact hM
  · cases hv; exact hM
  · cases hv; exact hM
  · cases hv; exact hM
  · cases hv

theorem loop_mirror (h : WF H s) : ∀ (n : Nat) (stk : List (Tm × Nat)) (st : IState), IInv s st →
    Mirror cfg st → (∀ e ∈ stk, Typed s e.1) → ∀ {st' : IState}, loop cfg s n stk st = some st' →
    Mirror cfg st' := by
  intro n
  induction n with
  | zero =>
    intro stk st hI hM _ st' hl
    cases stk with
    | nil => simp only [loop, Option.some.injEq] at hl; subst hl; exact hM
    | cons e stk => cases hl
  | succ n ih =>
    intro stk st hI hM ht st' hl
    cases stk with
    | nil => simp only [loop, Option.some.injEq] at hl; subst hl; exact hM
    | cons e stk =>
      obtain ⟨t, k⟩ := e
      have htt : Typed s t := ht (t, k) (by simp)
      have hts : ∀ e ∈ stk, Typed s e.1 := fun e he => ht e (by simp [he])
      rw [loop] at hl
      split at hl
      · rename_i c hc
        have hcm : c ∈ s.args t := List.mem_of_getElem? hc
        split at hl
        · exact ih _ _ hI hM (by
            intro e he
            rcases List.mem_cons.1 he with rfl | he
            · exact htt
            · exact hts e he) hl
        · exact ih _ _ hI hM (by
            intro e he
            rcases List.mem_cons.1 he with rfl | he
            · exact args_typed h c hcm
            · rcases List.mem_cons.1 he with rfl | he
              · exact htt
              · exact hts e he) hl
      · simp only [Option.bind_eq_bind, Option.bind_eq_some_iff] at hl
        obtain ⟨_, _, st1, hv, hl⟩ := hl
        have hS := (visit_step h hI htt hv).inv
        have hM1 := visit_mirror h hI hM htt hv
        refine ih stk { st1 with processed := st1.processed ++ [t.index] } ?_ (hM1.congr rfl rfl rfl rfl) hts hl
        exact ⟨hS.store, hS.num, hS.nonempty, hS.cvars, hS.clauses, hS.ratOrds, hS.rat, hS.bool⟩

theorem roots_mirror (h : WF H s) : ∀ (ts : List Tm) (st : IState), IInv s st → Mirror cfg st →
    (∀ t ∈ ts, Typed s t) → ∀ {st' : IState}, roots cfg s ts st = some st' → Mirror cfg st' := by
  intro ts
  induction ts with
  | nil => intro st hI hM _ st' hr; simp only [roots, Option.some.injEq] at hr; subst hr; exact hM
  | cons t ts ih =>
    intro st hI hM ht st' hr
    rw [roots] at hr
    have htt := ht t (by simp)
    have hts : ∀ t ∈ ts, Typed s t := fun x hx => ht x (by simp [hx])
    split at hr
    · exact ih st hI hM hts hr
    · simp only [Option.bind_eq_some_iff] at hr
      obtain ⟨st1, h1, h2⟩ := hr
      have hty : ∀ e ∈ [(t, 0)], Typed s e.1 := by
        intro e he; rw [List.mem_singleton.1 he]; exact htt
      exact ih st1 (loop_step h _ _ _ hI hty h1).inv (loop_mirror h _ _ _ hI hM hty h1) hts h2

theorem mirror_init (cfg : ICfg) : Mirror cfg IState.init :=
  ⟨⟨LA.init, [], .init, rfl, rfl, rfl⟩, by intro c hc; cases hc⟩

/-- The state after the first conversion. -/
theorem check_mirror (hs : TReach H s) {as : List Tm} (hb : ∀ a ∈ as, IsBool s a)
    (hc : check cfg s IState.init as = some (some st)) : Mirror cfg st ∧ IInv s st := by
  rcases check_cases hc with ⟨h1, _⟩ | ⟨_, st1, st2, h1, h2, h3⟩
  · cases h1
  cases h3
  have hty : ∀ t ∈ as, Typed s t := fun t ht => .inl (hb t ht)
  have hM := roots_mirror hs.wf as _ (iinv_init s) (mirror_init cfg) hty h1
  have hI := (roots_step hs.wf as _ (iinv_init s) hty h1).inv
  obtain ⟨cs, h4, _, h5⟩ := units_spec as h2
  rw [h4]
  refine ⟨hM.clauses ?_, iinv_clauses hI ?_⟩
  · intro c hc'
    obtain ⟨a, _, _, l, _, rfl⟩ := h5 c hc'
    simp
  · intro c hc' x hx
    obtain ⟨a, _, _, l, ⟨l0, hl0, hl⟩, rfl⟩ := h5 c hc'
    rw [List.mem_singleton.1 hx, hl, signed_ord]
    exact (hI.bool _ hl0).2

/-! ### Models -/

namespace Qf

/-- The first state of `check`. -/
def first {O : Type} (la : LA Nat) (A : List Clause) (o : O) : QC O :=
  ⟨⟨{ BS.new with cls := A, na := A.length, t := la.trail }, la⟩, 0, o⟩

theorem start_first {O : Type} {hv : Nat → Nat} {hc : ℚ → Nat} {la : LA Nat} {P : List QAtom} (h : Built hv hc la P)
    {A : List Clause} (hne : ∀ c ∈ A, c ≠ []) (hord : ∀ c ∈ A, ∀ l ∈ c, l.ord < la.trail.bools.num) (o : O) :
    Start hv hc A P (first la A o) := by
  have hm : ∀ r < A.length, A.getD r [] ∈ A := by
    intro r hr
    rw [List.getD_eq_getElem?_getD, List.getElem?_eq_getElem hr]
    exact List.getElem_mem hr
  refine ⟨h, rfl, rfl, rfl, rfl, by simp [first, BS.new], ⟨?_, ?_⟩⟩
  · intro r hr
    have := hne _ (hm r hr)
    simpa [first, BS.clause] using this
  · intro r hr l hl
    exact hord _ (hm r hr) l hl

/-- The models of the state of the internalizer are those of the problem the solver gets. -/
theorem models_iff {hv : Nat → Nat} {hc : ℚ → Nat} {la : LA Nat} {P : List QAtom} (hb : Built hv hc la P)
    (hI : IInv s st) (hst : la.store = st.store) (m : Assignment) (r : Nat → ℚ) :
    Models st m r ↔ QfModel st.clauses P m r := by
  obtain ⟨_, _, hS⟩ := built_spec (op := ⟨false, false, false⟩) hb
  rw [hst] at hS
  constructor
  · rintro ⟨h1, h2⟩
    refine ⟨h1, fun a ha => ?_⟩
    obtain ⟨⟨e, he, ho⟩, hm⟩ := hS.atom a ha
    rw [← hm r]
    refine litTrue_of_models hI.store ⟨h1, h2⟩ ?_
    obtain ⟨k, hk1, hk2⟩ := hI.store.idx e he
    have : st.store.get a.lit.ord = e := by
      rw [← ho, hk1, LinStore.Lit.pos_ord]
      unfold LinStore.get; rw [hk2]; rfl
    rw [this]
    exact hI.nonempty e he
  · rintro ⟨h1, h2⟩
    refine ⟨h1, fun k hk => ?_⟩
    obtain ⟨g1, g2, g3⟩ := get_mem_of_terms hI.store hk
    have := stored_model hI.store hS h2 _ g1
    rw [g2, litTrue_pos] at this
    exact this

end Qf

end Yaga
