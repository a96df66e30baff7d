/-
Scripts with several `check-sat` commands.
-/
import Verif.Proofs.InternKeys
import Verif.Model.Script

set_option linter.unusedSectionVars false
set_option linter.unusedVariables false
set_option linter.unusedSimpArgs false

namespace Yaga

open Spec TermTable Internalizer

variable {H : TermHash} {s s' : TermTable} {st st' : IState} {cfg : ICfg}

theorem IInv.ext (he : Ext s s') (h : IInv s st) : IInv s' st :=
  ⟨h.store, h.num, h.nonempty, h.cvars, h.clauses, h.ratOrds,
    fun p hp => ⟨(h.rat p hp).1.ext he, (h.rat p hp).2.1.ext he, (h.rat p hp).2.2⟩,
    fun p hp => ⟨(h.bool p hp).1.ext he, (h.bool p hp).2⟩⟩

theorem AgreeAll.ext (he : Ext s s') (hI : IInv s st) {I : Interp} {m : Assignment} {r : Nat → ℚ} :
    AgreeAll I s' st m r ↔ AgreeAll I s st m r := by
  have e1 : ∀ p ∈ st.ratVars, denQ I s' p.1 = denQ I s p.1 := by
    intro p hp; unfold denQ; rw [den_ext he (hI.rat p hp).1.index_lt]
  have e2 : ∀ p ∈ st.boolVars, denB I s' p.1 = denB I s p.1 := by
    intro p hp; unfold denB; rw [den_ext he (hI.bool p hp).1.index_lt]
  constructor
  · intro h
    exact ⟨fun p hp => by rw [← e1 p hp]; exact h.rat p hp, fun p hp => by rw [← e2 p hp]; exact h.bool p hp⟩
  · intro h
    exact ⟨fun p hp => by rw [e1 p hp]; exact h.rat p hp, fun p hp => by rw [e2 p hp]; exact h.bool p hp⟩

theorem Agree.ext (he : Ext s s') (hI : IInv s st) {I : Interp} {m : Assignment} {r : Nat → ℚ}
    (h : Agree I s' st m r) : Agree I s st m r := by
  constructor
  · intro p hp
    obtain ⟨h1, h2⟩ := List.mem_filter.mp hp
    have hl := (hI.rat p h1).1.index_lt
    rw [show denQ I s p.1 = denQ I s' p.1 by unfold denQ; rw [den_ext he hl]]
    exact h.1 p (List.mem_filter.mpr ⟨h1, by rw [kind_ext he hl]; exact h2⟩)
  · intro p hp
    obtain ⟨h1, h2⟩ := List.mem_filter.mp hp
    have hl := (hI.bool p h1).1.index_lt
    rw [show denB I s p.1 = denB I s' p.1 by unfold denB; rw [den_ext he hl]]
    exact h.2 p (List.mem_filter.mpr ⟨h1, by rw [kind_ext he hl]; exact h2⟩)

/-- No disjunction or conditional term has been converted. -/
def NoDef (s : TermTable) (st : IState) : Prop :=
  (∀ p ∈ st.ratVars, s.kind p.1 ≠ .ite) ∧ (∀ p ∈ st.boolVars, s.kind p.1 ≠ .or)

theorem NoDef.sub (h : NoDef s st') (hr : ∀ p ∈ st.ratVars, p ∈ st'.ratVars)
    (hb : ∀ p ∈ st.boolVars, p ∈ st'.boolVars) : NoDef s st :=
  ⟨fun p hp => h.1 p (hr p hp), fun p hp => h.2 p (hb p hp)⟩

theorem linearConstraint_clauses {ts : List (Nat × ℚ)} {p : Pred} {q : ℚ} {r : IState × Lit}
    (h : linearConstraint cfg st ts p q = some r) : r.1.clauses = st.clauses := by
  unfold linearConstraint at h
  split at h
  · cases h
  · simp only at h
    split at h
    · split at h
      · cases h
      · cases h; rfl
    · cases h; rfl

theorem visit_clauses (h : WF H s) {t : Tm} (hty : Typed s t) (hv : visit cfg s st t = some st')
    (hn : NoDef s st') : st'.clauses = st.clauses := by
  unfold visit at hv
  cases hk : s.kind t <;> rw [hk] at hv <;> simp only at hv
  case reserved => cases hv
  case constant =>
    split at hv
    · cases hv
    · cases hv; rfl
  case arithConst => cases hv; rfl
  case product => cases hv; rfl
  case poly => cases hv; rfl
  case uninterpreted =>
    unfold visitConst at hv
    cases hty : s.type t <;> rw [hty] at hv <;> simp only at hv
    · cases hv; rfl
    · simp only [Option.bind_eq_bind, Option.bind_eq_some_iff, Option.some.injEq] at hv
      obtain ⟨_, _, rfl⟩ := hv
      rfl
    · simp only [Option.bind_eq_bind, Option.bind_eq_some_iff, Option.some.injEq] at hv
      obtain ⟨_, _, rfl⟩ := hv
      rfl
  case app =>
    unfold visitApp at hv
    cases hty : s.type t <;> rw [hty] at hv <;> simp only at hv
    · cases hv
    · simp only [Option.bind_eq_bind, Option.bind_eq_some_iff, Option.some.injEq] at hv
      obtain ⟨_, _, rfl⟩ := hv
      rfl
    · simp only [Option.bind_eq_bind, Option.bind_eq_some_iff, Option.some.injEq] at hv
      obtain ⟨_, _, rfl⟩ := hv
      rfl
  case or =>
    exfalso
    unfold visitOr at hv
    simp only [Option.bind_eq_bind, Option.bind_eq_some_iff, Option.some.injEq] at hv
    obtain ⟨_, _, _, _, _, _, ls, _, rfl⟩ := hv
    rw [foldl_assert] at hn
    obtain ⟨w, hw⟩ := mapInsert_has (newBool st).1.boolVars t.pos (Lit.pos (newBool st).2)
    exact hn.2 _ hw (by rw [kind_pos]; exact hk)
  case ite =>
    exfalso
    obtain ⟨e, he, hek⟩ := entry_of_kind (s := s) (t := t) (by rw [hk]; decide)
    have hs := h.shape _ _ he
    rw [hk] at hek
    obtain ⟨k, ty, d⟩ := e
    simp only at hek
    subst hek
    unfold visitIte at hv
    rw [if_pos (by rw [type_of_entry he]; exact hs.1)] at hv
    simp only [Option.bind_eq_bind, Option.bind_eq_some_iff, Option.some.injEq] at hv
    obtain ⟨_, _, _, _, _, _, _, _, _, _, tp, _, fp, _, r1, hr1, r2, hr2, _, _, l, _, rfl⟩ := hv
    obtain ⟨a1, b1⟩ := linearConstraint_maps hr1
    obtain ⟨a2, b2⟩ := linearConstraint_maps hr2
    obtain ⟨w, hw⟩ := mapInsert_has (newRat st).1.ratVars t (newRat st).2
    exact hn.1 (t, w) (by show (t, w) ∈ r2.1.ratVars; rw [a2, a1]; exact hw) hk
  case arithGe =>
    unfold visitGe at hv
    simp only [Option.bind_eq_bind, Option.bind_eq_some_iff, Option.some.injEq] at hv
    obtain ⟨p, _, _, _, ip, _, r, hr, _, _, rfl⟩ := hv
    exact linearConstraint_clauses hr
  case arithEq =>
    unfold visitEq at hv
    simp only [Option.bind_eq_bind, Option.bind_eq_some_iff, Option.some.injEq] at hv
    obtain ⟨p, _, ip, _, r, hr, _, _, _, _, rfl⟩ := hv
    exact linearConstraint_clauses hr
  case arithBinEq =>
    unfold visitBinEq at hv
    simp only [Option.bind_eq_bind, Option.bind_eq_some_iff, Option.some.injEq] at hv
    obtain ⟨_, _, _, _, _, _, _, _, ip, _, r, hr, _, _, _, _, rfl⟩ := hv
    exact linearConstraint_clauses hr

theorem loop_clauses (h : WF H s) : ∀ (n : Nat) (stk : List (Tm × Nat)) (st : IState), IInv s st →
    (∀ e ∈ stk, Typed s e.1) → ∀ {st' : IState}, loop cfg s n stk st = some st' → NoDef s st' →
    st'.clauses = st.clauses := by
  intro n
  induction n with
  | zero =>
    intro stk st hI ht st' hl _
    cases stk with
    | nil => simp only [loop, Option.some.injEq] at hl; rw [← hl]
    | cons e stk => simp [loop] at hl
  | succ n ih =>
    intro stk st hI ht st' hl hn
    cases stk with
    | nil => simp only [loop, Option.some.injEq] at hl; rw [← hl]
    | cons e stk =>
      obtain ⟨t, k⟩ := e
      have htt := ht (t, k) (by simp)
      have hts : ∀ e ∈ stk, Typed s e.1 := fun e he => ht e (by simp [he])
      rw [loop] at hl
      cases hc : (s.args t)[k]? with
      | some c =>
        rw [hc] at hl
        simp only at hl
        have hct := args_typed h c (List.mem_of_getElem? hc)
        split at hl
        · refine ih _ st hI ?_ hl hn
          intro e he
          rcases List.mem_cons.mp he with rfl | he
          · exact htt
          · exact hts e he
        · refine ih _ st hI ?_ hl hn
          intro e he
          rcases List.mem_cons.mp he with rfl | he
          · exact hct
          · rcases List.mem_cons.mp he with rfl | he
            · exact htt
            · exact hts e he
      | none =>
        rw [hc] at hl
        simp only [Option.bind_eq_bind, Option.bind_eq_some_iff] at hl
        obtain ⟨_, _, st1, hv, hl⟩ := hl
        have h1 := visit_step h hI htt hv
        have h2 := Step.processed h1.inv (st1.processed ++ [t.index])
        have h3 := loop_step h _ _ _ h2.inv hts hl
        rw [ih _ _ h2.inv hts hl hn]
        exact visit_clauses (st' := st1) h htt hv (NoDef.sub (st' := st') hn h3.ratSub h3.boolSub)

theorem roots_clauses (h : WF H s) : ∀ (ts : List Tm) (st : IState), IInv s st →
    (∀ t ∈ ts, Typed s t) → ∀ {st' : IState}, roots cfg s ts st = some st' → NoDef s st' →
    st'.clauses = st.clauses := by
  intro ts
  induction ts with
  | nil => intro st hI _ st' hr _; simp only [roots, Option.some.injEq] at hr; rw [← hr]
  | cons t ts ih =>
    intro st hI ht st' hr hn
    rw [roots] at hr
    split at hr
    · exact ih st hI (fun t' ht' => ht t' (by simp [ht'])) hr hn
    · simp only [Option.bind_eq_some_iff] at hr
      obtain ⟨st1, hl, hr⟩ := hr
      have htt : ∀ e ∈ [(t, 0)], Typed s (e : Tm × Nat).1 := by simpa using ht t (by simp)
      have h1 := loop_step h _ _ st hI htt hl
      have hts : ∀ t' ∈ ts, Typed s t' := fun t' ht' => ht t' (by simp [ht'])
      have h2 := roots_step h ts st1 h1.inv hts hr
      rw [ih st1 h1.inv hts hr hn, loop_clauses h _ _ st hI htt hl (hn.sub h2.ratSub h2.boolSub)]

/-- What holds between the commands of a script. -/
structure ScriptInv (H : TermHash) (s : TermTable) (as : List Tm) (st : IState) : Prop where
  reach : TReach H s
  bool : ∀ a ∈ as, IsBool s a
  inv : IInv s { st with clauses := [] }
  sat : ∀ I, ∃ m r, Models { st with clauses := [] } m r ∧ AgreeAll I s { st with clauses := [] } m r
  sound : NoDef s st → ∀ I m r, Models { st with clauses := [] } m r → Agree I s st m r →
    AgreeAll I s { st with clauses := [] } m r

theorem iinv_clear (h : IInv s st) : IInv s { st with clauses := [] } :=
  ⟨h.store, h.num, h.nonempty, h.cvars, (by intro c hc; cases hc), h.ratOrds, h.rat, h.bool⟩

theorem models_clear {m : Assignment} {r : Nat → ℚ} (h : Models st m r) : Models { st with clauses := [] } m r :=
  ⟨(by intro c hc; cases hc), h.2⟩

theorem NoDef.ext (he : Ext s s') (hI : IInv s { st with clauses := [] }) (h : NoDef s' st) : NoDef s st :=
  ⟨fun p hp => by rw [← kind_ext he (hI.rat p hp).1.index_lt]; exact h.1 p hp,
    fun p hp => by rw [← kind_ext he (hI.bool p hp).1.index_lt]; exact h.2 p hp⟩

theorem script_inv {as : List Tm} (h : Script H cfg s as st) : ScriptInv H s as st := by
  induction h with
  | init =>
    refine ⟨.init, by simp, iinv_init _, fun I => ⟨fun _ => false, fun _ => 0, ⟨?_, ?_⟩, ?_, ?_⟩, ?_⟩
    · intro c hc; cases hc
    · intro k hk; exact absurd (LinStore.terms_empty _) hk
    · simp [IState.init]
    · simp [IState.init]
    · intro _ I m r _ _; exact ⟨by simp [IState.init], by simp [IState.init]⟩
  | @term s as st op r _ hty hr ih =>
    have he : Ext s r.1 := (run_res ih.reach.wf hty hr).2.1
    refine ⟨.step ih.reach hty hr, fun a ha => (ih.bool a ha).ext he, ih.inv.ext he, fun I => ?_, ?_⟩
    · obtain ⟨m, q, h1, h2⟩ := ih.sat I
      exact ⟨m, q, h1, (AgreeAll.ext he ih.inv).mpr h2⟩
    · intro hn I m q hm ha
      exact (AgreeAll.ext he ih.inv).mpr (ih.sound (hn.ext he ih.inv) I m q hm
        (Agree.ext (st := { st with clauses := [] }) he ih.inv ha))
  | @assert s as st a _ hb ih =>
    refine ⟨ih.reach, fun x hx => ?_, ih.inv, ih.sat, ih.sound⟩
    rcases List.mem_append.mp hx with hx | hx
    · exact ih.bool x hx
    · rw [List.mem_singleton.mp hx]; exact hb
  | @check s as st st' _ hc ih =>
    rcases check_cases hc with ⟨h1, _⟩ | ⟨_, st1, st2, h1, h2, h3⟩
    · cases h1
    cases h3
    have hst := roots_step ih.reach.wf as _ ih.inv (fun t ht => .inl (ih.bool t ht)) h1
    obtain ⟨cs, h4, _, _⟩ := units_spec as h2
    have e : ({ st' with clauses := [] } : IState) = { st1 with clauses := [] } := by rw [h4]
    refine ⟨ih.reach, ih.bool, by rw [e]; exact iinv_clear hst.inv, fun I => ?_, ?_⟩
    · obtain ⟨m, r, h5, h6⟩ := ih.sat I
      obtain ⟨m', r', h7, h8⟩ := hst.compl I m r h5 h6
      rw [e]
      exact ⟨m', r', models_clear h7, h8.rat, h8.bool⟩
    · intro hn I m r hm ha
      have hn1 : NoDef s st1 := by rw [h4] at hn; exact hn
      have hcl := roots_clauses ih.reach.wf as _ ih.inv (fun t ht => .inl (ih.bool t ht)) h1 hn1
      have hm1 : Models st1 m r := by
        rw [e] at hm
        exact ⟨(by rw [hcl]; intro c hc; cases hc), hm.2⟩
      have ha1 : Agree I s st1 m r := by rw [h4] at ha; exact ha
      have hn0 : NoDef s st := NoDef.sub (st := { st with clauses := [] }) hn1 hst.ratSub hst.boolSub
      have h0 := ih.sound hn0 I m r (hst.back m r hm1)
        (agree_sub (st := { st with clauses := [] }) hst.ratSub hst.boolSub ha1)
      have := hst.sound I m r hm1 h0 ha1
      rw [e]
      exact ⟨this.rat, this.bool⟩

end Yaga
