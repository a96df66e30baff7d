/-
The internalizer: the traversal of the terms and the assertions.
-/
import Verif.Proofs.InternVisit

set_option linter.unusedSectionVars false
set_option linter.unusedVariables false
set_option linter.unusedSimpArgs false

namespace Yaga

open Spec TermTable Internalizer

variable {H : TermHash} {s : TermTable} {st st' : IState}

/-- A Boolean or real term. -/
def Typed (s : TermTable) (t : Tm) : Prop := IsBool s t ∨ IsReal s t

theorem Typed.neg {t : Tm} (h : Typed s t) (hn : t.isNeg = true) : IsBool s t := by
  rcases h with h | h
  · exact h
  · rw [h.2] at hn; cases hn

theorem args_typed (h : WF H s) {t : Tm} : ∀ a ∈ s.args t, Typed s a := by
  intro a ha
  cases he : s.entry t with
  | none =>
    unfold TermTable.args TermTable.allArgs TermTable.descr at ha
    rw [he] at ha
    simp at ha
  | some e =>
    have hs := h.shape _ _ he
    obtain ⟨k, ty, d⟩ := e
    cases d with
    | none => simp [TermTable.args, TermTable.allArgs, descr_of_entry he] at ha
    | rat q => simp [TermTable.args, TermTable.allArgs, descr_of_entry he] at ha
    | const q => simp [TermTable.args, TermTable.allArgs, descr_of_entry he] at ha
    | comp as =>
      have hall : s.allArgs t = as := by unfold TermTable.allArgs; rw [descr_of_entry he]
      by_cases hk : k = .app
      · subst hk
        unfold TermTable.args at ha
        rw [kind_of_entry he, if_pos rfl, hall] at ha
        obtain ⟨h0, f, bs, h1, h2, h3⟩ := hs
        simp only [Descr.comp.injEq] at h1
        subst h1
        exact h3 a ha
      · rw [args_of_entry he hk] at ha
        cases k <;> simp only [Shape] at hs
        case reserved => exact absurd hs.2 (by simp)
        case constant => exact absurd hs.2 (by simp)
        case arithConst => obtain ⟨_, q, h1⟩ := hs; cases h1
        case uninterpreted => exact absurd hs.2 (by simp)
        case ite =>
          obtain ⟨_, c, x, y, h1, h2, h3, h4⟩ := hs
          cases h1
          simp only [List.mem_cons, List.not_mem_nil, or_false] at ha
          rcases ha with rfl | rfl | rfl
          · exact .inl h2.1
          · exact .inr h3
          · exact .inr h4
        case app => exact absurd rfl hk
        case or => obtain ⟨_, bs, h1, _, h3⟩ := hs; cases h1; exact .inl (h3 a ha)
        case arithEq =>
          obtain ⟨_, x, h1, h2, _⟩ := hs
          cases h1; rw [List.mem_singleton.mp ha]; exact .inr h2
        case arithGe =>
          obtain ⟨_, x, h1, h2, _⟩ := hs
          cases h1; rw [List.mem_singleton.mp ha]; exact .inr h2
        case arithBinEq =>
          obtain ⟨_, x, y, h1, h2, h3, _⟩ := hs
          cases h1
          simp only [List.mem_cons, List.not_mem_nil, or_false] at ha
          rcases ha with rfl | rfl
          · exact .inr h2
          · exact .inr h3
        case product =>
          obtain ⟨_, c, x, q, h1, h2, h3, _, h4, _⟩ := hs
          cases h1
          simp only [List.mem_cons, List.not_mem_nil, or_false] at ha
          rcases ha with rfl | rfl
          · exact .inr ⟨type_of_entry h3, h2⟩
          · exact .inr h4
        case poly =>
          obtain ⟨_, bs, p, h1, _, _, h2⟩ := hs
          cases h1
          exact .inr (forall₂_right h2 (fun _ _ => MonoTerm.real) a ha)

theorem args_below (h : WF H s) {t : Tm} : ∀ a ∈ s.args t, a.index < t.index := by
  intro a ha
  cases he : s.entry t with
  | none =>
    unfold TermTable.args TermTable.allArgs TermTable.descr at ha
    rw [he] at ha
    simp at ha
  | some e =>
    apply h.below _ _ he
    have : a ∈ s.allArgs t := by
      unfold TermTable.args at ha
      split at ha
      · exact List.mem_of_mem_drop ha
      · exact ha
    unfold TermTable.allArgs at this
    rw [descr_of_entry he] at this
    unfold argsOf
    exact this

theorem visit_step (h : WF H s) (hI : IInv s st) {cfg : ICfg} {t : Tm} (ht : Typed s t)
    (hv : visit cfg s st t = some st') : Step s st st' := by
  unfold visit at hv
  cases hk : s.kind t <;> rw [hk] at hv <;> simp only at hv
  case reserved => cases hv
  case constant =>
    split at hv
    · cases hv
    · cases hv; exact Step.refl hI
  case arithConst => cases hv; exact Step.refl hI
  case uninterpreted => exact visitConst_step hI hk ht.neg hv
  case ite => exact visitIte_step h hI hk ht.neg hv
  case app => exact visitApp_step hI hk ht.neg hv
  case or => exact visitOr_step h hI hk hv
  case arithEq => exact visitEq_step h hI hk hv
  case arithGe => exact visitGe_step h hI hk hv
  case arithBinEq => exact visitBinEq_step h hI hk hv
  case product => cases hv; exact Step.refl hI
  case poly => cases hv; exact Step.refl hI

theorem loop_step (h : WF H s) {cfg : ICfg} : ∀ (n : Nat) (stk : List (Tm × Nat)) (st : IState), IInv s st →
    (∀ e ∈ stk, Typed s e.1) → ∀ {st' : IState}, loop cfg s n stk st = some st' → Step s st st' := by
  intro n
  induction n with
  | zero =>
    intro stk st hI ht st' hl
    cases stk with
    | nil => simp only [loop, Option.some.injEq] at hl; rw [← hl]; exact Step.refl hI
    | cons e stk => simp [loop] at hl
  | succ n ih =>
    intro stk st hI ht st' hl
    cases stk with
    | nil => simp only [loop, Option.some.injEq] at hl; rw [← hl]; exact Step.refl hI
    | cons e stk =>
      obtain ⟨t, k⟩ := e
      have htt := ht (t, k) (by simp)
      have hts : ∀ e ∈ stk, Typed s e.1 := fun e he => ht e (by simp [he])
      rw [loop] at hl
      cases hc : (s.args t)[k]? with
      | some c =>
        rw [hc] at hl
        simp only at hl
        have hct := args_typed h c (List.mem_of_getElem? hc)
        split at hl
        · refine ih _ st hI ?_ hl
          intro e he
          rcases List.mem_cons.mp he with rfl | he
          · exact htt
          · exact hts e he
        · refine ih _ st hI ?_ hl
          intro e he
          rcases List.mem_cons.mp he with rfl | he
          · exact hct
          · rcases List.mem_cons.mp he with rfl | he
            · exact htt
            · exact hts e he
      | none =>
        rw [hc] at hl
        simp only [Option.bind_eq_bind, Option.bind_eq_some_iff] at hl
        obtain ⟨_, _, st1, hv, hl⟩ := hl
        have h1 := visit_step h hI htt hv
        have h2 := Step.processed h1.inv (st1.processed ++ [t.index])
        exact (h1.trans h2).trans (ih _ _ h2.inv hts hl)

theorem roots_step (h : WF H s) {cfg : ICfg} : ∀ (ts : List Tm) (st : IState), IInv s st →
    (∀ t ∈ ts, Typed s t) → ∀ {st' : IState}, roots cfg s ts st = some st' → Step s st st' := by
  intro ts
  induction ts with
  | nil => intro st hI _ st' hr; simp only [roots, Option.some.injEq] at hr; rw [← hr]; exact Step.refl hI
  | cons t ts ih =>
    intro st hI ht st' hr
    rw [roots] at hr
    split at hr
    · exact ih st hI (fun t' ht' => ht t' (by simp [ht'])) hr
    · simp only [Option.bind_eq_some_iff] at hr
      obtain ⟨st1, hl, hr⟩ := hr
      have h1 := loop_step h _ _ st hI (by simpa using ht t (by simp)) hl
      exact h1.trans (ih st1 h1.inv (fun t' ht' => ht t' (by simp [ht'])) hr)

/-- The clauses for the assertions. -/
theorem units_spec : ∀ (as : List Tm) {st st' : IState}, units as st = some st' →
    ∃ cs, st' = { st with clauses := st.clauses ++ cs } ∧
      (∀ a ∈ as, a ≠ Tm.tt → ∃ l, ArgLit st a l ∧ [l] ∈ cs) ∧
      (∀ c ∈ cs, ∃ a ∈ as, a ≠ Tm.tt ∧ ∃ l, ArgLit st a l ∧ c = [l]) := by
  intro as
  induction as with
  | nil =>
    intro st st' h
    simp only [units, Option.some.injEq] at h
    exact ⟨[], by rw [← h]; simp, by simp, by simp⟩
  | cons a as ih =>
    intro st st' h
    rw [units] at h
    split at h
    · rename_i ha
      obtain ⟨cs, h1, h2, h3⟩ := ih h
      refine ⟨cs, h1, ?_, ?_⟩
      · intro b hb hne
        rcases List.mem_cons.mp hb with rfl | hb
        · exact absurd ha hne
        · exact h2 b hb hne
      · intro c hc
        obtain ⟨b, hb, h4⟩ := h3 c hc
        exact ⟨b, by simp [hb], h4⟩
    · rename_i ha
      cases hm : mapFind st.boolVars a.pos with
      | none => rw [hm] at h; cases h
      | some l =>
        rw [hm] at h
        obtain ⟨cs, h1, h2, h3⟩ := ih h
        have hl : ArgLit st a (if a.isNeg then l.neg else l) := ⟨l, mapFind_mem hm, rfl⟩
        refine ⟨[if a.isNeg then l.neg else l] :: cs, by rw [h1]; simp [assertClause], ?_, ?_⟩
        · intro b hb hne
          rcases List.mem_cons.mp hb with rfl | hb
          · exact ⟨_, hl, by simp⟩
          · obtain ⟨l', h4, h5⟩ := h2 b hb hne
            exact ⟨l', h4, by simp [h5]⟩
        · intro c hc
          rcases List.mem_cons.mp hc with rfl | hc
          · exact ⟨a, by simp, ha, _, hl, rfl⟩
          · obtain ⟨b, hb, h4⟩ := h3 c hc
            exact ⟨b, by simp [hb], h4⟩

theorem clauseTrue_unit {m : Assignment} {l : Lit} : clauseTrue m [l] ↔ litTrue m l := by
  unfold clauseTrue; simp

/-- What `check` does to the state after the old clauses have been removed. -/
theorem check_cases {cfg : ICfg} {as : List Tm} {r : Option IState} (h : check cfg s st as = some r) :
    (r = none ∧ Tm.ff ∈ as) ∨
    (Tm.ff ∉ as ∧ ∃ st1 st2, roots cfg s as { st with clauses := [] } = some st1 ∧ units as st1 = some st2 ∧
      r = some st2) := by
  unfold check at h
  split at h
  · rename_i hf
    left
    simp only [Option.some.injEq] at h
    refine ⟨h.symm, ?_⟩
    obtain ⟨t, h1, h2⟩ := List.any_eq_true.mp hf
    simp only [decide_eq_true_eq] at h2
    rw [← h2]; exact h1
  · rename_i hf
    right
    simp only [Option.map_eq_some_iff, Option.bind_eq_some_iff] at h
    obtain ⟨st2, ⟨st1, h1, h2⟩, h3⟩ := h
    refine ⟨?_, st1, st2, h1, h2, h3.symm⟩
    intro hm
    exact hf (List.any_eq_true.mpr ⟨_, hm, by simp⟩)

theorem agree_of_all {I : Interp} {m : Assignment} {r : Nat → ℚ} (h : AgreeAll I s st m r) :
    Agree I s st m r :=
  ⟨fun p hp => h.rat p (List.mem_filter.mp hp).1, fun p hp => h.bool p (List.mem_filter.mp hp).1⟩

/-- The assertions are true in models of the clauses. -/
theorem units_sound (h : WF H s) {as : List Tm} (hb : ∀ a ∈ as, IsBool s a)
    {st1 st2 : IState} (hu : units as st1 = some st2) {I : Interp} {m : Assignment} {r : Nat → ℚ}
    (hm : Models st2 m r) (ha : AgreeAll I s st1 m r) : Holds I s as := by
  obtain ⟨cs, h1, h2, _⟩ := units_spec as hu
  intro a hmem
  by_cases hne : a = Tm.tt
  · rw [hne]; exact h.denB_tt
  · obtain ⟨l, h3, h4⟩ := h2 a hmem hne
    have := hm.1 [l] (by rw [h1]; exact List.mem_append_right _ h4)
    exact (argLit_true h (hb a hmem) h3 ha).mp (clauseTrue_unit.mp this)

theorem units_compl (h : WF H s) {as : List Tm} (hb : ∀ a ∈ as, IsBool s a)
    {st1 st2 : IState} (hu : units as st1 = some st2) {I : Interp} {m : Assignment} {r : Nat → ℚ}
    (hm : Models st1 m r) (ha : AgreeAll I s st1 m r) (hh : Holds I s as) :
    Models st2 m r ∧ AgreeAll I s st2 m r := by
  obtain ⟨cs, h1, _, h3⟩ := units_spec as hu
  subst h1
  refine ⟨⟨fun c hc => ?_, hm.2⟩, ha.rat, ha.bool⟩
  rcases List.mem_append.mp hc with hc | hc
  · exact hm.1 c hc
  · obtain ⟨a, h4, _, l, h5, rfl⟩ := h3 c hc
    exact clauseTrue_unit.mpr ((argLit_true h (hb a h4) h5 ha).mpr (hh a h4))

end Yaga
