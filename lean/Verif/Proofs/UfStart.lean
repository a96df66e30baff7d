/-
The plugin for uninterpreted functions: the state after the internalizer, and all states of a check.
-/
import Verif.Proofs.UfHistory
import Verif.Proofs.InternKeys
import Verif.Spec.UfModel

set_option linter.unusedSectionVars false
set_option linter.unusedVariables false
set_option linter.unusedSimpArgs false

namespace Yaga

open Spec TermTable Internalizer

variable {H : TermHash} {s : TermTable} {R : Type}

/-- The variables of a processed real term. -/
theorem atoms_processed (h : WF H s) {st : IState} (hP : PInv s st) {t : Tm} (ht : IsReal s t)
    (hp : t.index ∈ st.processed) : ∀ x ∈ atoms s t, x.index ∈ st.processed := by
  have mono : ∀ {y : Tm}, Mono s y → y.index ∈ st.processed → ∀ x ∈ monoAtoms s y, x.index ∈ st.processed := by
    intro y hy hyp x hx
    rcases hy with ⟨_, q, he⟩ | hy | ⟨_, c, z, q, he, hc, hce, hz, hzv⟩
    · rw [monoAtoms_const he] at hx; cases hx
    · rw [monoAtoms_var hy.2] at hx
      rw [List.mem_singleton.mp hx]; exact hyp
    · rw [monoAtoms_product he hce] at hx
      rw [List.mem_singleton.mp hx]
      exact closed' hP hyp (by rw [args_of_entry he (by simp)]; simp)
  intro x hx
  rcases mono_cases h ht with ⟨hm, hk⟩ | ⟨as, p, he, _, _, _, hm⟩
  · rw [atoms_mono hk] at hx
    exact mono hm hp x hx
  · rw [atoms_poly he] at hx
    obtain ⟨a, ha, hx⟩ := List.mem_flatMap.mp hx
    exact mono (hm a ha) (closed' hP hp (by rw [args_of_entry he (by simp)]; exact ha)) x hx

/-- The variables of a processed real term exist. -/
theorem atoms_ready (h : WF H s) {st : IState} (hP : PInv s st) {t : Tm} (ht : IsReal s t)
    (hp : t.index ∈ st.processed) : ∀ x ∈ atoms s t, ∃ v, mapFind st.ratVars x = some v := by
  intro x hx
  obtain ⟨h1, h2, _⟩ := atoms_spec h ht x hx
  exact var_ready hP (fun _ h => h) h1 h2 (atoms_processed h hP ht hp x hx)

namespace UF

/-- A processed application of a function on numbers. -/
theorem app_of_processed (h : WF H s) {st : IState} (hP : PInv s st) {t : Tm} (hk : s.kind t = .app) (hr : IsReal s t)
    (ha : ∀ a ∈ s.args t, IsReal s a) (hp : t.index ∈ st.processed) : App s st.ratVars t :=
  ⟨hr, hk, ha, var_ready hP (fun _ h => h) hr (.inr (.inr hk)) hp,
    fun a haa => atoms_ready h hP (ha a haa) (closed' hP hp haa)⟩

theorem watchFor_watched (h : WF H s) {st : IState} (hI : IInv s st) {t : Tm} {n : Nat} (hA : App s st.ratVars t)
    (hn : mapFind st.ratVars t = some n) :
    (watchFor s st (Var.rat n) t).watch = varsOf st (watched s t) := by
  unfold watchFor watched varsOf
  rw [List.flatMap_cons, hn, List.flatMap_assoc]
  simp only [Option.map_some, Option.toList_some, List.singleton_append, List.cons.injEq, true_and]
  refine List.flatMap_congr fun a ha => ?_
  rw [watch_real h hI (hA.args a ha) (by omega)]
  rfl

theorem start_trail (R : Type) (s : TermTable) (st : IState) :
    Trail.Inv (start R s st).trail ∧ (∀ v, (start R s st).trail.level v = none) ∧
    (start R s st).trail.levels = [[]] ∧ (start R s st).trail.bools.num = st.numBool ∧
    (start R s st).trail.rats.num = st.numRat := by
  have h0 := Trail.init_inv (R := R)
  have n0 : ∀ v : Var, (Trail.init : Trail R).level v = none := fun _ => rfl
  have r1 : ∀ (v : Var) l, v.type = .boolean → (Trail.init : Trail R).level v = some l → v.ord < st.numBool := by
    intro v l _ h; rw [n0] at h; cases h
  obtain ⟨a1, _, _, a4⟩ := Trail.level_resize Trail.init h0 .boolean st.numBool r1
  have h1 := Trail.resize_inv h0 .boolean st.numBool r1
  have r2 : ∀ (v : Var) l, v.type = .rational → ((Trail.init : Trail R).resize .boolean st.numBool).level v = some l →
      v.ord < st.numRat := by
    intro v l _ h; rw [a1, n0] at h; cases h
  obtain ⟨b1, _, _, b4⟩ := Trail.level_resize _ h1 .rational st.numRat r2
  refine ⟨Trail.resize_inv h1 .rational st.numRat r2, fun v => ?_, ?_, rfl, rfl⟩
  · show (((Trail.init : Trail R).resize .boolean st.numBool).resize .rational st.numRat).level v = none
    rw [b1, a1]; rfl
  · show (((Trail.init : Trail R).resize .boolean st.numBool).resize .rational st.numRat).levels = _
    rw [b4, a4]; rfl

theorem RealFns.args (h : WF H s) (hF : RealFns s) {t : Tm} (hk : s.kind t = .app) : ∀ a ∈ s.args t, IsReal s a := by
  intro a ha
  rcases args_typed h a ha with h1 | h1
  · have := (hF t hk).2 a ha
    rw [show s.type a = .bool from h1] at this
    cases this
  · exact h1

/-- Registered applications. -/
theorem registered (h : WF H s) (hF : RealFns s) {st : IState} (hP : PInv s st) (hK : Keys s st) :
    ∀ p ∈ st.apps, App s st.ratVars p.2 ∧ ∃ n, p.1 = Var.rat n ∧ mapFind st.ratVars p.2 = some n := by
  intro p hp
  obtain ⟨h1, h2, h3⟩ := hP.apps p hp
  rcases h3 with h3 | ⟨hr, n, h4, h5⟩
  · have := (hF _ h1).1
    rw [show s.type p.2 = .bool from h3] at this
    cases this
  · exact ⟨app_of_processed h hP h1 hr (RealFns.args h hF h1) h2, n, h4, mapFind_of_mem hK.rat h5⟩

theorem start_inv (h : WF H s) {st : IState} (hI : IInv s st) (hP : PInv s st) (hK : Keys s st)
    (hF : RealFns s) : Inv s st (start R s st) true := by
  obtain ⟨t1, t2, t3, t4, t5⟩ := start_trail R s st
  have hA := registered h hF hP hK
  refine ⟨⟨⟨hI.store, hI.num, hI.nonempty, hI.cvars, (by intro c hc; cases hc), hI.ratOrds, hI.rat, hI.bool⟩, rfl, rfl, t1,
    t4, t5, ?_, ?_⟩, ?_, ?_, ?_, ?_⟩
  · intro n l hl; rw [t2] at hl; cases hl
  · intro i xs a hi ha
    rw [t3] at hi
    rcases i with _ | i <;> simp at hi
    subst hi
    cases ha
  · intro e he; cases he
  · show (st.apps.map fun p => watchFor s st p.1 p.2).map (·.term) = _
    rw [List.map_map]; rfl
  · intro w hw
    obtain ⟨p, hp, rfl⟩ := List.mem_map.mp hw
    obtain ⟨h1, n, h2, h3⟩ := hA p hp
    refine ⟨h1, by unfold watchFor; simp, fun x => ?_⟩
    rw [h2, watchFor_watched h hI h1 h3]
    exact Iff.rfl
  · intro w hw x l hx hl
    rw [t2] at hl; cases hl

/-- All states of a check satisfy the invariant. -/
theorem reach_inv (h : WF H s) {cfg : ICfg} {st : IState} (h0 : Inv s st (start R s st) true) {u : UF R} {d : Bool}
    (hr : Reach cfg s st u d) : Inv s st u d := by
  induction hr with
  | start => exact h0
  | decide _ hp ih => exact ih.decide hp
  | assign _ hp ih => exact ih.assign hp
  | constraint _ hn hl ih =>
    obtain ⟨hB, hE, _⟩ := linear_spec ih.base hn hl
    exact ih.same hB hE.same
  | propagate _ hp ih =>
    obtain ⟨u', cs, h1, _, h2⟩ := propagate_spec h ih
    rw [h1] at hp
    cases hp
    exact h2
  | backtrack _ hl ih => exact ih.backtrack hl
  | restart _ ih => exact ih.restart

/-- What `check` leaves behind. -/
theorem check_facts (h : WF H s) {cfg : ICfg} (hS : Supported cfg s) {as : List Tm} (hb : ∀ a ∈ as, IsBool s a)
    (hap : ∀ a ∈ as, s.kind a = .app → a.isNeg = false) {st : IState}
    (hc : check cfg s IState.init as = some (some st)) : IInv s st ∧ PInv s st ∧ Keys s st := by
  rcases check_cases hc with ⟨h1, _⟩ | ⟨hff, st1, st2, h1, h2, h3⟩
  · cases h1
  cases h3
  obtain ⟨st', g1, g2, g3, _, _⟩ := roots_total h hS as _ (iinv_init s) (pinv_init s)
    fun t ht => ⟨.inl (hb t ht), fun hf => hff (by rw [← hf]; exact ht), hap t ht⟩
  have g1 : roots cfg s as { IState.init with clauses := [] } = some st' := g1
  rw [h1] at g1
  cases g1
  have hk := roots_keys as _ ⟨by simp [IState.init], by simp [IState.init], by simp [IState.init], by simp [IState.init]⟩ h1
  obtain ⟨cs, h4, _, h6⟩ := units_spec as h2
  subst h4
  refine ⟨⟨g2.store, g2.num, g2.nonempty, g2.cvars, ?_, g2.ratOrds, g2.rat, g2.bool⟩,
    ⟨g3.closed, g3.ratKey, g3.boolKey, g3.keyR, g3.keyB, g3.apps, g3.appKey⟩, ⟨hk.rat, hk.bool, hk.pos, hk.lit⟩⟩
  intro c hc l hl
  rcases List.mem_append.mp hc with hc | hc
  · exact g2.clauses c hc l hl
  · obtain ⟨a, _, _, l', ⟨l0, hm, rfl⟩, rfl⟩ := h6 c hc
    rw [List.mem_singleton.mp hl, signed_ord]
    exact (g2.bool _ hm).2

end UF
end Yaga
