/-
The plugin for uninterpreted functions: function tables when all variables are assigned.
-/
import Verif.Proofs.UfStart

set_option linter.unusedSectionVars false
set_option linter.unusedVariables false
set_option linter.unusedSimpArgs false

namespace Yaga

open Spec TermTable Internalizer

variable {H : TermHash} {s : TermTable} {R : Type}

namespace UF

/-- The table has the value of every application. -/
theorem fnModel_spec {st : IState} {u : UF R} (hI : Inv s st u true) (hfull : Full st u)
    (happ : ∀ p ∈ st.apps, App s st.ratVars p.2) {ρ : Tm → ℚ}
    (hρ : ∀ q ∈ st.ratVars, ρ q.1 = u.trail.rats.value q.2) {p : Var × Tm} (hp : p ∈ st.apps) :
    fnModel u (s.fncSymbol p.2) ((s.args p.2).map fun a => .q (linVal ρ s a)) = some (.q (ρ p.2)) := by
  have hA := happ p hp
  have hrv := hI.base.rv
  have hval : ∀ t, (∀ x ∈ atoms s t, ∃ v, mapFind st.ratVars x = some v) → UF.val s u t = linVal ρ s t := by
    intro t ht
    unfold UF.val
    apply linVal_congr
    intro x hx
    obtain ⟨v, hv⟩ := ht x hx
    unfold ratVal
    rw [hrv, hv, hρ _ (mapFind_mem hv)]
  have hmem : p.2 ∈ u.watch.map (·.term) := by rw [hI.terms]; exact List.mem_map.mpr ⟨p, hp, rfl⟩
  obtain ⟨w, hw, hwt⟩ := List.mem_map.mp hmem
  have hwok := hI.watch w hw
  have hpos := List.length_pos_iff.mpr hwok.ne
  have hx : w.watch[0]? = some w.watch[0] := List.getElem?_eq_getElem hpos
  obtain ⟨y, _, n, hn, hxn⟩ := mem_varsOf.mp ((hwok.mem w.watch[0]).mp (List.getElem_mem hpos))
  rw [hrv] at hn
  have hsome := hfull _ (mapFind_mem hn)
  simp only at hsome
  rw [← hxn] at hsome
  obtain ⟨l, hl⟩ := Option.isSome_iff_exists.mp hsome
  obtain ⟨_, e, h1, h2, _⟩ := hI.settled w hw _ l hx hl (.inr rfl)
  rw [hwt] at h1 h2
  have e1 : ((s.args p.2).map fun a => Val.q (UF.val s u a)) = (s.args p.2).map fun a => Val.q (linVal ρ s a) :=
    List.map_congr_left fun a ha => by rw [hval a (hA.vars a ha)]
  have e2 : UF.val s u p.2 = ρ p.2 := by
    rw [hval p.2 (by
      rw [atoms_var hA.varLike]
      intro x hx
      rw [List.mem_singleton.mp hx]
      exact hA.var)]
    unfold linVal monoVal; rw [hA.kind]; rfl
  unfold fnModel
  rw [← e1, h1, Option.map_some, h2, e2]

theorem fncSymbol_positive (h : WF H s) {t : Tm} (hk : s.kind t = .app) :
    Tm.positive (s.fncSymbol t).index = s.fncSymbol t := by
  obtain ⟨e, he, hek⟩ := entry_of_kind (s := s) (t := t) (by rw [hk]; decide)
  have hs := h.shape _ _ he
  rw [hk] at hek
  obtain ⟨k, ty, d⟩ := e
  simp only at hek
  subst hek
  obtain ⟨_, f, as, hd, ⟨_, hn⟩, _⟩ := hs
  simp only at hd
  subst hd
  have hf : s.fncSymbol t = f := by
    unfold TermTable.fncSymbol
    rw [allArgs_of_entry he]; rfl
  rw [hf]
  exact (Tm.eq_positive hn).symm

/-- The interpretation gives constants their values on the trail and has the values of the function tables. -/
structure Reads (s : TermTable) (st : IState) (u : UF R) (I : Interp) : Prop where
  bool : ∀ p ∈ st.boolVars, s.kind p.1 = .uninterpreted →
    I.constB p.1.index = if p.2.isNeg then !u.trail.bools.value p.2.ord else u.trail.bools.value p.2.ord
  rat : ∀ p ∈ st.ratVars, s.kind p.1 = .uninterpreted → I.constQ p.1.index = u.trail.rats.value p.2
  fn : ∀ p ∈ st.apps, ∀ (args : List Spec.Val) (y : ℚ), u.fnModel (s.fncSymbol p.2) (args.map toVal) = some (.q y) →
    I.fnQ (s.fncSymbol p.2).index args = y

/-- The interpretation gives all terms their values on the trail. -/
theorem agreeAll (h : WF H s) {cfg : ICfg} (hF : RealFns s) {st : IState} (hI : IInv s st)
    (hP : PInv s st) (hK : Keys s st) {u : UF R} (hU : Inv s st u true) (hfull : Full st u) {I : Interp}
    (hR : Reads s st u I) :
    Yaga.Kept cfg s fun st' => (∀ p ∈ st'.ratVars, p ∈ st.ratVars) → (∀ p ∈ st'.boolVars, p ∈ st.boolVars) →
      IInv s st' → Models st' u.trail.bools.value u.trail.rats.value →
      AgreeAll I s st' u.trail.bools.value u.trail.rats.value := by
  intro st0 st1 t hI0 hP0 hq hty hfr hargs hv hpr hP1 hr1 hb1 hI1 hm
  have hst := visit_step h hI0 hty hv
  have hst' := Step.processed hst.inv (st1.processed ++ [t.index])
  have hstep := hst.trans hst'
  have ha0 := hq (fun p hp => hr1 p (hstep.ratSub p hp)) (fun p hp => hb1 p (hstep.boolSub p hp)) hI0
    (hstep.back _ _ hm)
  refine hstep.sound _ _ _ hm ha0 ⟨?_, ?_⟩
  · intro p hp
    obtain ⟨hp, hk⟩ := List.mem_filter.mp hp
    have hpF := hr1 p hp
    obtain ⟨hr, _, _⟩ := hI.rat p hpF
    have hfind := mapFind_of_mem hK.rat hpF
    by_cases hu : s.kind p.1 = .uninterpreted
    · obtain ⟨e, he, hek⟩ := entry_of_kind (s := s) (t := p.1) (by rw [hu]; decide)
      have hty := type_of_entry he
      rw [hr.1] at hty
      rw [hu] at hek
      obtain ⟨k, ty, d⟩ := e
      simp only at hek hty
      subst hek hty
      unfold denQ
      rw [h.den he hr.2]
      exact (hR.rat p hpF hu).symm
    · have hka : s.kind p.1 = .app := by simpa [hu] using hk
      have hreg := hP.appKey p hpF hka
      obtain ⟨hA, _⟩ := registered h hF hP hK _ hreg
      have hargs0 : ∀ a ∈ s.args p.1, a.index ∈ st0.processed := by
        have hp1 : p.1.index ∈ st1.processed ++ [t.index] := hP1.keyR p hp
        intro a ha
        have hlt := args_below h a ha
        have hpa : a.index ∈ st1.processed ++ [t.index] := closed' hP1 hp1 ha
        rw [hpr] at hpa hp1
        rcases List.mem_append.mp hpa with hpa | hpa
        · exact hpa
        · have hpa := List.mem_singleton.mp hpa
          rcases List.mem_append.mp hp1 with hp1 | hp1
          · exact closed' hP0 hp1 ha
          · have := List.mem_singleton.mp hp1
            omega
      have hden : ∀ a ∈ s.args p.1, denQ I s a = linVal (ratVal st u.trail) s a := by
        intro a ha
        rw [denQ_linVal h (hA.args a ha)]
        apply linVal_congr
        intro x hx
        obtain ⟨v, hv⟩ := atoms_ready h hP0 (hA.args a ha) (hargs0 a ha) x hx
        have := ha0.rat _ (mapFind_mem hv)
        simp only at this
        rw [← this]
        unfold ratVal
        rw [mapFind_of_mem hK.rat (hr1 _ (hstep.ratSub _ (mapFind_mem hv)))]
      rw [denQ_app h hA]
      refine (hR.fn _ hreg _ _ ?_).symm
      rw [List.map_map]
      have e1 : ((s.args p.1).map (toVal ∘ fun a => Spec.Val.q (denQ I s a))) =
          (s.args p.1).map fun a => Val.q (linVal (ratVal st u.trail) s a) :=
        List.map_congr_left fun a ha => by simp only [Function.comp, toVal]; rw [hden a ha]
      rw [e1, fnModel_spec hU hfull (fun q hq => (registered h hF hP hK q hq).1) (p := (Var.rat p.2, p.1)) ?_ hreg]
      · show some (Val.q (ratVal st u.trail p.1)) = _
        unfold ratVal
        rw [hfind]
      · intro q hq
        unfold ratVal
        rw [mapFind_of_mem hK.rat hq]
  · intro p hp
    obtain ⟨hp, hk⟩ := List.mem_filter.mp hp
    have hpF := hb1 p hp
    have hb := (hI.bool p hpF).1
    by_cases hka : s.kind p.1 = .app
    · have := (hF _ hka).1
      rw [show s.type p.1 = .bool from hb] at this
      cases this
    · have hu : s.kind p.1 = .uninterpreted := by simpa [hka] using hk
      have hn := hK.pos p hpF hu
      obtain ⟨e, he, hek⟩ := entry_of_kind (s := s) (t := p.1) (by rw [hu]; decide)
      have hty := type_of_entry he
      rw [show s.type p.1 = .bool from hb] at hty
      rw [hu] at hek
      obtain ⟨k, ty, d⟩ := e
      simp only at hek hty
      subst hek hty
      unfold denB
      rw [h.den he hn, litTrue_val]
      show _ ↔ I.constB p.1.index = true
      rw [hR.bool p hpF hu]

/-- The interpretation read from the trail and the tables. -/
theorem reads_ufInterp (h : WF H s) (hF : RealFns s) {st : IState} (hI : IInv s st) (hP : PInv s st) (hK : Keys s st)
    (u : UF R) (dflt : Nat → ℚ) : Reads s st u (ufInterp st u dflt) := by
  refine ⟨?_, ?_, ?_⟩
  · intro p hp hu
    show (match mapFind st.boolVars (Tm.positive p.1.index) with
        | some l => if l.isNeg then !u.trail.bools.value l.ord else u.trail.bools.value l.ord | none => false) = _
    rw [← Tm.eq_positive (hK.pos p hp hu), mapFind_of_mem hK.bool hp]
  · intro p hp hu
    show (match mapFind st.ratVars (Tm.positive p.1.index) with | some v => u.trail.rats.value v | none => 0) = _
    rw [← Tm.eq_positive (hI.rat p hp).1.2, mapFind_of_mem hK.rat hp]
  · intro p hp args y hy
    show (match u.fnModel (Tm.positive (s.fncSymbol p.2).index) (args.map toVal) with
        | some (.q x) => x | _ => dflt _) = y
    rw [fncSymbol_positive h (registered h hF hP hK p hp).1.kind, hy]

theorem RealFns.roots (hF : RealFns s) {as : List Tm} (hb : ∀ a ∈ as, IsBool s a) :
    ∀ a ∈ as, s.kind a = .app → a.isNeg = false := by
  intro a ha hk
  have := (hF a hk).1
  rw [show s.type a = .bool from hb a ha] at this
  cases this

/-- The invariant holds in all states that can be reached. -/
theorem reach_all (h : WF H s) {cfg : ICfg} (hS : Supported cfg s) (hF : RealFns s) {as : List Tm}
    (hb : ∀ a ∈ as, IsBool s a) {st : IState} (hc : check cfg s IState.init as = some (some st)) {u : UF R} {d : Bool}
    (hr : Reach cfg s st u d) : Inv s st u d := by
  obtain ⟨hI, hP, hK⟩ := check_facts h hS hb (RealFns.roots hF hb) hc
  exact reach_inv h (start_inv h hI hP hK hF) hr

/-- If the clauses are true and the constraints have their values, the assertions hold in all interpretations with
the values of the constants and the function tables. -/
theorem sat_reads (h : WF H s) {cfg : ICfg} (hS : Supported cfg s) (hF : RealFns s) {as : List Tm}
    (hb : ∀ a ∈ as, IsBool s a) {st : IState} (hc : check cfg s IState.init as = some (some st)) {u : UF R}
    (hU : Inv s st u true) (hfull : Full st u) (hm : Models st u.trail.bools.value u.trail.rats.value) {I : Interp}
    (hR : Reads s st u I) : Holds I s as := by
  have hap := RealFns.roots hF hb
  obtain ⟨hI, hP, hK⟩ := check_facts h hS hb hap hc
  rcases check_cases hc with ⟨h1, _⟩ | ⟨hff, st1, st2, h1, h2, h3⟩
  · cases h1
  cases h3
  obtain ⟨cs, h4, _, _⟩ := units_spec as h2
  have hm1 : Models st1 u.trail.bools.value u.trail.rats.value := by
    rw [h4] at hm
    exact ⟨fun c hc => hm.1 c (List.mem_append_left _ hc), hm.2⟩
  obtain ⟨st', g1, g2, g3, g4, _⟩ := roots_kept h hS (agreeAll (cfg := cfg) h hF hI hP hK hU hfull hR) as _ (iinv_init s)
    (pinv_init s) (fun _ _ _ _ => ⟨by simp [IState.init], by simp [IState.init]⟩)
    fun t ht => ⟨.inl (hb t ht), fun hf => hff (by rw [← hf]; exact ht), hap t ht⟩
  have g1 : roots cfg s as { IState.init with clauses := [] } = some st' := g1
  rw [h1] at g1
  cases g1
  exact units_sound h hb h2 hm (g4 (by rw [h4]; exact fun p hp => hp) (by rw [h4]; exact fun p hp => hp) g2 hm1)

/-- The interpretation given by the values and the function tables. -/
theorem sat_holds (h : WF H s) {cfg : ICfg} (hS : Supported cfg s) (hF : RealFns s) {as : List Tm}
    (hb : ∀ a ∈ as, IsBool s a) {st : IState} (hc : check cfg s IState.init as = some (some st)) {u : UF R}
    (hU : Inv s st u true) (hfull : Full st u) (hm : Models st u.trail.bools.value u.trail.rats.value) (dflt : Nat → ℚ) :
    Holds (ufInterp st u dflt) s as := by
  obtain ⟨hI, hP, hK⟩ := check_facts h hS hb (RealFns.roots hF hb) hc
  exact sat_reads h hS hF hb hc hU hfull hm (reads_ufInterp h hF hI hP hK u dflt)

end UF
end Yaga
