/-
The response to `get-model` describes the values on the trail and the function tables.
-/
import Verif.Proofs.PrintSem
import Verif.Proofs.UfLraScript

set_option linter.unusedVariables false

namespace Yaga
namespace PrintModel

open Spec Internalizer TermTable

variable {H : TermHash} {pr : ℚ → LF} {R : Type} {s : TermTable} {st : IState} {nm : Tm → Option (List Char)}

theorem zip_has (l : List Val) : ∀ p ∈ (l.map ofVal).zip (l.map sortOf), p.1.has p.2 = true := by
  induction l with
  | nil => simp
  | cons v l ih =>
    intro p hp
    rw [List.map_cons, List.map_cons, List.zip_cons_cons] at hp
    rcases List.mem_cons.mp hp with rfl | hp
    · exact (ofVal_has v _).mpr rfl
    · exact ih p hp

/-- The entries of a table. -/
theorem table_entry {u : UF R} (hU : UF.Inv s st u true) {f : Tm} {x : List Val × Val} (hx : x ∈ tableOf u.fns f) :
    ∃ t, s.kind t = .app ∧ s.fncSymbol t = f ∧ x.1.length = (s.args t).length ∧
      x.1.map sortOf = List.replicate (s.args t).length .real ∧ sortOf x.2 = .real := by
  obtain ⟨e, he, hf, rfl⟩ := mem_tableOf.mp hx
  have hE := hU.entries e he
  refine ⟨e.term, hE.app.kind, by rw [← hE.fn, hf], ?_, ?_, ?_⟩
  · simp [hE.args]
  · simp only [hE.args, List.map_map]
    rw [← List.map_const']
    rfl
  · simp only [hE.value]; rfl

/-- The tables of the registered functions. -/
theorem table_facts (h : WF H s) (hF : RealFns s) (hP : PInv s st) (hK : Keys s st) (hA : SameArity s) {u : UF R}
    (hU : UF.Inv s st u true) (hfull : UF.Full st u) {p : Var × Tm} (hp : p ∈ st.apps) :
    ∃ e es, tableOf u.fns (s.fncSymbol p.2) = e :: es ∧ e.1 ≠ [] ∧ sortOf e.2 = .real ∧
      ∀ x ∈ e :: es, x.1.length = e.1.length ∧ x.1.map sortOf = e.1.map sortOf ∧ sortOf x.2 = .real := by
  have h1 := UF.fnModel_spec hU hfull (fun q hq => (UF.registered h hF hP hK q hq).1) (ρ := ratVal st u.trail)
    (by
      intro q hq
      unfold ratVal
      rw [mapFind_of_mem hK.rat hq]) hp
  unfold UF.fnModel at h1
  obtain ⟨e0, h2, h3⟩ := Option.map_eq_some_iff.mp h1
  have h4 := List.mem_of_find?_eq_some h2
  have h5 := List.find?_some h2
  simp only [Bool.and_eq_true, decide_eq_true_eq] at h5
  have h6 : (e0.args, e0.value) ∈ tableOf u.fns (s.fncSymbol p.2) := mem_tableOf.mpr ⟨e0, h4, h5.1, rfl⟩
  obtain ⟨e, es, hT⟩ := List.exists_cons_of_ne_nil (List.ne_nil_of_mem h6)
  obtain ⟨t, k1, k2, k3, k4, k5⟩ := table_entry hU (x := e) (by rw [hT]; simp)
  refine ⟨e, es, hT, ?_, k5, ?_⟩
  · intro he
    rw [he] at k3
    exact hA.1 t k1 (List.length_eq_zero_iff.mp k3.symm)
  · intro x hx
    obtain ⟨t', l1, l2, l3, l4, l5⟩ := table_entry hU (x := x) (f := s.fncSymbol p.2) (by rw [hT]; exact hx)
    have hl := hA.2 t t' k1 l1 (by rw [k2, l2])
    exact ⟨by rw [l3, k3, hl], by rw [l4, k4, hl], l5⟩

/-- The symbol that a definition is for. -/
def Origin (s : TermTable) (nm : Tm → Option (List Char)) (d : Def) : Prop :=
  (∃ t, s.kind t = .uninterpreted ∧ t.isNeg = false ∧ nm t = some d.name ∧ d.params = [] ∧
    (d.sort = .bool ∧ IsBool s t ∨ d.sort = .real ∧ IsReal s t)) ∨
  ∃ t, s.kind t = .app ∧ nm (s.fncSymbol t) = some d.name ∧
    d.params.map (·.2) = List.replicate (s.args t).length .real ∧ d.sort = .real

theorem origin_const {tr : Trail R} (hI : IInv s st) (hK : Keys s st) {vs : List (Tm × Var)} (hv : vs.Perm (varMap s st))
    {r : List Char × Val} (hr : r ∈ vs.filterMap (constOf nm s tr)) : Origin s nm (constDef pr r.1 r.2) := by
  rcases (mem_constOf hv r).mp hr with ⟨q, hq, hk, hn, _, hr2⟩ | ⟨q, hq, hk, hn, _, hr2⟩
  · refine .inl ⟨q.1, hk, hK.pos q hq hk, hn, rfl, .inl ⟨?_, (hI.bool q hq).1⟩⟩
    rw [hr2]; rfl
  · refine .inl ⟨q.1, hk, (hI.rat q hq).1.2, hn, rfl, .inr ⟨?_, (hI.rat q hq).1⟩⟩
    rw [hr2]; rfl

/-- The interpretation that the response describes. -/
def shownInterp (st : IState) (u : UF R) : Interp :=
  { ufInterp st u (fun _ => 0) with
    fnQ := fun f args =>
      match tableOf u.fns (Tm.positive f) with
      | [] => 0
      | e :: es => (ofVal (pickEntry es e.2 args)).num }

theorem shown (hp : Numbers pr) (h : WF H s) (hF : RealFns s) (hI : IInv s st) (hP : PInv s st) (hK : Keys s st)
    (hA : SameArity s) (hN : Named s st nm) {u : UF R} (hU : UF.Inv s st u true) (hfull : UF.Full st u)
    (hone : UF.OneEntry u) (hdb : ∀ n < st.numBool, u.trail.bools.defined n = true)
    (hdr : ∀ n < st.numRat, u.trail.rats.defined n = true) {vs : List (Tm × Var)} (hv : vs.Perm (varMap s st))
    {fs : List Tm} (hf1 : ∀ e ∈ u.fns, e.fn ∈ fs) (hf2 : ∀ f ∈ fs, ∃ p ∈ st.apps, s.fncSymbol p.2 = f) :
    ∃ text defs, getModel pr nm s u.trail vs (tables u.fns fs) = some text ∧ readModel text = some defs ∧
      (∀ I, (∀ d ∈ defs, d.Meets s nm I) → UF.Reads s st u I) ∧
      (Distinct s nm → ∀ d ∈ defs, d.Meets s nm (shownInterp st u)) ∧ ∀ d ∈ defs, Origin s nm d := by
  have hts : tables u.fns fs = fs.map fun f => (f, tableOf u.fns f) := rfl
  have hT : ∀ f ∈ fs, ∃ n e es, nm f = some n ∧ Plain n ∧ s.kind f = .uninterpreted ∧ f.isNeg = false ∧
      tableOf u.fns f = e :: es ∧ e.1 ≠ [] ∧ sortOf e.2 = .real ∧
      ∀ x ∈ e :: es, x.1.length = e.1.length ∧ x.1.map sortOf = e.1.map sortOf ∧ sortOf x.2 = .real := by
    intro f hf
    obtain ⟨p, hp', rfl⟩ := hf2 f hf
    obtain ⟨n, hn, hg⟩ := hN.2.2 p hp'
    obtain ⟨e, es, g⟩ := table_facts h hF hP hK hA hU hfull hp'
    obtain ⟨k1, k2⟩ := fncSymbol_kind h (UF.registered h hF hP hK p hp').1.kind
    exact ⟨n, e, es, hn, hg, k1, k2, g⟩
  have hname : ∀ p ∈ vs, ∀ r, constOf nm s u.trail p = some r → GoodName r.1 := by
    intro p hp' r hr
    rcases (mem_constOf (tr := u.trail) hv r).mp (List.mem_filterMap.mpr ⟨p, hp', hr⟩) with ⟨q, hq, hk, hn, _⟩ | ⟨q, hq, hk, hn, _⟩
    · obtain ⟨n, h1, h2⟩ := hN.1 q hq hk
      rw [hn] at h1; cases h1; exact h2
    · obtain ⟨n, h1, h2⟩ := hN.2.1 q hq hk
      rw [hn] at h1; cases h1; exact h2
  have hpr : ∀ p ∈ tables u.fns fs, Printable nm p := by
    intro p hp' n hn
    rw [hts] at hp'
    obtain ⟨f, hf, rfl⟩ := List.mem_map.mp hp'
    obtain ⟨n', e, es, g1, g2, _, _, g5, _, _, g8⟩ := hT f hf
    rw [show nm f = some n from hn] at g1
    cases g1
    exact ⟨g2, e, es, g5, fun x hx => (g8 x (by simp [hx])).1.le⟩
  obtain ⟨text, t1, t2⟩ := getModel_reads hp nm s u.trail vs hname (tables u.fns fs) hpr
  refine ⟨text, _, t1, t2, ?_, ?_, ?_⟩
  · intro I hm
    have hc : ∀ r, r ∈ vs.filterMap (constOf nm s u.trail) → (constDef pr r.1 r.2).Meets s nm I := fun r hr =>
      hm _ (List.mem_append_left _ (List.mem_map_of_mem (f := fun r => constDef pr r.1 r.2) hr))
    refine ⟨?_, ?_, ?_⟩
    · intro q hq hk
      obtain ⟨n, hn, _⟩ := hN.1 q hq hk
      have hpos := hK.pos q hq hk
      have := hc (n, .b (u.trail.bools.value q.2.ord)) ((mem_constOf hv _).mpr (.inl ⟨q, hq, hk, hn, hdb _ (hI.bool q hq).2, rfl⟩))
      have := (meets_const hp _ _ I).mp this q.1 hk hpos hn
      rw [den_bool h hk (hI.bool q hq).1 hpos] at this
      rw [hK.lit q hq hk]
      exact Spec.Val.b.inj this
    · intro q hq hk
      obtain ⟨n, hn, _⟩ := hN.2.1 q hq hk
      have hr := (hI.rat q hq).1
      have := hc (n, .q (u.trail.rats.value q.2)) ((mem_constOf hv _).mpr (.inr ⟨q, hq, hk, hn, hdr _ (hI.rat q hq).2.2, rfl⟩))
      have := (meets_const hp _ _ I).mp this q.1 hk hr.2 hn
      rw [den_real h hk hr] at this
      exact Spec.Val.q.inj this
    · intro p hp' args y hy
      unfold UF.fnModel at hy
      obtain ⟨e0, h2, h3⟩ := Option.map_eq_some_iff.mp hy
      have h4 := List.mem_of_find?_eq_some h2
      have h5 := List.find?_some h2
      simp only [Bool.and_eq_true, decide_eq_true_eq] at h5
      have h6 : (e0.args, e0.value) ∈ tableOf u.fns (s.fncSymbol p.2) := mem_tableOf.mpr ⟨e0, h4, h5.1, rfl⟩
      have hfs : s.fncSymbol p.2 ∈ fs := by rw [← h5.1]; exact hf1 e0 h4
      obtain ⟨n, e, es, g1, g2, g3, g4, g5, g6, g7, g8⟩ := hT _ hfs
      have hd : (fnDef pr n e.1 e.2 es).Meets s nm I := by
        refine hm _ (List.mem_append_right _ (List.mem_filterMap.mpr ⟨(s.fncSymbol p.2, tableOf u.fns (s.fncSymbol p.2)), ?_, ?_⟩))
        · rw [hts]; exact List.mem_map_of_mem (f := fun f => (f, tableOf u.fns f)) hfs
        · simp [fnOf, g1, g5]
      have ea : args = e0.args.map ofVal := by
        rw [h5.2, List.map_map]
        simp [Function.comp_def, ofVal_toVal]
      have hx := g8 (e0.args, e0.value) (by rw [← g5]; exact h6)
      have := (meets_fn hp n g6 (fun x hx => (g8 x (by simp [hx])).2.1) (fun x hx => ((g8 x (by simp [hx])).2.2).trans g7.symm)
        g7 I).mp hd _ g3 g4 g1 args (by rw [ea, List.length_map]; exact hx.1) (by
          rw [← hx.2.1, ea]
          exact zip_has e0.args)
      rw [ea, pickEntry_table g5 (tableOf_nodup hone _) h6] at this
      simp only [h3] at this
      rw [ea]
      exact Spec.Val.q.inj this
  · intro hD d hd
    rcases List.mem_append.mp hd with hd | hd
    · obtain ⟨r, hr, rfl⟩ := List.mem_map.mp hd
      refine (meets_const hp _ _ _).mpr ?_
      intro t ht1 ht2 ht3
      rcases (mem_constOf hv r).mp hr with ⟨q, hq, hk, hn, _, hr2⟩ | ⟨q, hq, hk, hn, _, hr2⟩
      · have := hD t q.1 r.1 ht1 hk ht2 (hK.pos q hq hk) ht3 hn
        subst this
        rw [den_bool h hk (hI.bool q hq).1 ht2, hr2]
        have := (UF.reads_ufInterp h hF hI hP hK u (fun _ => 0)).bool q hq hk
        rw [hK.lit q hq hk] at this
        exact congrArg _ this
      · have hr := (hI.rat q hq).1
        have := hD t q.1 r.1 ht1 hk ht2 hr.2 ht3 hn
        subst this
        rw [den_real h hk hr, hr2]
        exact congrArg _ ((UF.reads_ufInterp h hF hI hP hK u (fun _ => 0)).rat q hq hk)
    · obtain ⟨p, hp', hf⟩ := List.mem_filterMap.mp hd
      rw [hts] at hp'
      obtain ⟨f, hfs, rfl⟩ := List.mem_map.mp hp'
      obtain ⟨n, e, es, g1, g2, g3, g4, g5, g6, g7, g8⟩ := hT _ hfs
      have hd' : d = fnDef pr n e.1 e.2 es := by
        simp [fnOf, g1, g5] at hf
        exact hf.symm
      subst hd'
      refine (meets_fn hp n g6 (fun x hx => (g8 x (by simp [hx])).2.1)
        (fun x hx => ((g8 x (by simp [hx])).2.2).trans g7.symm) g7 _).mpr ?_
      intro t ht1 ht2 ht3 args ha hb
      have := hD t f n ht1 g3 ht2 g4 ht3 g1
      subst this
      have e1 : (shownInterp st u).fnQ t.index args = (ofVal (pickEntry es e.2 args)).num := by
        show (match tableOf u.fns (Tm.positive t.index) with
          | [] => 0
          | e :: es => (ofVal (pickEntry es e.2 args)).num) = _
        rw [← Tm.eq_positive ht2, g5]
      rw [e1]
      obtain ⟨y, hy⟩ := pickEntry_real (es := es) g7 (fun x hx => (g8 x (by simp [hx])).2.2) args
      rw [hy]
      rfl
  · intro d hd
    rcases List.mem_append.mp hd with hd | hd
    · obtain ⟨r, hr, rfl⟩ := List.mem_map.mp hd
      exact origin_const hI hK hv hr
    · obtain ⟨p, hp', hf⟩ := List.mem_filterMap.mp hd
      rw [hts] at hp'
      obtain ⟨f, hfs, rfl⟩ := List.mem_map.mp hp'
      obtain ⟨n, e, es, g1, g2, g3, g4, g5, g6, g7, g8⟩ := hT _ hfs
      have hd' : d = fnDef pr n e.1 e.2 es := by
        simp [fnOf, g1, g5] at hf
        exact hf.symm
      subst hd'
      obtain ⟨t, k1, k2, k3, k4, k5⟩ := table_entry hU (x := e) (f := f) (by rw [g5]; simp)
      refine .inr ⟨t, k1, by rw [k2]; exact g1, ?_, k5⟩
      rw [← k4]
      simp only [fnDef, List.map_map, Function.comp_def]
      conv_rhs => rw [← List.zipIdx_map_fst 0 e.1, List.map_map]
      rfl

end PrintModel

/-! ### QF_LRA -/

/-- Keys of the terms after the conversion. -/
theorem check_keys {cfg : ICfg} {s : TermTable} {as : List Tm} {st : IState}
    (hc : Internalizer.check cfg s IState.init as = some (some st)) : Keys s st := by
  rcases check_cases hc with ⟨h1, _⟩ | ⟨_, st1, st2, h1, h2, h3⟩
  · cases h1
  cases h3
  have hk := roots_keys as _ ⟨by simp [IState.init], by simp [IState.init], by simp [IState.init], by simp [IState.init]⟩ h1
  obtain ⟨cs, h4, _, _⟩ := units_spec as h2
  rw [h4]
  exact ⟨hk.rat, hk.bool, hk.pos, hk.lit⟩

namespace PrintModel

open Spec Internalizer TermTable

variable {H : TermHash} {pr : ℚ → LF} {R : Type} {s : TermTable} {st : IState} {nm : Tm → Option (List Char)}

theorem shown_consts (hp : Numbers pr) (h : WF H s) (happ : ∀ t, s.kind t ≠ .app) (hI : IInv s st) (hK : Keys s st)
    (hN : Named s st nm) {tr : Trail R} (hdb : ∀ n < st.numBool, tr.bools.defined n = true)
    (hdr : ∀ n < st.numRat, tr.rats.defined n = true) {vs : List (Tm × Var)} (hv : vs.Perm (varMap s st)) :
    ∃ text defs, getModel pr nm s tr vs [] = some text ∧ readModel text = some defs ∧
      (∀ I, (∀ d ∈ defs, d.Meets s nm I) → Agree I s st (fun n => tr.bools.value n) (fun x => tr.rats.value x)) ∧
      (Distinct s nm → ∀ d ∈ defs, d.Meets s nm (readBack st (fun n => tr.bools.value n) (fun x => tr.rats.value x))) ∧
      ∀ d ∈ defs, Origin s nm d := by
  have hname : ∀ p ∈ vs, ∀ r, constOf nm s tr p = some r → GoodName r.1 := by
    intro p hp' r hr
    rcases (mem_constOf (tr := tr) hv r).mp (List.mem_filterMap.mpr ⟨p, hp', hr⟩) with ⟨q, hq, hk, hn, _⟩ | ⟨q, hq, hk, hn, _⟩
    · obtain ⟨n, h1, h2⟩ := hN.1 q hq hk
      rw [hn] at h1; cases h1; exact h2
    · obtain ⟨n, h1, h2⟩ := hN.2.1 q hq hk
      rw [hn] at h1; cases h1; exact h2
  obtain ⟨text, t1, t2⟩ := getModel_reads hp nm s tr vs hname [] (by simp)
  rw [List.filterMap_nil, List.append_nil] at t2
  refine ⟨text, _, t1, t2, ?_, ?_, ?_⟩
  · intro I hm
    have hc : ∀ r, r ∈ vs.filterMap (constOf nm s tr) → (constDef pr r.1 r.2).Meets s nm I := fun r hr =>
      hm _ (List.mem_map_of_mem (f := fun r => constDef pr r.1 r.2) hr)
    constructor
    · intro q hq
      obtain ⟨hq, hk⟩ := List.mem_filter.mp hq
      have hk : s.kind q.1 = .uninterpreted := by simpa [happ] using hk
      obtain ⟨n, hn, _⟩ := hN.2.1 q hq hk
      have hr := (hI.rat q hq).1
      have := hc (n, .q (tr.rats.value q.2)) ((mem_constOf hv _).mpr (.inr ⟨q, hq, hk, hn, hdr _ (hI.rat q hq).2.2, rfl⟩))
      have := (meets_const hp _ _ I).mp this q.1 hk hr.2 hn
      unfold denQ
      rw [this]
      rfl
    · intro q hq
      obtain ⟨hq, hk⟩ := List.mem_filter.mp hq
      have hk : s.kind q.1 = .uninterpreted := by simpa [happ] using hk
      obtain ⟨n, hn, _⟩ := hN.1 q hq hk
      have hpos := hK.pos q hq hk
      have := hc (n, .b (tr.bools.value q.2.ord)) ((mem_constOf hv _).mpr (.inl ⟨q, hq, hk, hn, hdb _ (hI.bool q hq).2, rfl⟩))
      have := (meets_const hp _ _ I).mp this q.1 hk hpos hn
      unfold denB
      rw [this, litTrue_val, hK.lit q hq hk]
      rfl
  · intro hD d hd
    have hA := readBack_agree h hI hK happ (fun n => tr.bools.value n) (fun x => tr.rats.value x)
    obtain ⟨r, hr, rfl⟩ := List.mem_map.mp hd
    refine (meets_const hp _ _ _).mpr ?_
    intro t ht1 ht2 ht3
    rcases (mem_constOf hv r).mp hr with ⟨q, hq, hk, hn, _, hr2⟩ | ⟨q, hq, hk, hn, _, hr2⟩
    · have := hD t q.1 r.1 ht1 hk ht2 (hK.pos q hq hk) ht3 hn
      subst this
      have h1 := hA.2 q (List.mem_filter.mpr ⟨hq, by simp [hk]⟩)
      rw [litTrue_val, hK.lit q hq hk] at h1
      unfold denB at h1
      rw [den_bool h hk (hI.bool q hq).1 ht2, hr2] at *
      exact congrArg Spec.Val.b (Bool.eq_iff_iff.mpr h1.symm)
    · have hr := (hI.rat q hq).1
      have := hD t q.1 r.1 ht1 hk ht2 hr.2 ht3 hn
      subst this
      have h1 := hA.1 q (List.mem_filter.mpr ⟨hq, by simp [hk]⟩)
      unfold denQ at h1
      rw [den_real h hk hr, hr2] at *
      exact congrArg Spec.Val.q h1.symm
  · intro d hd
    obtain ⟨r, hr, rfl⟩ := List.mem_map.mp hd
    exact origin_const hI hK hv hr

end PrintModel

namespace Qf

/-- Variables of the conversion are assigned when the solver answers `sat`. -/
theorem sat_defined {hv : Nat → Nat} {hc : ℚ → Nat} {op : LaOpts} {O : Type} {W : QOrder O} {A : List Clause}
    {P : List QAtom} {c0 : QC O} {q : QS} (h : Start hv hc A P c0)
    (hP : ∀ c, Reach hv hc op W c0 c → PicksFree hv hc op W c ∧ PicksAll hv hc op W c)
    (hr : Returns hv hc op W c0 (.sat q)) :
    (∀ n < c0.q.la.store.cons.length, q.s.t.bools.defined n = true) ∧
    ∀ n < c0.q.la.trail.rats.num, q.s.t.rats.defined n = true := by
  have hdef := (sat_model h hP hr).2
  obtain ⟨c, hr, hi⟩ := hr
  obtain ⟨b, st, hs, hb, hB, hn⟩ := all_reach h (fun c hc => (hP c hc).1) hr
  have hC := (core_iter hb hs (hP c hr).1 hi).2.1 q rfl
  constructor
  · intro n hn'
    refine hdef (.bool n) (?_ : n < q.s.t.bools.num)
    obtain ⟨w, hg⟩ := hC.reach.good
    have hl : q.la.store.cons.length = q.la.trail.bools.num := hg.keep.base.linv.len
    rw [← hC.trail, ← hl]
    exact (List.getElem?_eq_some_iff.mp (hC.kept.cons n _ (List.getElem?_eq_getElem hn'))).1
  · intro n hn'
    refine hdef (.rat n) (?_ : n < q.s.t.rats.num)
    cases hi with
    | @sat q o la0 hp hpk =>
      have := prop_rats hp hb hs
      rw [this, hn, h.trail]
      exact hn'

end Qf

/-! ### The tables in QF_UFLRA have one entry for each tuple of arguments -/

namespace Ufl

variable {O : Type} {E : Ufl.Env} {W : QOrder O}

/-- One entry for each symbol and arguments. -/
def OneF (f : FS) : Prop := (f.fns.map UF.key).Nodup

theorem one_back {f : FS} (h : OneF f) (l : Nat) : OneF (f.back l) := h.sublist (List.filter_sublist.map _)

theorem one_uf {f : FS} {la : LA Nat} {u : UF Nat} {cs : List Clause}
    (hu : UF.propagate E.cfg E.s (view E.st la f) = some (u, cs)) (h : OneF f) : OneF (FS.of u) :=
  UF.propagateVars_one _ hu h

theorem one_prop {x x' : US} {cs : List Clause} (hp : UProp E x cs x') (h : OneF x.f) : OneF x'.f := by
  induction hp with
  | boolConflict _ => exact h
  | lraConflict _ _ _ => exact h
  | ufConflict _ _ hu _ => exact one_uf hu h
  | done _ _ hu _ => exact one_uf hu h
  | again _ _ hu _ _ ih => exact ih (one_uf hu h)

theorem one_run {c c' : UC O} (hi : Iter E W c (.run c')) (h : OneF c.u.f) : OneF c'.u.f := by
  cases hi with
  | restart hp _ _ _ _ => exact one_back (one_prop hp h) _
  | uip hp _ _ _ _ _ => exact one_back (one_prop hp h) _
  | split hp _ _ _ _ _ _ _ _ => exact one_back (one_prop hp h) _
  | decideBool hp _ => have := one_prop hp h; exact this
  | decideRat hp _ _ => have := one_prop hp h; exact this

theorem one_sat {P : List QAtom} {c0 : UC O} (h : Start E P c0) {x : US} (hr : Returns E W c0 (.sat x)) : OneF x.f := by
  obtain ⟨c, hr, hi⟩ := hr
  have hc : OneF c.u.f := by
    clear hi
    induction hr with
    | refl => rw [h.fs]; exact List.nodup_nil
    | step _ hi ih => exact one_run hi ih
  cases hi with
  | sat hp _ => have := one_prop hp hc; exact this

end Ufl
end Yaga
