/-
The meaning of the response to `get-model`.
-/
import Verif.Proofs.PrintRead
import Verif.Proofs.UfKeys
import Verif.Proofs.UfSat
import Verif.Spec.SmtModel

set_option linter.unusedVariables false

namespace Yaga
namespace PrintModel

open Spec Internalizer TermTable

variable {H : TermHash} {pr : ℚ → LF} {R : Type} {s : TermTable} {st : IState} {nm : Tm → Option (List Char)}

theorem fncSymbol_kind (h : WF H s) {t : Tm} (hk : s.kind t = .app) :
    s.kind (s.fncSymbol t) = .uninterpreted ∧ (s.fncSymbol t).isNeg = false := by
  obtain ⟨e, he, hek⟩ := entry_of_kind (s := s) (t := t) (by rw [hk]; decide)
  have hs := h.shape _ _ he
  rw [hk] at hek
  obtain ⟨k, ty, d⟩ := e
  simp only at hek
  subst hek
  obtain ⟨_, f, as, hd, hf', _⟩ := hs
  simp only at hd
  subst hd
  have hf : s.fncSymbol t = f := by
    unfold TermTable.fncSymbol
    rw [allArgs_of_entry he]; rfl
  rw [hf]
  exact hf'

/-- The value of a real constant. -/
theorem den_real (h : WF H s) {t : Tm} (hk : s.kind t = .uninterpreted) (hr : IsReal s t) (I : Interp) :
    den I s t = .q (I.constQ t.index) := by
  obtain ⟨e, he, hek⟩ := entry_of_kind (s := s) (t := t) (by rw [hk]; decide)
  have hty := type_of_entry he
  rw [hr.1] at hty
  rw [hk] at hek
  obtain ⟨k, ty, d⟩ := e
  simp only at hek hty
  subst hek hty
  rw [h.den he hr.2]
  rfl

/-- The value of a Boolean constant. -/
theorem den_bool (h : WF H s) {t : Tm} (hk : s.kind t = .uninterpreted) (hb : IsBool s t) (hn : t.isNeg = false)
    (I : Interp) : den I s t = .b (I.constB t.index) := by
  obtain ⟨e, he, hek⟩ := entry_of_kind (s := s) (t := t) (by rw [hk]; decide)
  have hty := type_of_entry he
  rw [show s.type t = .bool from hb] at hty
  rw [hk] at hek
  obtain ⟨k, ty, d⟩ := e
  simp only at hek hty
  subst hek hty
  rw [h.den he hn]
  rfl

/-! ### Constants -/

theorem mem_varMap {p : Tm × Var} : p ∈ varMap s st ↔ (s.kind p.1 = .uninterpreted ∨ s.kind p.1 = .app) ∧
    ((∃ q ∈ st.boolVars, p = (q.1, q.2.var)) ∨ ∃ q ∈ st.ratVars, p = (q.1, Var.rat q.2)) := by
  unfold varMap
  simp only [List.mem_append, List.mem_map, List.mem_filter, Bool.or_eq_true, decide_eq_true_eq]
  constructor
  · rintro (⟨q, ⟨h1, h2⟩, rfl⟩ | ⟨q, ⟨h1, h2⟩, rfl⟩)
    · exact ⟨h2, .inl ⟨q, h1, rfl⟩⟩
    · exact ⟨h2, .inr ⟨q, h1, rfl⟩⟩
  · rintro ⟨h2, ⟨q, h1, rfl⟩ | ⟨q, h1, rfl⟩⟩
    · exact .inl ⟨q, ⟨h1, h2⟩, rfl⟩
    · exact .inr ⟨q, ⟨h1, h2⟩, rfl⟩

/-- What is printed for constants. -/
theorem mem_constOf {tr : Trail R} {vs : List (Tm × Var)} (hv : vs.Perm (varMap s st)) (r : List Char × Val) :
    r ∈ vs.filterMap (constOf nm s tr) ↔
      (∃ q ∈ st.boolVars, s.kind q.1 = .uninterpreted ∧ nm q.1 = some r.1 ∧ tr.bools.defined q.2.ord = true ∧
        r.2 = .b (tr.bools.value q.2.ord)) ∨
      ∃ q ∈ st.ratVars, s.kind q.1 = .uninterpreted ∧ nm q.1 = some r.1 ∧ tr.rats.defined q.2 = true ∧
        r.2 = .q (tr.rats.value q.2) := by
  rw [List.mem_filterMap]
  constructor
  · rintro ⟨p, hp, hc⟩
    obtain ⟨_, hq⟩ := mem_varMap.mp (hv.mem_iff.mp hp)
    unfold constOf at hc
    split at hc
    · cases hc
    · rename_i hk
      have hk : s.kind p.1 = .uninterpreted := by simpa using hk
      split at hc
      · cases hc
      · rename_i n hn
        rcases hq with ⟨q, hq, rfl⟩ | ⟨q, hq, rfl⟩
        · have hc : (if tr.bools.defined q.2.ord = true then some (n, Val.b (tr.bools.value q.2.ord)) else none) = some r := hc
          by_cases hd : tr.bools.defined q.2.ord = true
          · rw [if_pos hd] at hc
            cases hc
            exact .inl ⟨q, hq, hk, hn, hd, rfl⟩
          · rw [if_neg hd] at hc; cases hc
        · have hc : (if tr.rats.defined q.2 = true then some (n, Val.q (tr.rats.value q.2)) else none) = some r := hc
          by_cases hd : tr.rats.defined q.2 = true
          · rw [if_pos hd] at hc
            cases hc
            exact .inr ⟨q, hq, hk, hn, hd, rfl⟩
          · rw [if_neg hd] at hc; cases hc
  · rintro (⟨q, hq, hk, hn, hd, hr⟩ | ⟨q, hq, hk, hn, hd, hr⟩)
    · refine ⟨(q.1, q.2.var), hv.mem_iff.mpr (mem_varMap.mpr ⟨.inl hk, .inl ⟨q, hq, rfl⟩⟩), ?_⟩
      unfold constOf
      simp only [hk, hn, Lit.var, hd, ne_eq, not_true_eq_false, if_false, if_true]
      rw [← hr]
    · refine ⟨(q.1, Var.rat q.2), hv.mem_iff.mpr (mem_varMap.mpr ⟨.inl hk, .inr ⟨q, hq, rfl⟩⟩), ?_⟩
      unfold constOf
      simp only [hk, hn, hd, ne_eq, not_true_eq_false, if_false, if_true]
      rw [← hr]

/-- What it means to meet the definition of a constant. -/
theorem meets_const (hp : Numbers pr) (n : List Char) (v : Val) (I : Interp) :
    (constDef pr n v).Meets s nm I ↔ ∀ t, s.kind t = .uninterpreted → t.isNeg = false → nm t = some n →
      den I s t = ofVal v := by
  unfold Def.Meets
  have h : (constDef pr n v).params = [] := rfl
  have h' : (constDef pr n v).name = n := rfl
  simp only [h, h', if_true, gives_const hp]

/-! ### Functions -/

/-- The table of a function. -/
def tableOf (fns : List FApp) (f : Tm) : List (List Val × Val) :=
  sortBy (fun a b => argsLt a.1 b.1) ((fns.filter fun e => decide (e.fn = f)).map fun e => (e.args, e.value))

theorem mem_tableOf {fns : List FApp} {f : Tm} {x : List Val × Val} :
    x ∈ tableOf fns f ↔ ∃ e ∈ fns, e.fn = f ∧ x = (e.args, e.value) := by
  unfold tableOf
  rw [mem_sortBy]
  simp only [List.mem_map, List.mem_filter, decide_eq_true_eq]
  constructor
  · rintro ⟨e, ⟨h1, h2⟩, rfl⟩; exact ⟨e, h1, h2, rfl⟩
  · rintro ⟨e, h1, h2, rfl⟩; exact ⟨e, ⟨h1, h2⟩, rfl⟩

/-- The entries have different arguments. -/
theorem tableOf_nodup {fns : List FApp} (h : (fns.map UF.key).Nodup) (f : Tm) : ((tableOf fns f).map (·.1)).Nodup := by
  have hp := (sortBy_perm (fun a b => argsLt a.1 b.1)
    ((fns.filter fun e => decide (e.fn = f)).map fun e => (e.args, e.value))).map Prod.fst
  unfold tableOf
  rw [hp.nodup_iff, List.map_map]
  have h1 : ((fns.filter fun e => decide (e.fn = f)).map UF.key).Nodup := h.sublist (List.filter_sublist.map _)
  refine List.Nodup.map_on ?_ (List.Nodup.of_map _ h1)
  intro a ha b hb hab
  have e1 : a.fn = f := by simpa using (List.mem_filter.mp ha).2
  have e2 : b.fn = f := by simpa using (List.mem_filter.mp hb).2
  refine List.inj_on_of_nodup_map h1 ha hb ?_
  unfold UF.key
  rw [e1, e2]
  exact congrArg _ hab

theorem toVal_ofVal (v : Val) : toVal (ofVal v) = v := by cases v <;> rfl
theorem ofVal_toVal (v : Spec.Val) : ofVal (toVal v) = v := by cases v <;> rfl

theorem map_ofVal_inj {a b : List Val} (h : a.map ofVal = b.map ofVal) : a = b := by
  have := congrArg (List.map toVal) h
  simpa [List.map_map, Function.comp_def, toVal_ofVal] using this

/-- The definition has the values of the table. -/
theorem pickEntry_mem {es : List (List Val × Val)} {d : Val} {x : List Val × Val} (hn : (es.map (·.1)).Nodup)
    (hx : x ∈ es) : pickEntry es d (x.1.map ofVal) = x.2 := by
  induction es with
  | nil => cases hx
  | cons e es ih =>
    rw [pickEntry]
    rcases List.mem_cons.mp hx with rfl | hx
    · rw [if_pos rfl]
    · rw [if_neg]
      · exact ih (List.nodup_cons.mp hn).2 hx
      · intro h
        have := map_ofVal_inj h
        exact (List.nodup_cons.mp hn).1 (List.mem_map.mpr ⟨x, hx, this⟩)

theorem pickEntry_other {es : List (List Val × Val)} {d : Val} {a : List Val} (hn : a ∉ es.map (·.1)) :
    pickEntry es d (a.map ofVal) = d := by
  induction es with
  | nil => rfl
  | cons e es ih =>
    simp only [List.map_cons, List.mem_cons, not_or] at hn
    rw [pickEntry, if_neg fun h => hn.1 (map_ofVal_inj h)]
    exact ih hn.2

theorem pickEntry_table {T es : List (List Val × Val)} {e x : List Val × Val} (hT : T = e :: es)
    (hn : (T.map (·.1)).Nodup) (hx : x ∈ T) : pickEntry es e.2 (x.1.map ofVal) = x.2 := by
  subst hT
  rcases List.mem_cons.mp hx with rfl | hx
  · exact pickEntry_other (List.nodup_cons.mp hn).1
  · exact pickEntry_mem (List.nodup_cons.mp hn).2 hx

/-- Every entry of the list is the value of the definition, or the default value. -/
theorem pickEntry_real {es : List (List Val × Val)} {d : Val} (hd : sortOf d = .real)
    (he : ∀ x ∈ es, sortOf x.2 = .real) (args : List Spec.Val) : ∃ q, pickEntry es d args = .q q := by
  have h := pickEntry_sort (es := es) (dflt := d) (fun e h => (he e h).trans hd.symm) args
  rw [hd] at h
  cases hv : pickEntry es d args with
  | b x => rw [hv] at h; cases h
  | q x => exact ⟨x, rfl⟩

/-- What it means to meet the definition of a real function. -/
theorem meets_fn (hp : Numbers pr) (n : List Char) {args0 : List Val} (h0 : args0 ≠ []) {dflt : Val}
    {es : List (List Val × Val)} (hs : ∀ e ∈ es, e.1.map sortOf = args0.map sortOf)
    (hd : ∀ e ∈ es, sortOf e.2 = sortOf dflt) (hr : sortOf dflt = .real) (I : Interp) :
    (fnDef pr n args0 dflt es).Meets s nm I ↔ ∀ t, s.kind t = .uninterpreted → t.isNeg = false → nm t = some n →
      ∀ args : List Spec.Val, args.length = args0.length → (∀ p ∈ args.zip (args0.map sortOf), p.1.has p.2 = true) →
        .q (I.fnQ t.index args) = ofVal (pickEntry es dflt args) := by
  have e2 : (fnDef pr n args0 dflt es).params.map (·.2) = args0.map sortOf := params_sorts args0 0
  have e3 : (fnDef pr n args0 dflt es).params.length = args0.length := by
    rw [← List.length_map (f := (·.2)), e2, List.length_map]
  have e4 : (fnDef pr n args0 dflt es).params ≠ [] := by
    intro h
    rw [h] at e3
    exact h0 (List.length_eq_zero_iff.mp e3.symm)
  have e5 : (fnDef pr n args0 dflt es).sort = .real := hr
  have e6 : (fnDef pr n args0 dflt es).name = n := rfl
  unfold Def.Meets
  simp only [if_neg e4, e5, e3, e6, zip_snd (fun (v : Spec.Val) so => v.has so = true), e2]
  refine forall_congr' fun t => forall_congr' fun _ => forall_congr' fun _ => forall_congr' fun _ => ?_
  refine forall_congr' fun args => forall_congr' fun ha => forall_congr' fun hb => ?_
  rw [gives_fn hp n h0 dflt es hs hd]
  exact ⟨fun h => h.2.2, fun h => ⟨ha, hb, h⟩⟩

end PrintModel
end Yaga
