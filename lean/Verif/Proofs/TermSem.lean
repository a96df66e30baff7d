/-
Meaning of terms: equations for the value of a term, well-formed tables, and the core constructions.
-/
import Verif.Proofs.Terms
import Verif.Spec.Term
import Verif.Model.ArithPoly
import Mathlib.Data.List.Induction
import Mathlib.Data.List.GetD
import Mathlib.Tactic.Set

set_option linter.unusedSectionVars false
set_option linter.unusedVariables false
set_option linter.unusedSimpArgs false

namespace Yaga

open Spec TermTable

variable {I : Interp}

/-! ### Values of a list of entries -/

theorem valsOf_append (es : List TEntry) (e : TEntry) :
    valsOf I (es ++ [e]) = valsOf I es ++ [evalEntry I (valsOf I es).length (lookup (valsOf I es)) e] := by
  unfold valsOf; rw [List.foldl_append]; rfl

theorem valsOf_length (es : List TEntry) : (valsOf I es).length = es.length := by
  induction es using List.reverseRecOn with
  | nil => rfl
  | append_singleton es e ih => rw [valsOf_append]; simp [ih]

theorem valsOf_prefix (es l : List TEntry) : ∃ vs, valsOf I (es ++ l) = valsOf I es ++ vs := by
  induction l using List.reverseRecOn with
  | nil => exact ⟨[], by simp⟩
  | append_singleton l e ih =>
    obtain ⟨vs, h⟩ := ih
    rw [← List.append_assoc, valsOf_append, h]
    exact ⟨vs ++ [_], by rw [List.append_assoc]⟩

theorem lookup_append (vs ws : List Val) {t : Tm} (h : t.index < vs.length) :
    lookup (vs ++ ws) t = lookup vs t := by
  unfold lookup
  rw [List.getD_append _ _ _ _ h]

/-- The value of a term does not depend on later entries. -/
theorem den_ext {s s' : TermTable} (h : Ext s s') {t : Tm} (ht : t.index < s.terms.length) :
    den I s' t = den I s t := by
  obtain ⟨l, h⟩ := h
  obtain ⟨vs, hv⟩ := valsOf_prefix (I := I) s.terms l
  unfold den
  rw [h, hv]
  exact lookup_append _ _ (by rw [valsOf_length]; exact ht)

/-- The arguments in an entry. -/
def argsOf (e : TEntry) : List Tm :=
  match e.descr with
  | .comp as => as
  | _ => []

theorem evalEntry_congr {i : Nat} {v w : Tm → Val} {e : TEntry} (h : ∀ a ∈ argsOf e, v a = w a) :
    evalEntry I i v e = evalEntry I i w e := by
  obtain ⟨k, ty, d⟩ := e
  cases d with
  | none => cases k <;> rfl
  | rat q => cases k <;> rfl
  | const n => cases k <;> rfl
  | comp as =>
    have h' : ∀ a ∈ as, v a = w a := h
    have hmap : as.map v = as.map w := List.map_congr_left h'
    unfold evalEntry
    cases k <;> try rfl
    · match as, h' with
      | [], _ => rfl
      | [_], _ => rfl
      | [_, _], _ => rfl
      | [c, t, u], h' => simp [h' c, h' t, h' u]
      | _ :: _ :: _ :: _ :: _, _ => rfl
    · match as, hmap with
      | [], _ => rfl
      | f :: as, hmap =>
        simp only [List.map_cons, List.cons.injEq] at hmap
        simp only [hmap.2]
    · simp only
      congr 1
      apply Bool.eq_iff_iff.mpr
      simp only [List.any_eq_true]
      constructor
      · rintro ⟨a, ha, hb⟩; exact ⟨a, ha, by rw [← h' a ha]; exact hb⟩
      · rintro ⟨a, ha, hb⟩; exact ⟨a, ha, by rw [h' a ha]; exact hb⟩
    · match as, h' with
      | [], _ => rfl
      | [t], h' => simp [h' t]
      | _ :: _ :: _, _ => rfl
    · match as, h' with
      | [], _ => rfl
      | [t], h' => simp [h' t]
      | _ :: _ :: _, _ => rfl
    · match as, h' with
      | [], _ => rfl
      | [_], _ => rfl
      | [a, b], h' => simp [h' a, h' b]
      | _ :: _ :: _ :: _, _ => rfl
    · match as, h' with
      | [], _ => rfl
      | [_], _ => rfl
      | [a, b], h' => simp [h' a, h' b]
      | _ :: _ :: _ :: _, _ => rfl
    · simp only
      congr 2
      exact List.map_congr_left fun a ha => by rw [h' a ha]

/-- The value of a positive term is the value of its entry, if its arguments come before it. -/
theorem den_entry {s : TermTable} {t : Tm} {e : TEntry} (he : s.entry t = some e)
    (hn : t.isNeg = false) (ha : ∀ a ∈ argsOf e, a.index < t.index) :
    den I s t = evalEntry I t.index (den I s) e := by
  have hi : t.index < s.terms.length := (List.getElem?_eq_some_iff.mp he).1
  have hsplit : s.terms = s.terms.take t.index ++ [e] ++ s.terms.drop (t.index + 1) := by
    have h1 : s.terms[t.index] = e := (List.getElem?_eq_some_iff.mp he).2
    rw [← h1, List.append_assoc, List.singleton_append, List.getElem_cons_drop, List.take_append_drop]
  have hlen : (s.terms.take t.index).length = t.index := by rw [List.length_take]; omega
  set es := s.terms.take t.index with hes
  obtain ⟨vs, hv⟩ := valsOf_prefix (I := I) (es ++ [e]) (s.terms.drop (t.index + 1))
  rw [← hsplit, valsOf_append] at hv
  have hl2 : (valsOf I es).length = t.index := by rw [valsOf_length, hlen]
  have hsame : ∀ a : Tm, a.index < t.index → den I s a = lookup (valsOf I es) a := by
    intro a ha'
    unfold den
    rw [hv, List.append_assoc]
    exact lookup_append _ _ (by rw [hl2]; exact ha')
  have h1 : den I s t = evalEntry I (valsOf I es).length (lookup (valsOf I es)) e := by
    have h0 : den I s t = (valsOf I s.terms).getD t.index (.b false) := by
      unfold den lookup; rw [hn]; rfl
    rw [h0, hv, List.getD_append _ _ _ _ (by simp [hl2]), List.getD_append_right _ _ _ _ (by omega)]
    simp [hl2]
  rw [h1, hl2]
  exact evalEntry_congr fun a ha' => (hsame a (ha a ha')).symm

theorem den_opp (s : TermTable) (t : Tm) : den I s t.opp = (den I s t).not := by
  unfold den lookup
  rw [Tm.opp_isNeg, Tm.opp_index]
  cases t.isNeg
  · rfl
  · simp only [Bool.not_true, Bool.false_eq_true, if_false, if_true]
    cases (valsOf I s.terms).getD t.index (.b false) <;> simp [Val.not]

/-! ### Well-formed tables -/

/-- Kinds that `term_to_poly` treats as variables. -/
def VarLike (s : TermTable) (t : Tm) : Prop :=
  s.kind t = .uninterpreted ∨ s.kind t = .ite ∨ s.kind t = .app

/-- The monomials are sorted by their variables, and no coefficient is 0. -/
structure PolyOK (p : APoly) : Prop where
  sorted : p.Pairwise fun a b => APoly.varLt a.1 b.1 = true
  nonzero : ∀ m ∈ p, m.2 ≠ 0

/-- The term `t` stands for the monomial `m`. -/
def MonoTerm (s : TermTable) (m : Option Tm × ℚ) (t : Tm) : Prop :=
  match m.1 with
  | none => t.isNeg = false ∧ s.entry t = some ⟨.arithConst, .real, .rat m.2⟩
  | some x => IsReal s x ∧ VarLike s x ∧
    ((m.2 = 1 ∧ t = x) ∨ (m.2 ≠ 1 ∧ ∃ c, c.isNeg = false ∧ s.entry c = some ⟨.arithConst, .real, .rat m.2⟩ ∧
      t.isNeg = false ∧ s.entry t = some ⟨.product, .real, .comp [c, x]⟩))

/-- An entry has the shape that belongs to its kind. -/
def Shape (s : TermTable) (e : TEntry) : Prop :=
  match e.kind with
  | .reserved => e.type = .null ∧ e.descr = .none
  | .constant => e.type = .bool ∧ e.descr = .const 0
  | .arithConst => e.type = .real ∧ ∃ q, e.descr = .rat q
  | .uninterpreted => e.type ≠ .null ∧ e.descr = .none
  | .ite => e.type = .real ∧ ∃ c t u, e.descr = .comp [c, t, u] ∧
      (IsBool s c ∧ c.isNeg = false ∧ c ≠ Tm.tt) ∧ IsReal s t ∧ IsReal s u
  | .app => e.type ≠ .null ∧ ∃ f as, e.descr = .comp (f :: as) ∧ (s.kind f = .uninterpreted ∧ f.isNeg = false) ∧
      ∀ a ∈ as, IsBool s a ∨ IsReal s a
  | .or => e.type = .bool ∧ ∃ as, e.descr = .comp as ∧ (2 ≤ as.length ∧ ∀ a ∈ as, a.index ≠ 1) ∧
      ∀ a ∈ as, IsBool s a
  | .arithEq => e.type = .bool ∧ ∃ t, e.descr = .comp [t] ∧ IsReal s t ∧ s.kind t ≠ .arithConst
  | .arithGe => e.type = .bool ∧ ∃ t, e.descr = .comp [t] ∧ IsReal s t ∧ s.kind t ≠ .arithConst
  | .arithBinEq => e.type = .bool ∧ ∃ a b, e.descr = .comp [a, b] ∧ IsReal s a ∧ IsReal s b ∧
      VarLike s a ∧ (VarLike s b ∨ s.kind b = .arithConst) ∧ a ≠ b
  | .product => e.type = .real ∧ ∃ c x q, e.descr = .comp [c, x] ∧ c.isNeg = false ∧
      s.entry c = some ⟨.arithConst, .real, .rat q⟩ ∧ q ≠ 0 ∧ IsReal s x ∧ VarLike s x
  | .poly => e.type = .real ∧ ∃ as p, e.descr = .comp as ∧ 2 ≤ p.length ∧ PolyOK p ∧
      List.Forall₂ (MonoTerm s) p as

/-- Tables built by the term manager. -/
structure WF (H : TermHash) (s : TermTable) : Prop where
  hc : HC H s
  tt : s.entry Tm.tt = some ⟨.constant, .bool, .const 0⟩
  zero : s.entry Tm.zero = some ⟨.arithConst, .real, .rat 0⟩
  shape : ∀ (i : Nat) (e : TEntry), s.terms[i]? = some e → Shape s e
  below : ∀ (i : Nat) (e : TEntry), s.terms[i]? = some e → ∀ a ∈ argsOf e, a.index < i
  zero_null : s.terms[0]? = some ⟨.reserved, .null, .none⟩

theorem entry_of_type {s : TermTable} {t : Tm} (h : s.type t ≠ .null) :
    ∃ e, s.entry t = some e ∧ e.type = s.type t := by
  unfold TermTable.type at h ⊢
  cases he : s.entry t with
  | none => rw [he] at h; exact absurd rfl h
  | some e => exact ⟨e, rfl, by simp⟩

theorem entry_of_kind {s : TermTable} {t : Tm} (h : s.kind t ≠ .reserved) :
    ∃ e, s.entry t = some e ∧ e.kind = s.kind t := by
  unfold TermTable.kind at h ⊢
  cases he : s.entry t with
  | none => rw [he] at h; exact absurd rfl h
  | some e => exact ⟨e, rfl, by simp⟩

theorem kind_of_entry {s : TermTable} {t : Tm} {e : TEntry} (h : s.entry t = some e) :
    s.kind t = e.kind := by unfold TermTable.kind; rw [h]; rfl

theorem type_of_entry {s : TermTable} {t : Tm} {e : TEntry} (h : s.entry t = some e) :
    s.type t = e.type := by unfold TermTable.type; rw [h]; rfl

theorem descr_of_entry {s : TermTable} {t : Tm} {e : TEntry} (h : s.entry t = some e) :
    s.descr t = e.descr := by unfold TermTable.descr; rw [h]; rfl

theorem index_lt_of_entry {s : TermTable} {t : Tm} {e : TEntry} (h : s.entry t = some e) :
    t.index < s.terms.length := (List.getElem?_eq_some_iff.mp h).1

theorem Spec.IsBool.index_lt {s : TermTable} {t : Tm} (h : IsBool s t) : t.index < s.terms.length := by
  obtain ⟨e, he, _⟩ := entry_of_type (s := s) (t := t) (by rw [h]; decide)
  exact index_lt_of_entry he

theorem Spec.IsReal.index_lt {s : TermTable} {t : Tm} (h : IsReal s t) : t.index < s.terms.length := by
  obtain ⟨e, he, _⟩ := entry_of_type (s := s) (t := t) (by rw [h.1]; decide)
  exact index_lt_of_entry he

theorem type_ext {s s' : TermTable} (h : Ext s s') {t : Tm} (ht : t.index < s.terms.length) :
    s'.type t = s.type t := by
  obtain ⟨e, he⟩ : ∃ e, s.entry t = some e := ⟨_, List.getElem?_eq_getElem ht⟩
  rw [type_of_entry he, type_of_entry (h.entry he)]

theorem kind_ext {s s' : TermTable} (h : Ext s s') {t : Tm} (ht : t.index < s.terms.length) :
    s'.kind t = s.kind t := by
  obtain ⟨e, he⟩ : ∃ e, s.entry t = some e := ⟨_, List.getElem?_eq_getElem ht⟩
  rw [kind_of_entry he, kind_of_entry (h.entry he)]

theorem kind_ext' {s s' : TermTable} (h : Ext s s') {t : Tm} {k : Kind} (hk : s.kind t = k)
    (hne : k ≠ .reserved) : s'.kind t = k := by
  obtain ⟨e, he, _⟩ := entry_of_kind (s := s) (t := t) (by rw [hk]; exact hne)
  rw [kind_ext h (index_lt_of_entry he), hk]

theorem Spec.IsBool.ext {s s' : TermTable} (h : Ext s s') {t : Tm} (ht : IsBool s t) : IsBool s' t := by
  unfold IsBool; rw [type_ext h ht.index_lt]; exact ht

theorem Spec.IsReal.ext {s s' : TermTable} (h : Ext s s') {t : Tm} (ht : IsReal s t) : IsReal s' t :=
  ⟨by rw [type_ext h ht.index_lt]; exact ht.1, ht.2⟩

theorem VarLike.ext {s s' : TermTable} (h : Ext s s') {t : Tm} (ht : VarLike s t) : VarLike s' t := by
  rcases ht with ht | ht | ht
  · exact Or.inl (kind_ext' h ht (by decide))
  · exact Or.inr (Or.inl (kind_ext' h ht (by decide)))
  · exact Or.inr (Or.inr (kind_ext' h ht (by decide)))

theorem MonoTerm.ext {s s' : TermTable} (h : Ext s s') {m : Option Tm × ℚ} {t : Tm}
    (ht : MonoTerm s m t) : MonoTerm s' m t := by
  obtain ⟨v, q⟩ := m
  cases v with
  | none => exact ⟨ht.1, h.entry ht.2⟩
  | some x =>
    obtain ⟨h1, h2, h3⟩ := ht
    refine ⟨h1.ext h, h2.ext h, h3.imp id ?_⟩
    rintro ⟨h0, c, h4, h5, h6, h7⟩
    exact ⟨h0, c, h4, h.entry h5, h6, h.entry h7⟩

theorem MonoTerm.real {s : TermTable} {m : Option Tm × ℚ} {t : Tm} (ht : MonoTerm s m t) : IsReal s t := by
  obtain ⟨v, q⟩ := m
  cases v with
  | none => exact ⟨type_of_entry ht.2, ht.1⟩
  | some x =>
    obtain ⟨h1, h2, h3⟩ := ht
    rcases h3 with ⟨_, h3⟩ | ⟨_, c, h4, h5, h6, h7⟩
    · rw [h3]; exact h1
    · exact ⟨type_of_entry h7, h6⟩

theorem forall₂_right {α β : Type} {R : α → β → Prop} {P : β → Prop} {l : List α} {l' : List β}
    (h : List.Forall₂ R l l') (hp : ∀ a b, R a b → P b) : ∀ b ∈ l', P b := by
  induction h with
  | nil => intro b hb; cases hb
  | cons h1 _ ih =>
    intro b hb
    rcases List.mem_cons.mp hb with rfl | hb
    · exact hp _ _ h1
    · exact ih b hb

theorem forall₂_imp {α β : Type} {R S : α → β → Prop} {l : List α} {l' : List β}
    (h : List.Forall₂ R l l') (hp : ∀ a b, R a b → S a b) : List.Forall₂ S l l' := by
  induction h with
  | nil => exact .nil
  | cons h1 _ ih => exact .cons (hp _ _ h1) ih

theorem Shape.ext {s s' : TermTable} (h : Ext s s') {e : TEntry} (he : Shape s e) : Shape s' e := by
  obtain ⟨k, ty, d⟩ := e
  cases k <;> simp only [Shape] at he ⊢
  case reserved => exact he
  case constant => exact he
  case arithConst => exact he
  case uninterpreted => exact he
  case ite =>
    obtain ⟨h0, c, t, u, h1, h2, h3, h4⟩ := he
    exact ⟨h0, c, t, u, h1, ⟨h2.1.ext h, h2.2⟩, h3.ext h, h4.ext h⟩
  case app =>
    obtain ⟨h0, f, as, h1, h2, h3⟩ := he
    exact ⟨h0, f, as, h1, ⟨kind_ext' h h2.1 (by decide), h2.2⟩, fun a ha => (h3 a ha).imp (·.ext h) (·.ext h)⟩
  case or =>
    obtain ⟨h0, as, h1, hl, h2⟩ := he
    exact ⟨h0, as, h1, hl, fun a ha => (h2 a ha).ext h⟩
  case arithEq =>
    obtain ⟨h0, t, h1, h2, h3⟩ := he
    exact ⟨h0, t, h1, h2.ext h, by rw [kind_ext h h2.index_lt]; exact h3⟩
  case arithGe =>
    obtain ⟨h0, t, h1, h2, h3⟩ := he
    exact ⟨h0, t, h1, h2.ext h, by rw [kind_ext h h2.index_lt]; exact h3⟩
  case arithBinEq =>
    obtain ⟨h0, a, b, h1, h2, h3, h4, h5, h6⟩ := he
    exact ⟨h0, a, b, h1, h2.ext h, h3.ext h, h4.ext h,
      h5.imp (·.ext h) (fun h7 => kind_ext' h h7 (by decide)), h6⟩
  case product =>
    obtain ⟨h0, c, x, q, h1, h2, h3, h6, h4, h5⟩ := he
    exact ⟨h0, c, x, q, h1, h2, h.entry h3, h6, h4.ext h, h5.ext h⟩
  case poly =>
    obtain ⟨h0, as, p, h1, h2, h3, h4⟩ := he
    exact ⟨h0, as, p, h1, h2, h3, forall₂_imp h4 fun _ _ hm => hm.ext h⟩

/-- All arguments of an entry with a proper shape are terms of the table. -/
theorem Shape.args_lt {s : TermTable} {e : TEntry} (he : Shape s e) :
    ∀ a ∈ argsOf e, a.index < s.terms.length := by
  obtain ⟨k, ty, d⟩ := e
  have kl : ∀ {t : Tm} {k : Kind}, s.kind t = k → k ≠ .reserved → t.index < s.terms.length := by
    intro t k hk hne
    obtain ⟨e, he, _⟩ := entry_of_kind (s := s) (t := t) (by rw [hk]; exact hne)
    exact index_lt_of_entry he
  cases k <;> simp only [Shape] at he
  case reserved => rw [he.2]; simp [argsOf]
  case constant => rw [he.2]; simp [argsOf]
  case arithConst => obtain ⟨_, q, h⟩ := he; rw [h]; simp [argsOf]
  case uninterpreted => rw [he.2]; simp [argsOf]
  case ite =>
    obtain ⟨h0, c, t, u, h1, h2, h3, h4⟩ := he
    rw [h1]
    simp only [argsOf, List.mem_cons, List.not_mem_nil, or_false]
    rintro a (rfl | rfl | rfl)
    exacts [h2.1.index_lt, h3.index_lt, h4.index_lt]
  case app =>
    obtain ⟨h0, f, as, h1, h2, h3⟩ := he
    rw [h1]
    simp only [argsOf, List.mem_cons]
    rintro a (rfl | ha)
    · exact kl h2.1 (by decide)
    · exact (h3 a ha).elim (·.index_lt) (·.index_lt)
  case or =>
    obtain ⟨h0, as, h1, _, h2⟩ := he
    rw [h1]
    exact fun a ha => (h2 a ha).index_lt
  case arithEq =>
    obtain ⟨h0, t, h1, h2, _⟩ := he
    rw [h1]; simp only [argsOf, List.mem_singleton]
    rintro a rfl; exact h2.index_lt
  case arithGe =>
    obtain ⟨h0, t, h1, h2, _⟩ := he
    rw [h1]; simp only [argsOf, List.mem_singleton]
    rintro a rfl; exact h2.index_lt
  case arithBinEq =>
    obtain ⟨h0, a, b, h1, h2, h3, _⟩ := he
    rw [h1]
    simp only [argsOf, List.mem_cons, List.not_mem_nil, or_false]
    rintro a (rfl | rfl)
    exacts [h2.index_lt, h3.index_lt]
  case product =>
    obtain ⟨h0, c, x, q, h1, h2, h3, h6, h4, h5⟩ := he
    rw [h1]
    simp only [argsOf, List.mem_cons, List.not_mem_nil, or_false]
    rintro a (rfl | rfl)
    exacts [index_lt_of_entry h3, h4.index_lt]
  case poly =>
    obtain ⟨h0, as, p, h1, h2, h3, h4⟩ := he
    rw [h1]
    exact forall₂_right h4 fun _ _ hm => hm.real.index_lt

/-- The terms are appended. -/
theorem WF.append {H : TermHash} {s s' : TermTable} (h : WF H s) (hc : HC H s') {e : TEntry}
    (ht : s'.terms = s.terms ++ [e]) (he : Shape s e) : WF H s' := by
  have hext : Ext s s' := ⟨[e], ht⟩
  have key : ∀ (i : Nat) (e' : TEntry), s'.terms[i]? = some e' →
      s.terms[i]? = some e' ∨ (i = s.terms.length ∧ e' = e) := by
    intro i e' hi
    rw [ht] at hi
    rcases Nat.lt_trichotomy i s.terms.length with hl | hl | hl
    · rw [List.getElem?_append_left hl] at hi; exact Or.inl hi
    · subst hl; simp at hi; exact Or.inr ⟨rfl, hi.symm⟩
    · rw [List.getElem?_eq_none (by simp only [List.length_append, List.length_singleton]; omega)] at hi
      cases hi
  refine ⟨hc, hext.entry h.tt, hext.entry h.zero, ?_, ?_, ?_⟩
  · intro i e' hi
    rcases key i e' hi with h1 | ⟨_, rfl⟩
    · exact (h.shape i e' h1).ext hext
    · exact he.ext hext
  · intro i e' hi
    rcases key i e' hi with h1 | ⟨rfl, rfl⟩
    · exact h.below i e' h1
    · exact he.args_lt
  · exact hext.entry (t := ⟨0⟩) h.zero_null

/-- The value of a term of a well-formed table. -/
theorem WF.den {H : TermHash} {s : TermTable} (h : WF H s) {t : Tm} {e : TEntry}
    (he : s.entry t = some e) (hn : t.isNeg = false) :
    Spec.den I s t = evalEntry I t.index (Spec.den I s) e :=
  den_entry he hn (h.below t.index e he)

/-- Boolean terms have truth values. -/
theorem WF.den_bool {H : TermHash} {s : TermTable} (h : WF H s) {t : Tm} (ht : IsBool s t) :
    Spec.den I s t = .b (denB I s t) := by
  suffices hp : ∀ u : Tm, u.isNeg = false → IsBool s u → ∃ v, Spec.den I s u = .b v by
    have : ∃ v, Spec.den I s t = .b v := by
      cases hn : t.isNeg with
      | false => exact hp t hn ht
      | true =>
        obtain ⟨v, hv⟩ := hp t.opp (by rw [Tm.opp_isNeg, hn]; rfl)
          (by unfold IsBool TermTable.type TermTable.entry; rw [Tm.opp_index]; exact ht)
        rw [den_opp] at hv
        refine ⟨!v, ?_⟩
        cases hd : Spec.den I s t with
        | b w => rw [hd] at hv; simp only [Val.not, Val.b.injEq] at hv; rw [← hv, Bool.not_not]
        | q w => rw [hd] at hv; simp [Val.not] at hv
    obtain ⟨v, hv⟩ := this
    unfold denB; rw [hv]; rfl
  intro u hn hu
  obtain ⟨e, he, hty⟩ := entry_of_type (s := s) (t := u) (by rw [hu]; decide)
  rw [hu] at hty
  rw [h.den he hn]
  have hs := h.shape _ _ he
  obtain ⟨k, ty, d⟩ := e
  simp only at hty
  subst hty
  cases k <;> simp only [Shape] at hs
  case reserved => exact absurd hs.1 (by decide)
  case constant => rw [hs.2]; exact ⟨_, rfl⟩
  case arithConst => exact absurd hs.1 (by decide)
  case uninterpreted => rw [hs.2]; exact ⟨_, rfl⟩
  case ite => exact absurd hs.1 (by decide)
  case app => obtain ⟨_, f, as, h1, _⟩ := hs; rw [h1]; exact ⟨_, rfl⟩
  case or => obtain ⟨_, as, h1, _⟩ := hs; rw [h1]; exact ⟨_, rfl⟩
  case arithEq => obtain ⟨_, as, h1, _⟩ := hs; rw [h1]; exact ⟨_, rfl⟩
  case arithGe => obtain ⟨_, as, h1, _⟩ := hs; rw [h1]; exact ⟨_, rfl⟩
  case arithBinEq => obtain ⟨_, a, b, h1, _⟩ := hs; rw [h1]; exact ⟨_, rfl⟩
  case product => exact absurd hs.1 (by decide)
  case poly => exact absurd hs.1 (by decide)

theorem denB_opp {H : TermHash} {s : TermTable} (h : WF H s) {t : Tm} (ht : IsBool s t) :
    denB I s t.opp = !denB I s t := by
  unfold denB
  rw [den_opp, h.den_bool ht]; rfl

theorem Spec.IsBool.opp {s : TermTable} {t : Tm} (h : IsBool s t) : IsBool s t.opp := by
  unfold IsBool TermTable.type TermTable.entry; rw [Tm.opp_index]; exact h

theorem WF.tt_bool {H : TermHash} {s : TermTable} (h : WF H s) : IsBool s Tm.tt := type_of_entry h.tt

theorem WF.ff_bool {H : TermHash} {s : TermTable} (h : WF H s) : IsBool s Tm.ff := h.tt_bool.opp

theorem WF.denB_tt {H : TermHash} {s : TermTable} (h : WF H s) : denB I s Tm.tt = true := by
  unfold denB; rw [h.den h.tt rfl]; rfl

theorem WF.denB_ff {H : TermHash} {s : TermTable} (h : WF H s) : denB I s Tm.ff = false := by
  have := denB_opp (I := I) h h.tt_bool
  rw [h.denB_tt] at this
  exact this

theorem WF.zero_real {H : TermHash} {s : TermTable} (h : WF H s) : IsReal s Tm.zero :=
  ⟨type_of_entry h.zero, rfl⟩

theorem WF.denQ_zero {H : TermHash} {s : TermTable} (h : WF H s) : denQ I s Tm.zero = 0 := by
  unfold denQ; rw [h.den h.zero rfl]; rfl

theorem init_wf (H : TermHash) : WF H (TermTable.init H) := by
  have ht : (TermTable.init H).terms = [⟨.reserved, .null, .none⟩, ⟨.constant, .bool, .const 0⟩,
      ⟨.arithConst, .real, .rat 0⟩] := by
    unfold TermTable.init constantTerm arithConstant TermTable.get
    simp [construct, entry, Tm.positive, Tm.index]
  refine ⟨init_hc H, by unfold entry; rw [ht]; rfl, by unfold entry; rw [ht]; rfl, ?_, ?_, by rw [ht]; rfl⟩
  · intro i e hi
    rw [ht] at hi
    match i, hi with
    | 0, hi => cases hi; exact ⟨rfl, rfl⟩
    | 1, hi => cases hi; exact ⟨rfl, rfl⟩
    | 2, hi => cases hi; exact ⟨rfl, 0, rfl⟩
    | i + 3, hi => cases hi
  · intro i e hi
    rw [ht] at hi
    match i, hi with
    | 0, hi => cases hi; intro a ha; cases ha
    | 1, hi => cases hi; intro a ha; cases ha
    | 2, hi => cases hi; intro a ha; cases ha
    | i + 3, hi => cases hi

/-! ### The core construction -/

/-- The result of a construction with a proper entry: the table stays well-formed, and the value of the
term is the value of the entry. -/
theorem get_wf {H : TermHash} {s : TermTable} (h : WF H s) {e : TEntry} (hc : Consed e) (he : Shape s e) :
    let r := s.get (hashOf H e) e
    WF H r.1 ∧ Ext s r.1 ∧ r.1.entry r.2 = some e ∧ r.2.isNeg = false := by
  intro r
  obtain ⟨h1, h2, h3, h4, h5⟩ := get_spec (H := H) h.hc hc
  refine ⟨?_, h2, h3, h4⟩
  rcases h5 with ⟨h5, _⟩ | ⟨h5, _⟩
  · show WF H (s.get (hashOf H e) e).1
    rw [h5]; exact h
  · exact h.append h1 h5 he

theorem composite_wf {H : TermHash} {s : TermTable} (h : WF H s) {k : Kind} {ty : Ty} {as : List Tm}
    (hk : k ≠ .reserved ∧ k ≠ .uninterpreted) (he : Shape s ⟨k, ty, .comp as⟩) :
    let r := s.composite H k ty as
    WF H r.1 ∧ Ext s r.1 ∧ r.1.entry r.2 = some ⟨k, ty, .comp as⟩ ∧ r.2.isNeg = false :=
  get_wf (e := ⟨k, ty, .comp as⟩) h hk he

theorem arithConstant_wf {H : TermHash} {s : TermTable} (h : WF H s) (q : ℚ) :
    let r := s.arithConstant H q
    WF H r.1 ∧ Ext s r.1 ∧ r.1.entry r.2 = some ⟨.arithConst, .real, .rat q⟩ ∧ r.2.isNeg = false :=
  get_wf (e := ⟨.arithConst, .real, .rat q⟩) h
    ⟨fun h => Kind.noConfusion h, fun h => Kind.noConfusion h⟩ ⟨rfl, q, rfl⟩

theorem fresh_wf {H : TermHash} {s : TermTable} (h : WF H s) {ty : Ty} (hty : ty ≠ .null) :
    let r := s.fresh ty
    WF H r.1 ∧ Ext s r.1 ∧ r.1.entry r.2 = some ⟨.uninterpreted, ty, .none⟩ ∧ r.2.isNeg = false := by
  obtain ⟨h1, h2, h3, h4, h5, _⟩ := fresh_spec (H := H) h.hc ty
  exact ⟨h.append h1 h5 ⟨hty, rfl⟩, h2, h3, h4⟩

end Yaga
