/-
Hash-consing: invariant of the term table over all histories.
-/
import Verif.Model.Terms

set_option linter.unusedSectionVars false
set_option linter.unusedVariables false
set_option linter.unusedSimpArgs false

namespace Yaga

namespace Tm

theorem index_positive (i : Nat) : (positive i).index = i := by
  unfold index positive; show i * 2 / 2 = i; omega

theorem positive_inj {i j : Nat} (h : positive i = positive j) : i = j := by
  have := congrArg index h
  simpa [index_positive] using this

theorem isNeg_positive (i : Nat) : (positive i).isNeg = false := by
  unfold isNeg positive
  exact decide_eq_false (by show ¬ (i * 2 % 2 = 1); omega)

theorem opp_index (t : Tm) : t.opp.index = t.index := by
  unfold opp index
  split <;> simp only <;> omega

theorem opp_isNeg (t : Tm) : t.opp.isNeg = !t.isNeg := by
  unfold opp isNeg
  split <;> rename_i h
  · have h1 : ((⟨t.x + 1⟩ : Tm).x % 2 = 1) := by show (t.x + 1) % 2 = 1; omega
    have h2 : ¬ (t.x % 2 = 1) := by omega
    simp [h1, h2]
  · have h1 : ¬ ((⟨t.x - 1⟩ : Tm).x % 2 = 1) := by show ¬ ((t.x - 1) % 2 = 1); omega
    have h2 : (t.x % 2 = 1) := by omega
    simp [h2]
    omega

theorem opp_opp (t : Tm) : t.opp.opp = t := by
  have key : t.opp.opp.x = t.x := by
    by_cases h : t.x % 2 = 0
    · have h1 : t.opp = ⟨t.x + 1⟩ := by unfold opp; rw [if_pos h]
      rw [h1]; unfold opp
      rw [if_neg (by show ¬ ((t.x + 1) % 2 = 0); omega)]
      simp
    · have h1 : t.opp = ⟨t.x - 1⟩ := by unfold opp; rw [if_neg h]
      rw [h1]; unfold opp
      rw [if_pos (by show (t.x - 1) % 2 = 0; omega)]
      show t.x - 1 + 1 = t.x
      omega
  cases t; cases h : (Tm.opp (Tm.opp _)); simp_all

theorem opp_ne (t : Tm) : t.opp ≠ t := by
  intro h
  have := opp_isNeg t
  rw [h] at this
  cases hb : t.isNeg <;> rw [hb] at this <;> exact absurd this (by decide)

/-- A term that is not negated is the positive term of its index. -/
theorem eq_positive {t : Tm} (h : t.isNeg = false) : t = positive t.index := by
  unfold isNeg at h
  have h' : ¬ (t.x % 2 = 1) := by simpa using h
  have : t.x = t.x / 2 * 2 := by omega
  cases t
  unfold positive index
  exact congrArg Tm.mk this

end Tm

namespace TermTable

/-- The first table is an initial part of the second one. -/
def Ext (s s' : TermTable) : Prop := ∃ l, s'.terms = s.terms ++ l

theorem Ext.refl (s : TermTable) : Ext s s := ⟨[], by simp⟩

theorem Ext.trans {a b c : TermTable} (h1 : Ext a b) (h2 : Ext b c) : Ext a c := by
  obtain ⟨l1, h1⟩ := h1
  obtain ⟨l2, h2⟩ := h2
  exact ⟨l1 ++ l2, by rw [h2, h1, List.append_assoc]⟩

theorem Ext.getElem? {s s' : TermTable} (h : Ext s s') {i : Nat} {e : TEntry}
    (he : s.terms[i]? = some e) : s'.terms[i]? = some e := by
  obtain ⟨l, h⟩ := h
  rw [h]
  have hi := (List.getElem?_eq_some_iff.mp he).1
  rw [List.getElem?_append_left hi, he]

theorem Ext.length {s s' : TermTable} (h : Ext s s') : s.terms.length ≤ s'.terms.length := by
  obtain ⟨l, h⟩ := h
  rw [h]; simp

theorem Ext.entry {s s' : TermTable} (h : Ext s s') {t : Tm} {e : TEntry}
    (he : s.entry t = some e) : s'.entry t = some e := h.getElem? he

/-- Entries for which the hash table is used. -/
def Consed (e : TEntry) : Prop := e.kind ≠ .reserved ∧ e.kind ≠ .uninterpreted

instance (e : TEntry) : Decidable (Consed e) := by unfold Consed; infer_instance

/-- The hash with which an entry is looked up. -/
def hashOf (H : TermHash) (e : TEntry) : Nat :=
  match e.descr with
  | .comp as => H.comp e.kind as
  | .rat q => H.rat q
  | .const i => H.const e.type i
  | .none => 0

/-- The hash table lists exactly the entries it is used for, and none of them occurs twice. -/
structure HC (H : TermHash) (s : TermTable) : Prop where
  complete : ∀ (i : Nat) (e : TEntry), s.terms[i]? = some e → Consed e →
    (hashOf H e, Tm.positive i) ∈ s.known
  sound : ∀ k ∈ s.known, ∃ (i : Nat) (e : TEntry), k.2 = Tm.positive i ∧ s.terms[i]? = some e ∧ Consed e
  unique : ∀ (i j : Nat) (e : TEntry), s.terms[i]? = some e → s.terms[j]? = some e → Consed e → i = j

theorem entry_positive (s : TermTable) (i : Nat) : s.entry (Tm.positive i) = s.terms[i]? := by
  unfold entry; rw [Tm.index_positive]

/-- What `get` does: it finds the entry, or appends it. -/
theorem get_spec {H : TermHash} {s : TermTable} (h : HC H s) {e : TEntry} (hc : Consed e) :
    let r := s.get (hashOf H e) e
    HC H r.1 ∧ Ext s r.1 ∧ r.1.entry r.2 = some e ∧ r.2.isNeg = false ∧
    ((r.1 = s ∧ r.2.index < s.terms.length) ∨
      (r.1.terms = s.terms ++ [e] ∧ r.2 = Tm.positive s.terms.length)) := by
  intro r
  unfold r get
  cases hf : s.known.find? (fun k => k.1 == hashOf H e && decide (s.entry k.2 = some e)) with
  | some k =>
    simp only
    have hk := List.find?_some hf
    have hm := List.mem_of_find?_eq_some hf
    simp only [Bool.and_eq_true, decide_eq_true_eq] at hk
    obtain ⟨i, e', hi, he', _⟩ := h.sound k hm
    refine ⟨h, Ext.refl s, hk.2, by rw [hi, Tm.isNeg_positive], Or.inl ⟨trivial, ?_⟩⟩
    rw [hi, Tm.index_positive]
    exact (List.getElem?_eq_some_iff.mp he').1
  | none =>
    simp only [construct]
    have hnone : ∀ (i : Nat), s.terms[i]? ≠ some e := by
      intro i hi
      have hm := h.complete i e hi hc
      have := List.find?_eq_none.mp hf _ hm
      apply this
      simp [entry_positive, hi]
    have hlast : (s.terms ++ [e])[s.terms.length]? = some e := by simp
    have hsplit : ∀ (i : Nat) (e' : TEntry), (s.terms ++ [e])[i]? = some e' →
        s.terms[i]? = some e' ∨ (i = s.terms.length ∧ e' = e) := by
      intro i e' hi
      rcases Nat.lt_trichotomy i s.terms.length with hl | hl | hl
      · rw [List.getElem?_append_left hl] at hi; exact Or.inl hi
      · subst hl; rw [hlast] at hi; exact Or.inr ⟨rfl, (Option.some.inj hi).symm⟩
      · rw [List.getElem?_eq_none (by simp only [List.length_append, List.length_singleton]; omega)] at hi; cases hi
    have hext : ∀ {i : Nat} {e' : TEntry}, s.terms[i]? = some e' → (s.terms ++ [e])[i]? = some e' := by
      intro i e' hi
      rw [List.getElem?_append_left (List.getElem?_eq_some_iff.mp hi).1, hi]
    refine ⟨⟨?_, ?_, ?_⟩, ⟨[e], rfl⟩, ?_, Tm.isNeg_positive _, Or.inr ⟨trivial, trivial⟩⟩
    · intro i e' hi hc'
      rcases hsplit i e' hi with h1 | ⟨h1, h2⟩
      · exact List.mem_append_left _ (h.complete i e' h1 hc')
      · subst h1; subst h2; simp
    · intro k hk
      rcases List.mem_append.mp hk with hk | hk
      · obtain ⟨i, e', h1, h2, h3⟩ := h.sound k hk
        exact ⟨i, e', h1, hext h2, h3⟩
      · simp only [List.mem_singleton] at hk
        subst hk
        exact ⟨s.terms.length, e, rfl, hlast, hc⟩
    · intro i j e' hi hj hc'
      rcases hsplit i e' hi with h1 | ⟨h1, h2⟩ <;> rcases hsplit j e' hj with h3 | ⟨h3, h4⟩
      · exact h.unique i j e' h1 h3 hc'
      · subst h4; exact absurd h1 (hnone i)
      · subst h2; exact absurd h3 (hnone j)
      · rw [h1, h3]
    · rw [entry_positive]; exact hlast

theorem fresh_spec {H : TermHash} {s : TermTable} (h : HC H s) (ty : Ty) :
    let r := s.fresh ty
    HC H r.1 ∧ Ext s r.1 ∧ r.1.entry r.2 = some ⟨.uninterpreted, ty, .none⟩ ∧ r.2.isNeg = false ∧
    r.1.terms = s.terms ++ [⟨.uninterpreted, ty, .none⟩] ∧ r.2 = Tm.positive s.terms.length := by
  intro r
  unfold r fresh construct
  have hlast : (s.terms ++ [(⟨.uninterpreted, ty, .none⟩ : TEntry)])[s.terms.length]? =
      some ⟨.uninterpreted, ty, .none⟩ := by simp
  have hsplit : ∀ (i : Nat) (e' : TEntry),
      (s.terms ++ [(⟨.uninterpreted, ty, .none⟩ : TEntry)])[i]? = some e' → Consed e' →
      s.terms[i]? = some e' := by
    intro i e' hi hc
    rcases Nat.lt_trichotomy i s.terms.length with hl | hl | hl
    · rwa [List.getElem?_append_left hl] at hi
    · subst hl; rw [hlast] at hi
      cases hi; exact absurd rfl hc.2
    · rw [List.getElem?_eq_none (by simp only [List.length_append, List.length_singleton]; omega)] at hi; cases hi
  refine ⟨⟨?_, ?_, ?_⟩, ⟨_, rfl⟩, ?_, Tm.isNeg_positive _, rfl, rfl⟩
  · intro i e' hi hc
    exact h.complete i e' (hsplit i e' hi hc) hc
  · intro k hk
    obtain ⟨i, e', h1, h2, h3⟩ := h.sound k hk
    refine ⟨i, e', h1, ?_, h3⟩
    show (s.terms ++ _)[i]? = _
    rw [List.getElem?_append_left (List.getElem?_eq_some_iff.mp h2).1, h2]
  · intro i j e' hi hj hc
    exact h.unique i j e' (hsplit i e' hi hc) (hsplit j e' hj hc) hc
  · rw [entry_positive]; exact hlast

theorem init_hc (H : TermHash) : HC H (init H) := by
  unfold init constantTerm arithConstant
  have h0 : HC H ⟨[⟨.reserved, .null, .none⟩], []⟩ := by
    refine ⟨?_, ?_, ?_⟩
    · intro i e hi hc
      match i with
      | 0 => simp at hi; subst hi; exact absurd rfl hc.1
      | i + 1 => simp at hi
    · intro k hk; cases hk
    · intro i j e hi hj hc
      match i, j with
      | 0, 0 => rfl
      | 0, j + 1 => simp at hj
      | i + 1, _ => simp at hi
  have h1 := (get_spec (H := H) h0 (e := ⟨.constant, .bool, .const 0⟩) (by decide)).1
  exact (get_spec h1 (e := ⟨.arithConst, .real, .rat 0⟩) (by decide)).1

/-- The entry a construction asks for, given the terms of constants. -/
def askedEntry (cst : ℚ → Tm) : TermOp → TEntry
  | .or as => ⟨.or, .bool, .comp as⟩
  | .constant ty i => ⟨.constant, ty, .const i⟩
  | .rational q => ⟨.arithConst, .real, .rat q⟩
  | .product c x => ⟨.product, .real, .comp [cst c, x]⟩
  | .poly as => ⟨.poly, .real, .comp as⟩
  | .geqZero t => ⟨.arithGe, .bool, .comp [t]⟩
  | .eqZero t => ⟨.arithEq, .bool, .comp [t]⟩
  | .binEq a b => ⟨.arithBinEq, .bool, .comp [a, b]⟩
  | .ite c t e => ⟨.ite, .real, .comp [c, t, e]⟩
  | .app ty as => ⟨.app, ty, .comp as⟩
  | .fresh ty => ⟨.uninterpreted, ty, .none⟩

theorem composite_spec {H : TermHash} {s : TermTable} (h : HC H s) {k : Kind} (ty : Ty) (as : List Tm)
    (hk : k ≠ .reserved ∧ k ≠ .uninterpreted) :
    let r := s.composite H k ty as
    HC H r.1 ∧ Ext s r.1 ∧ r.1.entry r.2 = some ⟨k, ty, .comp as⟩ ∧ r.2.isNeg = false ∧
    ((r.1 = s ∧ r.2.index < s.terms.length) ∨
      (r.1.terms = s.terms ++ [⟨k, ty, .comp as⟩] ∧ r.2 = Tm.positive s.terms.length)) :=
  get_spec (e := ⟨k, ty, .comp as⟩) h hk

theorem arithConstant_spec {H : TermHash} {s : TermTable} (h : HC H s) (q : ℚ) :
    let r := s.arithConstant H q
    HC H r.1 ∧ Ext s r.1 ∧ r.1.entry r.2 = some ⟨.arithConst, .real, .rat q⟩ ∧ r.2.isNeg = false ∧
    ((r.1 = s ∧ r.2.index < s.terms.length) ∨
      (r.1.terms = s.terms ++ [⟨.arithConst, .real, .rat q⟩] ∧ r.2 = Tm.positive s.terms.length)) :=
  get_spec (e := ⟨.arithConst, .real, .rat q⟩) h ⟨fun h => Kind.noConfusion h, fun h => Kind.noConfusion h⟩

/-- Every construction keeps the invariant and the old entries, and returns a term with the entry that
was asked for. -/
theorem run_spec {H : TermHash} {s : TermTable} (h : HC H s) (op : TermOp) :
    let r := op.run H s
    HC H r.1 ∧ Ext s r.1 ∧ r.2.isNeg = false ∧
    ∃ cst : ℚ → Tm, (∀ c x, op = .product c x → (cst c).isNeg = false ∧
        r.1.entry (cst c) = some ⟨.arithConst, .real, .rat c⟩) ∧
      r.1.entry r.2 = some (askedEntry cst op) := by
  intro r
  have simple : ∀ {r' : TermTable × Tm} {e : TEntry} {P : Prop}, r = r' → (∀ cst, askedEntry cst op = e) →
      (∀ c x, op ≠ .product c x) →
      (HC H r'.1 ∧ Ext s r'.1 ∧ r'.1.entry r'.2 = some e ∧ r'.2.isNeg = false ∧ P) →
      HC H r.1 ∧ Ext s r.1 ∧ r.2.isNeg = false ∧
      ∃ cst : ℚ → Tm, (∀ c x, op = .product c x → (cst c).isNeg = false ∧
          r.1.entry (cst c) = some ⟨.arithConst, .real, .rat c⟩) ∧
        r.1.entry r.2 = some (askedEntry cst op) := by
    intro r' e P hr he hp ⟨h1, h2, h3, h4, _⟩
    rw [hr]
    exact ⟨h1, h2, h4, fun _ => Tm.zero, fun c x hx => absurd hx (hp c x), by rw [h3, he]⟩
  cases op with
  | or as => exact simple rfl (fun _ => rfl) (by intros; simp) (composite_spec h .bool as (by decide))
  | constant ty i =>
    exact simple rfl (fun _ => rfl) (by intros; simp)
      (get_spec (e := ⟨.constant, ty, .const i⟩) h ⟨fun h => Kind.noConfusion h, fun h => Kind.noConfusion h⟩)
  | rational q => exact simple rfl (fun _ => rfl) (by intros; simp) (arithConstant_spec h q)
  | poly as => exact simple rfl (fun _ => rfl) (by intros; simp) (composite_spec h .real as (by decide))
  | geqZero t => exact simple rfl (fun _ => rfl) (by intros; simp) (composite_spec h .bool [t] (by decide))
  | eqZero t => exact simple rfl (fun _ => rfl) (by intros; simp) (composite_spec h .bool [t] (by decide))
  | binEq a b => exact simple rfl (fun _ => rfl) (by intros; simp) (composite_spec h .bool [a, b] (by decide))
  | ite c t e =>
    exact simple rfl (fun _ => rfl) (by intros; simp) (composite_spec h .real [c, t, e] (by decide))
  | app ty as => exact simple rfl (fun _ => rfl) (by intros; simp) (composite_spec h ty as (by decide))
  | fresh ty =>
    have := fresh_spec (H := H) h ty
    exact simple rfl (fun _ => rfl) (by intros; simp) this
  | product c x =>
    obtain ⟨h1, h2, h3, h4, _⟩ := arithConstant_spec (H := H) h c
    obtain ⟨g1, g2, g3, g4, _⟩ := composite_spec (k := .product) h1 .real [(s.arithConstant H c).2, x] (by decide)
    refine ⟨g1, h2.trans g2, g4, fun _ => (s.arithConstant H c).2, ?_, g3⟩
    intro c' x' hx
    cases hx
    exact ⟨h4, g2.entry h3⟩

theorem after_spec {H : TermHash} (ops : List TermOp) {s : TermTable} (h : HC H s) :
    HC H (s.after H ops) ∧ Ext s (s.after H ops) := by
  induction ops generalizing s with
  | nil => exact ⟨h, Ext.refl s⟩
  | cons op ops ih =>
    obtain ⟨h1, h2, _⟩ := run_spec (H := H) h op
    obtain ⟨i1, i2⟩ := ih h1
    exact ⟨i1, h2.trans i2⟩

/-- Positive terms with the same entry, for which the hash table is used, are the same term. -/
theorem HC.eq_of_entry {H : TermHash} {s : TermTable} (h : HC H s) {a b : Tm} {e : TEntry}
    (ha : s.entry a = some e) (hb : s.entry b = some e) (hc : Consed e) (na : a.isNeg = false)
    (nb : b.isNeg = false) : a = b := by
  rw [Tm.eq_positive na, Tm.eq_positive nb, h.unique a.index b.index e ha hb hc]

end TermTable
end Yaga
