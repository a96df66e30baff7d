/-
Arithmetic term construction keeps the meaning; terms and polynomials correspond.
-/
import Verif.Proofs.TermBool
import Verif.Proofs.ArithPoly
import Verif.Spec.LinTerm
import Mathlib.Tactic.FieldSimp

set_option linter.unusedSectionVars false
set_option linter.unusedVariables false
set_option linter.unusedSimpArgs false

namespace Yaga

open Spec TermTable

variable {H : TermHash} {s : TermTable}

/-- The variables of a polynomial are variable-like real terms. -/
def VarsOK (s : TermTable) (p : APoly) : Prop :=
  ∀ m ∈ p, ∀ x, m.1 = some x → IsReal s x ∧ VarLike s x

theorem VarsOK.ext {s' : TermTable} (h : Ext s s') {p : APoly} (hp : VarsOK s p) : VarsOK s' p :=
  fun m hm x hx => ⟨(hp m hm x hx).1.ext h, (hp m hm x hx).2.ext h⟩

theorem VarsOK.merge {p q : APoly} (hp : VarsOK s p) (hq : VarsOK s q) (c : ℚ) :
    VarsOK s (APoly.merge p q c) := by
  intro m hm x hx
  rcases APoly.mem_mergeLoop hm with ⟨k, hk, he⟩ | ⟨k, hk, he⟩
  · exact hp k hk x (he.trans hx)
  · exact hq k hk x (he.trans hx)

theorem VarsOK.map {p : APoly} (hp : VarsOK s p) (f : ℚ → ℚ) : VarsOK s (p.map fun m => (m.1, f m.2)) := by
  intro m hm x hx
  obtain ⟨k, hk, rfl⟩ := List.mem_map.mp hm
  exact hp k hk x hx

theorem val_congr {ρ ρ' : Tm → ℚ} {p : APoly} (h : ∀ m ∈ p, ∀ x, m.1 = some x → ρ x = ρ' x) :
    APoly.val ρ p = APoly.val ρ' p := by
  unfold APoly.val
  congr 1
  apply List.map_congr_left
  intro m hm
  congr 1
  cases hv : m.1 with
  | none => rfl
  | some x => exact h m hm x hv

theorem val_ext {s' : TermTable} (h : Ext s s') {p : APoly} (hp : VarsOK s p) (I : Interp) :
    APoly.val (denQ I s') p = APoly.val (denQ I s) p :=
  val_congr fun m hm x hx => denQ_ext h (hp m hm x hx).1 I

/-! ### Shapes of real terms -/

/-- The cases for a real term. -/
theorem real_cases (h : WF H s) {t : Tm} (ht : IsReal s t) :
    (∃ q, s.entry t = some ⟨.arithConst, .real, .rat q⟩) ∨ VarLike s t ∨
    (∃ c x q, s.entry t = some ⟨.product, .real, .comp [c, x]⟩ ∧ c.isNeg = false ∧
      s.entry c = some ⟨.arithConst, .real, .rat q⟩ ∧ q ≠ 0 ∧ IsReal s x ∧ VarLike s x) ∨
    (∃ as p, s.entry t = some ⟨.poly, .real, .comp as⟩ ∧ 2 ≤ p.length ∧ PolyOK p ∧
      List.Forall₂ (MonoTerm s) p as) := by
  obtain ⟨e, he, hty⟩ := entry_of_type (s := s) (t := t) (by rw [ht.1]; decide)
  rw [ht.1] at hty
  have hs := h.shape _ _ he
  obtain ⟨k, ty, d⟩ := e
  simp only at hty
  subst hty
  cases k <;> simp only [Shape] at hs
  case reserved => exact absurd hs.1 (by decide)
  case constant => exact absurd hs.1 (by decide)
  case arithConst => obtain ⟨_, q, hq⟩ := hs; exact Or.inl ⟨q, by rw [he, hq]⟩
  case uninterpreted => exact Or.inr (Or.inl (Or.inl (kind_of_entry he)))
  case ite => exact Or.inr (Or.inl (Or.inr (Or.inl (kind_of_entry he))))
  case app => exact Or.inr (Or.inl (Or.inr (Or.inr (kind_of_entry he))))
  case or => exact absurd hs.1 (by decide)
  case arithEq => exact absurd hs.1 (by decide)
  case arithGe => exact absurd hs.1 (by decide)
  case arithBinEq => exact absurd hs.1 (by decide)
  case product =>
    obtain ⟨_, c, x, q, h1, h2, h3, h4, h5, h6⟩ := hs
    exact Or.inr (Or.inr (Or.inl ⟨c, x, q, by rw [he, h1], h2, h3, h4, h5, h6⟩))
  case poly =>
    obtain ⟨_, as, p, h1, h2, h3, h4⟩ := hs
    exact Or.inr (Or.inr (Or.inr ⟨as, p, by rw [he, h1], h2, h3, h4⟩))

theorem constValue_of_entry {t : Tm} {q : ℚ} (h : s.entry t = some ⟨.arithConst, .real, .rat q⟩) :
    s.constValue t = q := by
  unfold constValue; rw [descr_of_entry h]

theorem product_of_entry {t c x : Tm} {q : ℚ} (h : s.entry t = some ⟨.product, .real, .comp [c, x]⟩)
    (hc : s.entry c = some ⟨.arithConst, .real, .rat q⟩) :
    s.kind t = .product ∧ s.varOfProduct t = x ∧ s.coeffOfProduct t = q := by
  have ha : s.allArgs t = [c, x] := by unfold allArgs; rw [descr_of_entry h]
  refine ⟨kind_of_entry h, by unfold varOfProduct; rw [ha]; rfl, ?_⟩
  unfold coeffOfProduct; rw [ha]; exact constValue_of_entry hc

/-- A constant term different from `zero` has a value different from 0. -/
theorem const_ne_zero (h : WF H s) {t : Tm} {q : ℚ}
    (ht : s.entry t = some ⟨.arithConst, .real, .rat q⟩) (hn : t.isNeg = false) : t ≠ Tm.zero ↔ q ≠ 0 := by
  constructor
  · intro hne hq
    subst hq
    exact hne (h.hc.eq_of_entry ht h.zero ⟨fun h => Kind.noConfusion h, fun h => Kind.noConfusion h⟩ hn rfl)
  · intro hq he
    rw [he, h.zero] at ht
    simp only [Option.some.injEq, TEntry.mk.injEq, Descr.rat.injEq, true_and] at ht
    exact hq ht.symm

/-! ### From terms to polynomials -/

theorem termToPoly_varLike {t : Tm} (ht : VarLike s t) (fuel : Nat) :
    s.termToPoly (fuel + 1) t = some [(some t, 1)] := by
  rcases ht with ht | ht | ht <;> simp only [termToPoly, ht]

theorem termToPoly_const (h : WF H s) {t : Tm} {q : ℚ}
    (ht : s.entry t = some ⟨.arithConst, .real, .rat q⟩) (hn : t.isNeg = false) (fuel : Nat) :
    s.termToPoly (fuel + 1) t = some (if q = 0 then [] else [(none, q)]) := by
  have hk : s.kind t = .arithConst := kind_of_entry ht
  simp only [termToPoly, hk, constValue_of_entry ht]
  have := const_ne_zero h ht hn
  by_cases hq : q = 0
  · rw [if_pos hq, if_neg (fun hc => (this.mp hc) hq)]
  · rw [if_neg hq, if_pos (this.mpr hq)]

theorem termToPoly_product {t c x : Tm} {q : ℚ} (ht : s.entry t = some ⟨.product, .real, .comp [c, x]⟩)
    (hc : s.entry c = some ⟨.arithConst, .real, .rat q⟩) (fuel : Nat) :
    s.termToPoly (fuel + 1) t = some [(some x, q)] := by
  obtain ⟨h1, h2, h3⟩ := product_of_entry ht hc
  simp only [termToPoly, h1, h2, h3]

theorem termToPoly_mono (h : WF H s) {m : Option Tm × ℚ} {t : Tm} (ht : MonoTerm s m t) (hm : m.2 ≠ 0)
    (fuel : Nat) : s.termToPoly (fuel + 1) t = some [m] := by
  obtain ⟨v, q⟩ := m
  cases v with
  | none => rw [termToPoly_const h ht.2 ht.1, if_neg hm]
  | some x =>
    obtain ⟨h1, h2, h3⟩ := ht
    rcases h3 with ⟨hq, h3⟩ | ⟨_, c, h4, h5, h6, h7⟩
    · rw [h3, termToPoly_varLike h2]; simp only at hq; rw [hq]
    · exact termToPoly_product h7 h5 fuel

theorem fold_children (h : WF H s) {p : APoly} {as : List Tm} (hf : List.Forall₂ (MonoTerm s) p as)
    (acc : APoly) (hok : PolyOK (acc ++ p)) (fuel : Nat) :
    as.foldl (fun acc c => acc.bind fun p => (s.termToPoly (fuel + 1) c).map fun q => APoly.merge p q 1)
      (some acc) = some (acc ++ p) := by
  induction hf generalizing acc with
  | nil => simp
  | @cons m t p as hm _ ih =>
    rw [List.foldl_cons]
    have hnz : m.2 ≠ 0 := hok.nonzero m (by simp)
    have hlt : ∀ k ∈ acc, APoly.varLt k.1 m.1 = true := by
      have := List.pairwise_append.mp hok.sorted
      intro k hk
      exact this.2.2 k hk m (by simp)
    rw [termToPoly_mono h hm hnz]
    simp only [Option.bind_some, Option.map_some, APoly.merge_snoc hlt]
    rw [ih (acc ++ [m]) (by rw [List.append_assoc]; exact hok), List.append_assoc]
    rfl

/-- The term `t` stands for the polynomial `p`. -/
def TermFor (s : TermTable) (p : APoly) (t : Tm) : Prop :=
  match p with
  | [] => t = Tm.zero
  | [m] => MonoTerm s m t
  | p => t.isNeg = false ∧ ∃ as, s.entry t = some ⟨.poly, .real, .comp as⟩ ∧ List.Forall₂ (MonoTerm s) p as

/-- A product with the coefficient 1. -/
def UnitProduct (s : TermTable) (t : Tm) : Prop := s.kind t = .product ∧ s.coeffOfProduct t = 1

theorem toPoly_of_termFor (h : WF H s) {p : APoly} {t : Tm} (hp : PolyOK p) (ht : TermFor s p t) :
    s.toPoly t = some p := by
  unfold toPoly
  match p, hp, ht with
  | [], _, ht =>
    have ht : t = Tm.zero := ht
    rw [ht, termToPoly_const h h.zero rfl, if_pos rfl]
  | [m], hp, ht => exact termToPoly_mono h ht (hp.nonzero m (by simp)) 1
  | a :: b :: p, hp, ht =>
    obtain ⟨hn, as, he, hf⟩ := ht
    have hk : s.kind t = .poly := kind_of_entry he
    have ha : s.allArgs t = as := by unfold allArgs; rw [descr_of_entry he]
    rw [termToPoly]
    simp only [hk, ha]
    exact fold_children h hf [] hp 0

/-- The polynomial of a real term. -/
theorem toPoly_spec (h : WF H s) {t : Tm} (ht : IsReal s t) :
    ∃ p, s.toPoly t = some p ∧ PolyOK p ∧ VarsOK s p ∧ (UnitProduct s t ∨ TermFor s p t) := by
  rcases real_cases h ht with ⟨q, he⟩ | hv | ⟨c, x, q, he, hc, hce, hq, hx, hxv⟩ | ⟨as, p, he, hl, hp, hf⟩
  · refine ⟨if q = 0 then [] else [(none, q)], termToPoly_const h he ht.2 1, ?_, ?_, Or.inr ?_⟩
    · split
      · exact APoly.nil_ok
      · rename_i hq; exact APoly.singleton_ok hq
    · split
      · intro m hm; cases hm
      · intro m hm x hx; simp only [List.mem_singleton] at hm; rw [hm] at hx; cases hx
    · split
      · rename_i hq
        exact not_not.mp fun hne => (const_ne_zero h he ht.2).mp hne hq
      · exact ⟨ht.2, he⟩
  · refine ⟨[(some t, 1)], termToPoly_varLike hv 1, APoly.singleton_ok one_ne_zero, ?_,
      Or.inr ⟨ht, hv, Or.inl ⟨rfl, rfl⟩⟩⟩
    intro m hm x hx
    simp only [List.mem_singleton] at hm
    rw [hm] at hx
    cases hx
    exact ⟨ht, hv⟩
  · refine ⟨[(some x, q)], termToPoly_product he hce 1, APoly.singleton_ok hq, ?_, ?_⟩
    · intro m hm y hy
      simp only [List.mem_singleton] at hm
      rw [hm] at hy
      cases hy
      exact ⟨hx, hxv⟩
    · by_cases h1 : q = 1
      · left
        obtain ⟨g1, g2, g3⟩ := product_of_entry he hce
        exact ⟨g1, by rw [g3, h1]⟩
      · exact Or.inr ⟨hx, hxv, Or.inr ⟨h1, c, hc, hce, ht.2, he⟩⟩
  · have htf : TermFor s p t := by
      match p, hl with
      | a :: b :: p, _ => exact ⟨ht.2, as, he, hf⟩
      | [_], hl => simp at hl
      | [], hl => simp at hl
    refine ⟨p, toPoly_of_termFor h hp htf, hp, ?_, Or.inr htf⟩
    clear htf hl he
    clear hp
    induction hf with
    | nil => intro m hm; cases hm
    | @cons m t p as hm _ ih =>
      intro k hk x hx
      rcases List.mem_cons.mp hk with rfl | hk
      · obtain ⟨v, q⟩ := k
        simp only at hx
        subst hx
        exact ⟨hm.1, hm.2.1⟩
      · exact ih k hk x hx

/-! ### Values -/

theorem denQ_const (h : WF H s) {t : Tm} {q : ℚ} (ht : s.entry t = some ⟨.arithConst, .real, .rat q⟩)
    (hn : t.isNeg = false) (I : Interp) : denQ I s t = q := by
  unfold denQ; rw [h.den ht hn]; rfl

theorem denQ_product (h : WF H s) {t c x : Tm} {q : ℚ}
    (ht : s.entry t = some ⟨.product, .real, .comp [c, x]⟩) (hn : t.isNeg = false)
    (hc : s.entry c = some ⟨.arithConst, .real, .rat q⟩) (hcn : c.isNeg = false) (I : Interp) :
    denQ I s t = q * denQ I s x := by
  have : denQ I s t = denQ I s c * denQ I s x := by
    unfold denQ; rw [h.den ht hn]; rfl
  rw [this, denQ_const h hc hcn]

theorem denQ_mono (h : WF H s) {m : Option Tm × ℚ} {t : Tm} (ht : MonoTerm s m t) (I : Interp) :
    denQ I s t = m.2 * APoly.atom (denQ I s) m.1 := by
  obtain ⟨v, q⟩ := m
  cases v with
  | none => rw [denQ_const h ht.2 ht.1]; simp [APoly.atom]
  | some x =>
    obtain ⟨h1, h2, h3⟩ := ht
    rcases h3 with ⟨hq, h3⟩ | ⟨_, c, h4, h5, h6, h7⟩
    · simp only at hq; rw [h3, hq]; simp [APoly.atom]
    · exact denQ_product h h7 h6 h5 h4 I

theorem sum_monos (h : WF H s) {p : APoly} {as : List Tm} (hf : List.Forall₂ (MonoTerm s) p as)
    (I : Interp) : (as.map (denQ I s)).sum = APoly.val (denQ I s) p := by
  induction hf with
  | nil => rfl
  | cons hm _ ih => rw [List.map_cons, List.sum_cons, ih, APoly.val_cons, denQ_mono h hm]

theorem denQ_termFor (h : WF H s) {p : APoly} {t : Tm} (ht : TermFor s p t) (I : Interp) :
    denQ I s t = APoly.val (denQ I s) p := by
  match p, ht with
  | [], ht => have ht : t = Tm.zero := ht; rw [ht, h.denQ_zero]; rfl
  | [m], ht => rw [denQ_mono h ht]; simp
  | a :: b :: p, ht =>
    obtain ⟨hn, as, he, hf⟩ := ht
    rw [← sum_monos h hf]
    unfold denQ
    rw [h.den he hn]
    rfl

/-- The polynomial of a term has the value of the term. -/
theorem toPoly_val (h : WF H s) {t : Tm} (ht : IsReal s t) {p : APoly} (hp : s.toPoly t = some p)
    (I : Interp) : APoly.val (denQ I s) p = denQ I s t := by
  obtain ⟨p', hp', _, _, hc⟩ := toPoly_spec h ht
  rw [hp'] at hp
  cases hp
  rcases hc with ⟨hk, h1⟩ | hc
  · rcases real_cases h ht with ⟨q, he⟩ | hv | ⟨c, x, q, he, hc, hce, hq, hx, hxv⟩ | ⟨as, p, he, hl, hp, hf⟩
    · rw [kind_of_entry he] at hk; cases hk
    · rcases hv with hv | hv | hv <;> rw [hv] at hk <;> cases hk
    · have h2 : s.toPoly t = some [(some x, q)] := termToPoly_product he hce 1
      rw [hp'] at h2
      cases h2
      rw [denQ_product h he ht.2 hce hc]
      simp [APoly.atom]
    · rw [kind_of_entry he] at hk; cases hk
  · exact (denQ_termFor h hc I).symm

/-! ### From polynomials to terms -/

theorem arithConstant_res (h : WF H s) (q : ℚ) : QRes H s (s.arithConstant H q) (fun _ => q) := by
  obtain ⟨h1, h2, h3, h4⟩ := arithConstant_wf h q
  exact ⟨h1, h2, ⟨type_of_entry h3, h4⟩, fun I => denQ_const h1 h3 h4 I⟩

theorem arithProduct_spec (h : WF H s) {q : ℚ} (hq : q ≠ 0) {x : Tm} (hx : IsReal s x) (hv : VarLike s x) :
    let r := s.arithProduct H q x
    WF H r.1 ∧ Ext s r.1 ∧ ∃ c, c.isNeg = false ∧ r.1.entry c = some ⟨.arithConst, .real, .rat q⟩ ∧
      r.2.isNeg = false ∧ r.1.entry r.2 = some ⟨.product, .real, .comp [c, x]⟩ := by
  intro r
  obtain ⟨h1, h2, h3, h4⟩ := arithConstant_wf h q
  obtain ⟨g1, g2, g3, g4⟩ := composite_wf (k := .product) (ty := .real)
    (as := [(s.arithConstant H q).2, x]) h1 (by decide)
    ⟨rfl, (s.arithConstant H q).2, x, q, rfl, h4, h3, hq, hx.ext h2, hv.ext h2⟩
  exact ⟨g1, h2.trans g2, (s.arithConstant H q).2, h4, g2.entry h3, g4, g3⟩

theorem arithProduct_res (h : WF H s) {q : ℚ} (hq : q ≠ 0) {x : Tm} (hx : IsReal s x) (hv : VarLike s x) :
    QRes H s (s.arithProduct H q x) (fun I => q * denQ I s x) := by
  obtain ⟨h1, h2, c, h3, h4, h5, h6⟩ := arithProduct_spec h hq hx hv
  refine ⟨h1, h2, ⟨type_of_entry h6, h5⟩, fun I => ?_⟩
  rw [denQ_product h1 h6 h5 h4 h3, denQ_ext h2 hx]

theorem monoToTerm_spec (h : WF H s) {m : Option Tm × ℚ} (hm : m.2 ≠ 0)
    (hv : ∀ x, m.1 = some x → IsReal s x ∧ VarLike s x) :
    WF H (s.monoToTerm H m).1 ∧ Ext s (s.monoToTerm H m).1 ∧
      MonoTerm (s.monoToTerm H m).1 m (s.monoToTerm H m).2 := by
  obtain ⟨v, q⟩ := m
  cases v with
  | none =>
    obtain ⟨h1, h2, h3, h4⟩ := arithConstant_wf h q
    exact ⟨h1, h2, h4, h3⟩
  | some x =>
    obtain ⟨hx, hxv⟩ := hv x rfl
    unfold monoToTerm
    simp only
    by_cases hq : q = 1
    · rw [if_pos hq]
      exact ⟨h, Ext.refl s, hx, hxv, Or.inl ⟨hq, rfl⟩⟩
    · rw [if_neg hq]
      obtain ⟨h1, h2, c, h3, h4, h5, h6⟩ := arithProduct_spec h hm hx hxv
      exact ⟨h1, h2, hx.ext h2, hxv.ext h2, Or.inr ⟨hq, c, h3, h4, h5, h6⟩⟩

theorem monosToTerms_spec (h : WF H s) {p : APoly} (hnz : ∀ m ∈ p, m.2 ≠ 0) (hv : VarsOK s p) :
    WF H (s.monosToTerms H p).1 ∧ Ext s (s.monosToTerms H p).1 ∧
      List.Forall₂ (MonoTerm (s.monosToTerms H p).1) p (s.monosToTerms H p).2 := by
  induction p generalizing s with
  | nil => exact ⟨h, Ext.refl s, .nil⟩
  | cons m p ih =>
    obtain ⟨h1, h2, h3⟩ := monoToTerm_spec h (hnz m (by simp)) (hv m (by simp))
    obtain ⟨i1, i2, i3⟩ := ih h1 (fun k hk => hnz k (by simp [hk]))
      (VarsOK.ext h2 fun k hk => hv k (by simp [hk]))
    exact ⟨i1, h2.trans i2, .cons (h3.ext i2) i3⟩

theorem polyToTerm_spec (h : WF H s) {p : APoly} (hp : PolyOK p) (hv : VarsOK s p) :
    WF H (s.polyToTerm H p).1 ∧ Ext s (s.polyToTerm H p).1 ∧
      TermFor (s.polyToTerm H p).1 p (s.polyToTerm H p).2 := by
  match p, hp, hv with
  | [], _, _ => exact ⟨h, Ext.refl s, rfl⟩
  | [m], hp, hv => exact monoToTerm_spec h (hp.nonzero m (by simp)) (hv m (by simp))
  | a :: b :: p, hp, hv =>
    obtain ⟨h1, h2, h3⟩ := monosToTerms_spec h hp.nonzero hv
    obtain ⟨g1, g2, g3, g4⟩ := composite_wf (k := .poly) (ty := .real)
      (as := (s.monosToTerms H (a :: b :: p)).2) h1 (by decide)
      ⟨rfl, _, a :: b :: p, rfl, by simp, hp, h3⟩
    exact ⟨g1, h2.trans g2, g4, _, g3, forall₂_imp h3 fun _ _ hm => hm.ext g2⟩

theorem TermFor.real (h : WF H s) {p : APoly} {t : Tm} (ht : TermFor s p t) : IsReal s t := by
  match p, ht with
  | [], ht => have ht : t = Tm.zero := ht; rw [ht]; exact h.zero_real
  | [m], ht => exact MonoTerm.real ht
  | a :: b :: p, ht => exact ⟨type_of_entry ht.2.choose_spec.1, ht.1⟩

theorem polyToTerm_kind (h : WF H s) {p : APoly} (hp : PolyOK p) (hv : VarsOK s p) (hl : 2 ≤ p.length) :
    (s.polyToTerm H p).1.kind (s.polyToTerm H p).2 = .poly := by
  obtain ⟨_, _, h3⟩ := polyToTerm_spec h hp hv
  match p, hl, h3 with
  | _ :: _ :: _, _, h3 => exact kind_of_entry h3.2.choose_spec.1

theorem polyToTerm_res (h : WF H s) {p : APoly} (hp : PolyOK p) (hv : VarsOK s p) :
    QRes H s (s.polyToTerm H p) (fun I => APoly.val (denQ I s) p) := by
  obtain ⟨h1, h2, h3⟩ := polyToTerm_spec h hp hv
  exact ⟨h1, h2, h3.real h1, fun I => by rw [denQ_termFor h1 h3, val_ext h2 hv]⟩

/-- A polynomial has one term. -/
theorem TermFor.unique (h : WF H s) {p : APoly} {a b : Tm} (ha : TermFor s p a) (hb : TermFor s p b) :
    a = b := by
  have hcons : ∀ {k : Kind} {ty : Ty} {d : Descr}, k ≠ .reserved → k ≠ .uninterpreted → Consed ⟨k, ty, d⟩ :=
    fun h1 h2 => ⟨h1, h2⟩
  have mono : ∀ {m : Option Tm × ℚ} {a b : Tm}, MonoTerm s m a → MonoTerm s m b → a = b := by
    intro m a b ha hb
    obtain ⟨v, q⟩ := m
    cases v with
    | none => exact h.hc.eq_of_entry ha.2 hb.2 (hcons (by decide) (by decide)) ha.1 hb.1
    | some x =>
      obtain ⟨_, _, ha⟩ := ha
      obtain ⟨_, _, hb⟩ := hb
      rcases ha with ⟨h1, ha⟩ | ⟨h1, c, a1, a2, a3, a4⟩ <;> rcases hb with ⟨h2, hb⟩ | ⟨h2, c', b1, b2, b3, b4⟩
      · rw [ha, hb]
      · exact absurd h1 h2
      · exact absurd h2 h1
      · have : c = c' := h.hc.eq_of_entry a2 b2 (hcons (by decide) (by decide)) a1 b1
        subst this
        exact h.hc.eq_of_entry a4 b4 (hcons (by decide) (by decide)) a3 b3
  match p, ha, hb with
  | [], ha, hb =>
    have ha : a = Tm.zero := ha
    have hb : b = Tm.zero := hb
    rw [ha, hb]
  | [m], ha, hb => exact mono ha hb
  | x :: y :: p, ha, hb =>
    obtain ⟨a1, as, a2, a3⟩ := ha
    obtain ⟨b1, bs, b2, b3⟩ := hb
    have : as = bs := by
      clear a2 b2 a1 b1
      generalize x :: y :: p = l at a3 b3
      induction a3 generalizing bs with
      | nil => cases b3; rfl
      | cons hm _ ih => cases b3 with
        | cons hm' b3 => rw [mono hm hm', ih _ b3]
    subst this
    exact h.hc.eq_of_entry a2 b2 (hcons (by decide) (by decide)) a1 b1

/-! ### Operations -/

theorem foldMerge_spec (h : WF H s) {as : List Tm} (hr : ∀ a ∈ as, IsReal s a) {acc : APoly}
    (hacc : PolyOK acc) (hv : VarsOK s acc) :
    ∃ p, as.foldl (fun acc c => acc.bind fun p => (s.toPoly c).map fun q => APoly.merge p q 1) (some acc) =
      some p ∧ PolyOK p ∧ VarsOK s p ∧
      ∀ I, APoly.val (denQ I s) p = APoly.val (denQ I s) acc + (as.map (denQ I s)).sum := by
  induction as generalizing acc with
  | nil => exact ⟨acc, rfl, hacc, hv, fun I => by simp⟩
  | cons a as ih =>
    obtain ⟨q, hq, hqok, hqv, _⟩ := toPoly_spec h (hr a (by simp))
    obtain ⟨p, hp, h1, h2, h3⟩ := ih (fun b hb => hr b (by simp [hb]))
      (APoly.merge_ok one_ne_zero hacc hqok) (hv.merge hqv 1)
    refine ⟨p, ?_, h1, h2, fun I => ?_⟩
    · rw [List.foldl_cons, hq]
      simpa using hp
    · rw [h3 I, APoly.merge_val, toPoly_val h (hr a (by simp)) hq, List.map_cons, List.sum_cons]
      ring

theorem mkPlus_res (h : WF H s) {as : List Tm} (hr : ∀ a ∈ as, IsReal s a) :
    ∃ r, s.mkPlus H as = some r ∧ QRes H s r (fun I => (as.map (denQ I s)).sum) := by
  obtain ⟨p, hp, h1, h2, h3⟩ := foldMerge_spec h hr APoly.nil_ok (by intro m hm; cases hm)
  refine ⟨s.polyToTerm H p, by unfold mkPlus; rw [hp]; rfl, (polyToTerm_res h h1 h2).congr fun I => ?_⟩
  rw [h3 I]; simp

theorem mkMinus_res (h : WF H s) {a b : Tm} (ha : IsReal s a) (hb : IsReal s b) :
    ∃ r, s.mkMinus H a b = some r ∧ QRes H s r (fun I => denQ I s a - denQ I s b) := by
  obtain ⟨p, hp, hpok, hpv, _⟩ := toPoly_spec h ha
  obtain ⟨q, hq, hqok, hqv, _⟩ := toPoly_spec h hb
  refine ⟨s.polyToTerm H (APoly.merge p q (-1)), by unfold mkMinus; rw [hp, hq]; rfl,
    (polyToTerm_res h (APoly.merge_ok (by norm_num) hpok hqok) (hpv.merge hqv _)).congr fun I => ?_⟩
  rw [APoly.merge_val, toPoly_val h ha hp, toPoly_val h hb hq]
  ring

theorem mkUnaryMinus_res (h : WF H s) {a : Tm} (ha : IsReal s a) :
    ∃ r, s.mkUnaryMinus H a = some r ∧ QRes H s r (fun I => - denQ I s a) := by
  obtain ⟨p, hp, hpok, hpv, _⟩ := toPoly_spec h ha
  refine ⟨s.polyToTerm H (APoly.negate p), by unfold mkUnaryMinus; rw [hp]; rfl,
    (polyToTerm_res h (APoly.negate_ok hpok) (hpv.map _)).congr fun I => ?_⟩
  rw [APoly.negate_val, toPoly_val h ha hp]

theorem timesConst_res (h : WF H s) {q : ℚ} (hq : q ≠ 0) {t : Tm} (ht : IsReal s t)
    (hnc : s.isArithConst t = false) :
    ∃ r, s.timesConst H q t = some r ∧ QRes H s r (fun I => q * denQ I s t) := by
  unfold timesConst
  rcases real_cases h ht with ⟨c, he⟩ | hv | ⟨c, x, q', he, hc, hce, hq', hx, hxv⟩ | ⟨as, p, he, hl, hp, hf⟩
  · unfold isArithConst at hnc
    rw [kind_of_entry he] at hnc
    simp at hnc
  · refine ⟨s.arithProduct H q t, ?_, arithProduct_res h hq ht hv⟩
    rcases hv with hv | hv | hv <;> rw [hv]
  · obtain ⟨h1, h2, h3⟩ := product_of_entry he hce
    rw [h1]
    simp only [h2, h3]
    refine ⟨_, rfl, (arithProduct_res h (mul_ne_zero hq' hq) hx hxv).congr fun I => ?_⟩
    rw [denQ_product h he ht.2 hce hc]
    ring
  · rw [kind_of_entry he]
    obtain ⟨p, hp, hpok, hpv, _⟩ := toPoly_spec h ht
    simp only [hp]
    refine ⟨_, rfl, (polyToTerm_res h (APoly.multiplyBy_ok hq hpok) (hpv.map (· * q))).congr fun I => ?_⟩
    rw [APoly.multiplyBy_val, toPoly_val h ht hp]

theorem denQ_isArithConst (h : WF H s) {t : Tm} (ht : IsReal s t) (hc : s.isArithConst t = true)
    (I : Interp) : denQ I s t = s.constValue t := by
  unfold isArithConst at hc
  simp only [decide_eq_true_eq] at hc
  rcases real_cases h ht with ⟨c, he⟩ | hv | ⟨c, x, q', he, _⟩ | ⟨as, p, he, _⟩
  · rw [denQ_const h he ht.2, constValue_of_entry he]
  · rcases hv with hv | hv | hv <;> rw [hv] at hc <;> cases hc
  · rw [kind_of_entry he] at hc; cases hc
  · rw [kind_of_entry he] at hc; cases hc

/-- The product of a constant and a term that is not constant. -/
theorem times_one (h : WF H s) {q : ℚ} {t : Tm} (ht : IsReal s t) (hnc : s.isArithConst t = false) :
    ∃ r, (if q = 0 then some (s, Tm.zero) else if q = 1 then some (s, t) else s.timesConst H q t) = some r ∧
      QRes H s r (fun I => q * denQ I s t) := by
  by_cases h0 : q = 0
  · rw [if_pos h0]
    exact ⟨_, rfl, QRes.same h h.zero_real fun I => by rw [h.denQ_zero, h0, zero_mul]⟩
  rw [if_neg h0]
  by_cases h1 : q = 1
  · rw [if_pos h1]
    exact ⟨_, rfl, QRes.same h ht fun I => by rw [h1, one_mul]⟩
  rw [if_neg h1]
  exact timesConst_res h h0 ht hnc

/-- `mk_arithmetic_times` of two arguments, one of them constant. -/
theorem mkTimes_res (h : WF H s) {a b : Tm} (ha : IsReal s a) (hb : IsReal s b)
    (hc : s.isArithConst a = true ∨ s.isArithConst b = true) :
    ∃ r, s.mkTimes H [a, b] = some r ∧ QRes H s r (fun I => denQ I s a * denQ I s b) := by
  unfold mkTimes
  simp only [List.filter_cons, List.filter_nil]
  cases hca : s.isArithConst a with
  | true =>
    cases hcb : s.isArithConst b with
    | true =>
      simp only [if_true, Bool.not_true, Bool.false_eq_true, if_false, List.foldl_cons, List.foldl_nil,
        one_mul]
      by_cases h0 : s.constValue a * s.constValue b = 0
      · rw [if_pos h0]
        refine ⟨_, rfl, QRes.same h h.zero_real fun I => ?_⟩
        rw [h.denQ_zero, denQ_isArithConst h ha hca, denQ_isArithConst h hb hcb, h0]
      · rw [if_neg h0]
        refine ⟨_, rfl, (arithConstant_res h _).congr fun I => ?_⟩
        rw [denQ_isArithConst h ha hca, denQ_isArithConst h hb hcb]
    | false =>
      simp only [if_true, Bool.not_true, Bool.not_false, Bool.false_eq_true, if_false, List.foldl_cons,
        List.foldl_nil, one_mul]
      obtain ⟨r, h1, h2⟩ := times_one h (q := s.constValue a) hb hcb
      exact ⟨r, h1, h2.congr fun I => by rw [denQ_isArithConst h ha hca]⟩
  | false =>
    cases hcb : s.isArithConst b with
    | true =>
      simp only [if_true, Bool.not_true, Bool.not_false, Bool.false_eq_true, if_false, List.foldl_cons,
        List.foldl_nil, one_mul]
      obtain ⟨r, h1, h2⟩ := times_one h (q := s.constValue b) ha hca
      exact ⟨r, h1, h2.congr fun I => by rw [denQ_isArithConst h hb hcb, mul_comm]⟩
    | false => rw [hca, hcb] at hc; simp at hc

theorem isArithConst_of_entry {t : Tm} {q : ℚ} (h : s.entry t = some ⟨.arithConst, .real, .rat q⟩) :
    s.isArithConst t = true := by
  unfold isArithConst; rw [kind_of_entry h]; rfl

theorem mkDivides_res (h : WF H s) {a b : Tm} (ha : IsReal s a) (hb : IsReal s b)
    (hc : s.isArithConst b = true) (hnz : s.constValue b ≠ 0) :
    ∃ r, s.mkDivides H a b = some r ∧ QRes H s r (fun I => denQ I s a / denQ I s b) := by
  unfold mkDivides
  rw [if_neg (by rw [hc]; simp [hnz])]
  cases hca : s.isArithConst a with
  | true =>
    rw [if_pos rfl]
    refine ⟨_, rfl, (arithConstant_res h _).congr fun I => ?_⟩
    rw [denQ_isArithConst h ha hca, denQ_isArithConst h hb hc]
  | false =>
    rw [if_neg (by simp)]
    obtain ⟨h1, h2, h3, h4⟩ := arithConstant_wf h (1 / s.constValue b)
    obtain ⟨r, g1, g2⟩ := mkTimes_res h1 (ha.ext h2) ⟨type_of_entry h3, h4⟩
      (Or.inr (isArithConst_of_entry h3))
    refine ⟨r, g1, (g2.of_ext h2).congr fun I => ?_⟩
    rw [denQ_const h1 h3 h4, denQ_ext h2 ha, denQ_isArithConst h hb hc]
    ring

theorem eqZero_res (h : WF H s) {t : Tm} (ht : IsReal s t) (hk : s.kind t ≠ .arithConst) :
    BRes H s (s.eqZero H t) (fun I => decide (denQ I s t = 0)) := by
  obtain ⟨h1, h2, h3, h4⟩ := composite_wf (k := .arithEq) (ty := .bool) (as := [t]) h (by decide)
    ⟨rfl, t, rfl, ht, hk⟩
  refine ⟨h1, h2, type_of_entry h3, fun I => ?_⟩
  rw [← denQ_ext h2 ht I]
  show denB I (s.composite H .arithEq .bool [t]).1 (s.composite H .arithEq .bool [t]).2 = _
  unfold denB
  rw [h1.den h3 h4]
  rfl

theorem geqZero_res (h : WF H s) {t : Tm} (ht : IsReal s t) (hk : s.kind t ≠ .arithConst) :
    BRes H s (s.geqZero H t) (fun I => decide (0 ≤ denQ I s t)) := by
  obtain ⟨h1, h2, h3, h4⟩ := composite_wf (k := .arithGe) (ty := .bool) (as := [t]) h (by decide)
    ⟨rfl, t, rfl, ht, hk⟩
  refine ⟨h1, h2, type_of_entry h3, fun I => ?_⟩
  rw [← denQ_ext h2 ht I]
  show denB I (s.composite H .arithGe .bool [t]).1 (s.composite H .arithGe .bool [t]).2 = _
  unfold denB
  rw [h1.den h3 h4]
  rfl

theorem binEq_res (h : WF H s) {a b : Tm} (ha : IsReal s a) (hb : IsReal s b) (hva : VarLike s a)
    (hvb : VarLike s b ∨ s.kind b = .arithConst) (hne : a ≠ b) :
    BRes H s (s.binEq H a b) (fun I => decide (denQ I s a = denQ I s b)) := by
  obtain ⟨h1, h2, h3, h4⟩ := composite_wf (k := .arithBinEq) (ty := .bool) (as := [a, b]) h (by decide)
    ⟨rfl, a, b, rfl, ha, hb, hva, hvb, hne⟩
  refine ⟨h1, h2, type_of_entry h3, fun I => ?_⟩
  rw [← denQ_ext h2 ha I, ← denQ_ext h2 hb I]
  show denB I (s.composite H .arithBinEq .bool [a, b]).1 (s.composite H .arithBinEq .bool [a, b]).2 = _
  unfold denB
  rw [h1.den h3 h4]
  rfl

theorem isVarLike_iff {t : Tm} : s.isVarLike t = true ↔ VarLike s t := by
  simp [isVarLike, VarLike, or_assoc]

theorem directEq_res (h : WF H s) {a b : Tm} (ha : IsReal s a) (hb : IsReal s b) (hva : VarLike s a)
    (hvb : VarLike s b ∨ s.kind b = .arithConst) (hne : a ≠ b) :
    BRes H s (s.directEq H a b) (fun I => decide (denQ I s a = denQ I s b)) := by
  unfold directEq
  split
  · rename_i hc
    rw [isVarLike_iff.mpr hva] at hc
    simp only [Bool.not_true, Bool.false_or, Bool.and_eq_true] at hc
    exact (binEq_res h hb ha (isVarLike_iff.mp hc.1) (.inl hva) (Ne.symm hne)).congr fun I => by
      apply decide_eq_decide.mpr; exact eq_comm
  · exact binEq_res h ha hb hva hvb hne

theorem eqOfPoly_res (h : WF H s) {p : APoly} (hp : PolyOK p) (hv : VarsOK s p) (hne : p ≠ []) :
    ∃ r, s.eqOfPoly H p = some r ∧ BRes H s r (fun I => decide (APoly.val (denQ I s) p = 0)) := by
  have general : 2 ≤ p.length → BRes H s ((s.polyToTerm H p).1.eqZero H (s.polyToTerm H p).2)
      (fun I => decide (APoly.val (denQ I s) p = 0)) := by
    intro hl
    have h1 := polyToTerm_res h hp hv
    refine ((eqZero_res h1.wf h1.isReal (by rw [polyToTerm_kind h hp hv hl]; decide)).of_ext h1.ext).congr fun I => ?_
    rw [h1.val]
  match p, hp, hv, hne, general with
  | [], _, _, hne, _ => exact absurd rfl hne
  | [(none, q)], hp, hv, _, _ =>
    refine ⟨_, rfl, BRes.same h h.ff_bool fun I => ?_⟩
    rw [h.denB_ff]
    have := hp.nonzero _ (List.mem_singleton.mpr rfl)
    simp only at this
    simp [APoly.atom, this]
  | [(some x, q)], hp, hv, _, _ =>
    have hx := hv _ (List.mem_singleton.mpr rfl) x rfl
    refine ⟨_, rfl, (eqZero_res h hx.1 (by rcases hx.2 with h2 | h2 | h2 <;> rw [h2] <;> decide)).congr fun I => ?_⟩
    have := hp.nonzero _ (List.mem_singleton.mpr rfl)
    simp only at this
    simp [APoly.atom, this]
  | [(none, q1), (none, q2)], hp, _, _, _ =>
    have := hp.head_lt (none, q2) (by simp)
    simp [APoly.varLt] at this
  | [(some x, q1), (none, q2)], hp, _, _, _ =>
    have := hp.head_lt (none, q2) (by simp)
    simp [APoly.varLt] at this
  | [(none, q1), (some y, q2)], hp, hv, _, _ =>
    obtain ⟨hy, hyv⟩ := hv (some y, q2) (by simp) y rfl
    have hq2 : q2 ≠ 0 := hp.nonzero (some y, q2) (by simp)
    have h1 := arithConstant_res h (-q1 / q2)
    have hk : (s.arithConstant H (-q1 / q2)).1.kind (s.arithConstant H (-q1 / q2)).2 = .arithConst :=
      kind_of_entry (arithConstant_wf h (-q1 / q2)).2.2.1
    have hne : y ≠ (s.arithConstant H (-q1 / q2)).2 := by
      intro h2
      rw [← h2] at hk
      rcases hyv.ext h1.ext with h3 | h3 | h3 <;> rw [hk] at h3 <;> cases h3
    refine ⟨_, rfl, ((directEq_res h1.wf (hy.ext h1.ext) h1.isReal (hyv.ext h1.ext) (.inr hk) hne).of_ext h1.ext).congr fun I => ?_⟩
    rw [h1.val, denQ_ext h1.ext hy]
    apply decide_eq_decide.mpr
    simp only [APoly.val_cons, APoly.val_nil, APoly.atom, mul_one, add_zero]
    rw [eq_div_iff hq2]
    constructor <;> intro h <;> linarith
  | [(some x, q1), (some y, q2)], hp, hv, _, general =>
    obtain ⟨hx, hxv⟩ := hv (some x, q1) (by simp) x rfl
    obtain ⟨hy, hyv⟩ := hv (some y, q2) (by simp) y rfl
    have hxy : x ≠ y := by
      have := hp.head_lt (some y, q2) (by simp)
      simp only [APoly.varLt] at this
      rintro rfl
      simp [Tm.lt] at this
    have hq1 : q1 ≠ 0 := hp.nonzero (some x, q1) (by simp)
    unfold eqOfPoly
    simp only
    by_cases h0 : q1 + q2 = 0
    · rw [if_pos h0]
      refine ⟨_, rfl, (directEq_res h hx hy hxv (.inl hyv) hxy).congr fun I => ?_⟩
      apply decide_eq_decide.mpr
      simp only [APoly.val_cons, APoly.val_nil, APoly.atom, add_zero]
      have hq2 : q2 = -q1 := by linarith
      rw [hq2]
      constructor
      · intro h; rw [h]; ring
      · intro h
        have : q1 * (denQ I s x - denQ I s y) = 0 := by linarith
        rcases mul_eq_zero.mp this with h | h
        · exact absurd h hq1
        · linarith
    · rw [if_neg h0]
      exact ⟨_, rfl, general (by simp)⟩
  | a :: b :: c :: p, _, _, _, general => exact ⟨_, rfl, general (by simp)⟩

theorem SamePoly.symm {a b : Tm} (h : SamePoly s a b) : SamePoly s b a := fun ρ => (h ρ).symm

theorem monoVal_mono (h : WF H s) {m : Option Tm × ℚ} {t : Tm} (ht : MonoTerm s m t) (ρ : Tm → ℚ) :
    monoVal ρ s t = m.2 * APoly.atom ρ m.1 ∧ s.kind t ≠ .poly := by
  obtain ⟨v, q⟩ := m
  unfold monoVal
  cases v with
  | none =>
    rw [kind_of_entry ht.2]
    exact ⟨by simp [APoly.atom, constValue_of_entry ht.2], by simp⟩
  | some x =>
    obtain ⟨h1, h2, h3⟩ := ht
    rcases h3 with ⟨hq, h3⟩ | ⟨_, c, h4, h5, h6, h7⟩
    · simp only at hq
      rw [h3, hq]
      rcases h2 with h2 | h2 | h2 <;> rw [h2] <;> simp [APoly.atom]
    · obtain ⟨g1, g2, g3⟩ := product_of_entry h7 h5
      simp only [g1, g2, g3]
      exact ⟨by simp [APoly.atom], by simp⟩

theorem linVal_toPoly (h : WF H s) {t : Tm} (ht : IsReal s t) {p : APoly} (hp : s.toPoly t = some p)
    (ρ : Tm → ℚ) : linVal ρ s t = APoly.val ρ p := by
  obtain ⟨p', hp', _, _, hc⟩ := toPoly_spec h ht
  rw [hp'] at hp
  cases hp
  rcases hc with ⟨hk, h1⟩ | hc
  · rcases real_cases h ht with ⟨q, he⟩ | hv | ⟨c, x, q, he, hc, hce, hq, hx, hxv⟩ | ⟨as, p, he, hl, hp, hf⟩
    · rw [kind_of_entry he] at hk; cases hk
    · rcases hv with hv | hv | hv <;> rw [hv] at hk <;> cases hk
    · have h2 : s.toPoly t = some [(some x, q)] := termToPoly_product he hce 1
      rw [hp'] at h2
      cases h2
      obtain ⟨g1, g2, g3⟩ := product_of_entry he hce
      unfold linVal monoVal
      rw [if_neg (by rw [g1]; decide)]
      simp only [g1, g2, g3]
      simp [APoly.atom]
    · rw [kind_of_entry he] at hk; cases hk
  · match p, hc with
    | [], hc =>
      have hc : t = Tm.zero := hc
      unfold linVal monoVal
      rw [hc, kind_of_entry h.zero, if_neg (by simp)]
      simp [constValue_of_entry h.zero]
    | [m], hc =>
      obtain ⟨h1, h2⟩ := monoVal_mono h hc ρ
      unfold linVal
      rw [if_neg h2, h1]
      simp
    | a :: b :: p, hc =>
      obtain ⟨hn, as, he, hf⟩ := hc
      have ha : s.allArgs t = as := by unfold allArgs; rw [descr_of_entry he]
      unfold linVal
      rw [if_pos (kind_of_entry he), ha]
      clear ha he hn hp'
      generalize a :: b :: p = l at hf
      induction hf with
      | nil => rfl
      | cons hm _ ih => rw [List.map_cons, List.sum_cons, ih, APoly.val_cons, (monoVal_mono h hm ρ).1]

/-- Two real terms denote the same polynomial exactly when `term_to_poly` gives the same result. -/
theorem samePoly_iff (h : WF H s) {a b : Tm} (ha : IsReal s a) (hb : IsReal s b) :
    SamePoly s a b ↔ s.toPoly a = s.toPoly b := by
  obtain ⟨p, hp, hpok, _, _⟩ := toPoly_spec h ha
  obtain ⟨q, hq, hqok, _, _⟩ := toPoly_spec h hb
  constructor
  · intro hs
    rw [hp, hq, APoly.eq_of_val hpok hqok fun ρ => by
      rw [← linVal_toPoly h ha hp, ← linVal_toPoly h hb hq]; exact hs ρ]
  · intro he ρ
    rw [linVal_toPoly h ha hp, linVal_toPoly h hb hq]
    rw [hp, hq] at he
    cases he; rfl

theorem mkArithEq_res (h : WF H s) {a b : Tm} (ha : IsReal s a) (hb : IsReal s b)
    (hne : a = b ∨ ¬ SamePoly s a b) :
    ∃ r, s.mkArithEq H a b = some r ∧ BRes H s r (fun I => decide (denQ I s a = denQ I s b)) := by
  unfold mkArithEq
  by_cases h1 : a = b
  · rw [if_pos h1]
    refine ⟨_, rfl, BRes.same h h.tt_bool fun I => ?_⟩
    rw [h.denB_tt, h1]; simp
  · rw [if_neg h1]
    obtain ⟨p, hp, hpok, hpv, _⟩ := toPoly_spec h ha
    obtain ⟨q, hq, hqok, hqv, _⟩ := toPoly_spec h hb
    have hne : APoly.merge p q (-1) ≠ [] := by
      intro hnil
      have := APoly.eq_of_merge_nil hnil
      subst this
      rcases hne with hne | hne
      · exact h1 hne
      · exact hne ((samePoly_iff h ha hb).mpr (by rw [hp, hq]))
    obtain ⟨r, h2, h3⟩ := eqOfPoly_res h (APoly.merge_ok (by norm_num) hpok hqok) (hpv.merge hqv _) hne
    refine ⟨r, by rw [hp, hq]; exact h2, h3.congr fun I => ?_⟩
    rw [APoly.merge_val, toPoly_val h ha hp, toPoly_val h hb hq]
    apply decide_eq_decide.mpr
    constructor <;> intro h <;> linarith

/-- The failing case of `mk_arithmetic_eq`: two different terms for the same polynomial. -/
theorem mkArithEq_fails (h : WF H s) {a b : Tm} (ha : IsReal s a) (hb : IsReal s b) (hab : a ≠ b)
    (hs : SamePoly s a b) : s.mkArithEq H a b = none := by
  unfold mkArithEq
  rw [if_neg hab]
  obtain ⟨p, hp, hpok, hpv, _⟩ := toPoly_spec h ha
  have := (samePoly_iff h ha hb).mp hs
  rw [← this, hp]
  simp only [Option.bind_some]
  rw [APoly.merge_self_nil hpok]
  rfl

theorem mkGeq_res (h : WF H s) {a b : Tm} (ha : IsReal s a) (hb : IsReal s b) :
    ∃ r, s.mkGeq H a b = some r ∧ BRes H s r (fun I => decide (denQ I s a ≥ denQ I s b)) := by
  unfold mkGeq
  obtain ⟨r, h1, h2⟩ := mkMinus_res h ha hb
  rw [h1]
  simp only [Option.map_some]
  refine ⟨_, rfl, ?_⟩
  cases hc : r.1.isArithConst r.2 with
  | true =>
    rw [if_pos rfl]
    refine ⟨h2.wf, h2.ext, ?_, fun I => ?_⟩
    · split
      exacts [h2.wf.tt_bool, h2.wf.ff_bool]
    · have hv := h2.val I
      rw [denQ_isArithConst h2.wf h2.isReal hc] at hv
      simp only
      split
      · rename_i hge
        rw [h2.wf.denB_tt, hv] at *
        symm; apply decide_eq_true; linarith
      · rename_i hge
        rw [h2.wf.denB_ff, hv] at *
        symm; apply decide_eq_false; intro hcon; apply hge; linarith
  | false =>
    rw [if_neg (by simp)]
    refine ((geqZero_res h2.wf h2.isReal (by simpa [isArithConst] using hc)).of_ext h2.ext).congr fun I => ?_
    rw [h2.val]
    apply decide_eq_decide.mpr
    constructor <;> intro h <;> linarith

theorem mkArithIte_res (h : WF H s) {c t e : Tm} (hc : IsBool s c) (ht : IsReal s t) (he : IsReal s e) :
    QRes H s (s.mkArithIte H c t e) (fun I => if denB I s c then denQ I s t else denQ I s e) := by
  have core : ∀ {c t e : Tm}, IsBool s c → c.isNeg = false → c ≠ Tm.tt → IsReal s t → IsReal s e →
      QRes H s (s.arithIte H c t e) (fun I => if denB I s c then denQ I s t else denQ I s e) := by
    intro c t e hc hcn hct ht he
    obtain ⟨h1, h2, h3, h4⟩ := composite_wf (k := .ite) (ty := .real) (as := [c, t, e]) h (by decide)
      ⟨rfl, c, t, e, rfl, ⟨hc, hcn, hct⟩, ht, he⟩
    refine ⟨h1, h2, ⟨type_of_entry h3, h4⟩, fun I => ?_⟩
    rw [← denB_ext h2 hc I, ← denQ_ext h2 ht I, ← denQ_ext h2 he I]
    show denQ I (s.composite H .ite .real [c, t, e]).1 (s.composite H .ite .real [c, t, e]).2 = _
    have := h1.den (I := I) h3 h4
    unfold denQ denB
    rw [this]
    show (if _ then _ else _ : Val).num = _
    split <;> rfl
  unfold mkArithIte
  by_cases h1 : c = Tm.tt
  · rw [if_pos h1]
    exact QRes.same h ht fun I => by rw [h1, h.denB_tt]; rfl
  rw [if_neg h1]
  by_cases h2 : c = Tm.ff
  · rw [if_pos h2]
    exact QRes.same h he fun I => by rw [h2, h.denB_ff]; rfl
  rw [if_neg h2]
  by_cases h3 : t = e
  · rw [if_pos h3]
    exact QRes.same h ht fun I => by rw [h3]; simp
  rw [if_neg h3]
  cases hn : c.isNeg with
  | false => rw [if_neg (by simp)]; exact core hc hn h1 ht he
  | true =>
    rw [if_pos rfl]
    refine (core hc.opp (by rw [Tm.opp_isNeg, hn]; rfl) (by
      intro h4; apply h2; rw [← Tm.opp_opp c, h4]; rfl) he ht).congr fun I => ?_
    rw [denB_opp h hc]
    cases denB I s c <;> rfl

end Yaga
