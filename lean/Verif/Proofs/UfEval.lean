/-
The plugin for uninterpreted functions: evaluation of terms and conversion to polynomials.
-/
import Verif.Proofs.InternKeys
import Verif.Proofs.LinearPolynomial
import Verif.Proofs.Trail
import Verif.Model.Uf
import Verif.Spec.OneVar

set_option linter.unusedSectionVars false
set_option linter.unusedVariables false
set_option linter.unusedSimpArgs false

namespace Yaga

open Spec TermTable Internalizer

variable {H : TermHash} {s : TermTable} {st : IState} {R : Type}

/-! ### The variables of a real term -/

/-- A monomial. -/
def Mono (s : TermTable) (t : Tm) : Prop :=
  (t.isNeg = false ∧ ∃ q, s.entry t = some ⟨.arithConst, .real, .rat q⟩) ∨ (IsReal s t ∧ VarLike s t) ∨
  (t.isNeg = false ∧ ∃ c x q, s.entry t = some ⟨.product, .real, .comp [c, x]⟩ ∧ c.isNeg = false ∧
    s.entry c = some ⟨.arithConst, .real, .rat q⟩ ∧ IsReal s x ∧ VarLike s x)

theorem Mono.isReal {t : Tm} (h : Mono s t) : IsReal s t := by
  rcases h with ⟨h1, q, h2⟩ | h | ⟨h1, c, x, q, h2, _⟩
  · exact ⟨type_of_entry h2, h1⟩
  · exact h.1
  · exact ⟨type_of_entry h2, h1⟩

theorem mono_of_monoTerm {m : Option Tm × ℚ} {a : Tm} (hm : MonoTerm s m a) : Mono s a := by
  obtain ⟨v, q⟩ := m
  cases v with
  | none => exact .inl ⟨hm.1, q, hm.2⟩
  | some x =>
    obtain ⟨h1, h2, h3⟩ := hm
    rcases h3 with ⟨_, rfl⟩ | ⟨_, c, h4, h5, h6, h7⟩
    · exact .inr (.inl ⟨h1, h2⟩)
    · exact .inr (.inr ⟨h6, c, x, q, h7, h4, h5, h1, h2⟩)

/-- A real term is a monomial or a polynomial. -/
theorem mono_cases (h : WF H s) {t : Tm} (ht : IsReal s t) :
    (Mono s t ∧ s.kind t ≠ .poly) ∨
    ∃ as p, s.entry t = some ⟨.poly, .real, .comp as⟩ ∧ 2 ≤ p.length ∧ PolyOK p ∧
      List.Forall₂ (MonoTerm s) p as ∧ ∀ a ∈ as, Mono s a := by
  rcases real_cases h ht with ⟨q, he⟩ | hv | ⟨c, x, q, he, hc, hce, hq, hx, hxv⟩ | ⟨as, p, he, hl, hok, hf⟩
  · exact .inl ⟨.inl ⟨ht.2, q, he⟩, by rw [kind_of_entry he]; simp⟩
  · exact .inl ⟨.inr (.inl ⟨ht, hv⟩), by rcases hv with hv | hv | hv <;> rw [hv] <;> decide⟩
  · exact .inl ⟨.inr (.inr ⟨ht.2, c, x, q, he, hc, hce, hx, hxv⟩), by rw [kind_of_entry he]; simp⟩
  · refine .inr ⟨as, p, he, hl, hok, hf, fun a ha => ?_⟩
    obtain ⟨m, _, hm⟩ := forall₂_mem_right hf ha
    exact mono_of_monoTerm hm

theorem monoAtoms_const {t : Tm} {q : ℚ} (h : s.entry t = some ⟨.arithConst, .real, .rat q⟩) :
    monoAtoms s t = [] := by unfold monoAtoms; rw [kind_of_entry h]

theorem monoAtoms_var {t : Tm} (h : VarLike s t) : monoAtoms s t = [t] := by
  unfold monoAtoms; rcases h with h | h | h <;> rw [h]

theorem monoAtoms_product {t c x : Tm} {q : ℚ} (h : s.entry t = some ⟨.product, .real, .comp [c, x]⟩)
    (hc : s.entry c = some ⟨.arithConst, .real, .rat q⟩) : monoAtoms s t = [x] := by
  obtain ⟨h1, h2, _⟩ := product_of_entry h hc
  unfold monoAtoms; rw [h1, ← h2]

theorem allArgs_of_entry {t : Tm} {k : Kind} {ty : Ty} {as : List Tm} (h : s.entry t = some ⟨k, ty, .comp as⟩) :
    s.allArgs t = as := by
  unfold TermTable.allArgs
  rw [descr_of_entry h]

theorem atoms_poly {t : Tm} {as : List Tm} (h : s.entry t = some ⟨.poly, .real, .comp as⟩) :
    atoms s t = as.flatMap (monoAtoms s) := by
  unfold atoms; rw [if_pos (kind_of_entry h), allArgs_of_entry h]

theorem atoms_mono {t : Tm} (h : s.kind t ≠ .poly) : atoms s t = monoAtoms s t := by
  unfold atoms; rw [if_neg h]

theorem atoms_var {t : Tm} (h : VarLike s t) : atoms s t = [t] := by
  rw [atoms_mono (by rcases h with h | h | h <;> rw [h] <;> decide), monoAtoms_var h]

theorem monoAtoms_spec (h : WF H s) {t : Tm} (ht : Mono s t) :
    ∀ x ∈ monoAtoms s t, IsReal s x ∧ VarLike s x ∧ x.index ≤ t.index := by
  intro x hx
  rcases ht with ⟨_, q, he⟩ | ht | ⟨_, c, y, q, he, hc, hce, hy, hyv⟩
  · rw [monoAtoms_const he] at hx; cases hx
  · rw [monoAtoms_var ht.2] at hx
    rw [List.mem_singleton.mp hx]; exact ⟨ht.1, ht.2, le_refl _⟩
  · rw [monoAtoms_product he hce] at hx
    rw [List.mem_singleton.mp hx]
    exact ⟨hy, hyv, le_of_lt (h.below _ _ he y (by simp [argsOf]))⟩

theorem atoms_spec (h : WF H s) {t : Tm} (ht : IsReal s t) :
    ∀ x ∈ atoms s t, IsReal s x ∧ VarLike s x ∧ x.index ≤ t.index := by
  intro x hx
  rcases mono_cases h ht with ⟨hm, hk⟩ | ⟨as, p, he, _, _, _, hm⟩
  · rw [atoms_mono hk] at hx
    exact monoAtoms_spec h hm x hx
  · rw [atoms_poly he] at hx
    obtain ⟨a, ha, hx⟩ := List.mem_flatMap.mp hx
    obtain ⟨h1, h2, h3⟩ := monoAtoms_spec h (hm a ha) x hx
    exact ⟨h1, h2, h3.trans (le_of_lt (h.below _ _ he a ha))⟩

theorem monoVal_congr {ρ ρ' : Tm → ℚ} {t : Tm} (h : ∀ x ∈ monoAtoms s t, ρ x = ρ' x) :
    monoVal ρ s t = monoVal ρ' s t := by
  unfold monoVal
  unfold monoAtoms at h
  cases hk : s.kind t <;> rw [hk] at h <;> simp only at h ⊢ <;> simp_all

theorem linVal_congr {ρ ρ' : Tm → ℚ} {t : Tm} (h : ∀ x ∈ atoms s t, ρ x = ρ' x) :
    linVal ρ s t = linVal ρ' s t := by
  unfold linVal
  unfold atoms at h
  split
  · rename_i hk
    rw [if_pos hk] at h
    congr 1
    apply List.map_congr_left
    intro a ha
    exact monoVal_congr fun x hx => h x (List.mem_flatMap.mpr ⟨a, ha, hx⟩)
  · rename_i hk
    rw [if_neg hk] at h
    exact monoVal_congr h

/-- The value of a real term is the value of its polynomial. -/
theorem denQ_linVal (h : WF H s) {t : Tm} (ht : IsReal s t) (I : Interp) :
    denQ I s t = linVal (denQ I s) s t := by
  rcases real_cases h ht with ⟨q, he⟩ | hv | ⟨c, x, q, he, hc, hce, hq, hx, hxv⟩ | ⟨as, p, he, hl, hok, hf⟩
  · unfold linVal monoVal
    rw [kind_of_entry he]
    simp only [reduceCtorEq, if_false]
    rw [denQ_const h he ht.2, constValue_of_entry he]
  · unfold linVal monoVal
    rcases hv with hv | hv | hv <;> rw [hv] <;> rfl
  · obtain ⟨g1, g2, g3⟩ := product_of_entry he hce
    unfold linVal monoVal
    rw [g1]
    simp only [reduceCtorEq, if_false]
    rw [g2, g3, denQ_product h he ht.2 hce hc]
  · rw [denQ_poly h ht.2 he hf]
    unfold linVal
    rw [if_pos (kind_of_entry he), allArgs_of_entry he]
    clear he hl hok
    induction hf with
    | nil => rfl
    | cons hm _ ih => rw [List.map_cons, List.sum_cons, ← ih, APoly.val_cons, (monoVal_mono h hm _).1]

/-! ### Variables -/

theorem termToVar_real {t : Tm} (ht : IsReal s t) :
    UF.termToVar s st t = (mapFind st.ratVars t).map Var.rat := by
  unfold UF.termToVar; rw [ht.1]

theorem mapFind_notVar (hI : IInv s st) {t : Tm} (hv : ¬ VarLike s t) : mapFind st.ratVars t = none := by
  cases hf : mapFind st.ratVars t with
  | none => rfl
  | some v => exact absurd (hI.rat _ (mapFind_mem hf)).2.1 hv

theorem not_varLike_const {t : Tm} {q : ℚ} (h : s.entry t = some ⟨.arithConst, .real, .rat q⟩) : ¬ VarLike s t := by
  unfold VarLike; rw [kind_of_entry h]; simp

theorem not_varLike_product {t c x : Tm} (h : s.entry t = some ⟨.product, .real, .comp [c, x]⟩) : ¬ VarLike s t := by
  unfold VarLike; rw [kind_of_entry h]; simp

theorem not_varLike_poly {t : Tm} {as : List Tm} (h : s.entry t = some ⟨.poly, .real, .comp as⟩) :
    ¬ VarLike s t := by
  unfold VarLike; rw [kind_of_entry h]; simp

/-- The variables of a list of terms. -/
def varsOf (st : IState) (xs : List Tm) : List Var := xs.flatMap fun x => ((mapFind st.ratVars x).map Var.rat).toList

theorem mem_varsOf {xs : List Tm} {v : Var} :
    v ∈ varsOf st xs ↔ ∃ x ∈ xs, ∃ n, mapFind st.ratVars x = some n ∧ v = Var.rat n := by
  unfold varsOf
  simp only [List.mem_flatMap]
  constructor
  · rintro ⟨x, hx, hv⟩
    cases hm : mapFind st.ratVars x with
    | none => rw [hm] at hv; simp at hv
    | some n => rw [hm] at hv; exact ⟨x, hx, n, hm, by simpa using hv⟩
  · rintro ⟨x, hx, n, hm, rfl⟩
    exact ⟨x, hx, by rw [hm]; simp⟩

theorem watch_mono (h : WF H s) (hI : IInv s st) {t : Tm} (ht : Mono s t) {n : Nat} (hn : t.index < n) :
    UF.varsToWatch s st n t = varsOf st (monoAtoms s t) := by
  obtain ⟨n, rfl⟩ : ∃ k, n = k + 1 := ⟨n - 1, by omega⟩
  rw [UF.varsToWatch]
  rcases ht with ⟨_, q, he⟩ | ht | ⟨_, c, y, q, he, hc, hce, hy, hyv⟩
  · rw [kind_of_entry he, monoAtoms_const he]; rfl
  · rw [monoAtoms_var ht.2]
    have : UF.termToVar s st t = (mapFind st.ratVars t).map Var.rat := termToVar_real ht.1
    unfold varsOf
    rcases ht.2 with hk | hk | hk <;> rw [hk] <;> simp [this]
  · have h1 : c.index < t.index := h.below _ _ he c (by simp [argsOf])
    have h2 : y.index < t.index := h.below _ _ he y (by simp [argsOf])
    rw [kind_of_entry he, monoAtoms_product he hce]
    simp only
    rw [args_of_entry he (by simp)]
    obtain ⟨n, rfl⟩ : ∃ k, n = k + 1 := ⟨n - 1, by omega⟩
    have e1 : UF.varsToWatch s st (n + 1) c = [] := by rw [UF.varsToWatch, kind_of_entry hce]
    have e2 : UF.varsToWatch s st (n + 1) y = ((mapFind st.ratVars y).map Var.rat).toList := by
      rw [UF.varsToWatch, ← termToVar_real hy]
      rcases hyv with hk | hk | hk <;> rw [hk]
    simp [e1, e2, varsOf]

theorem watch_real (h : WF H s) (hI : IInv s st) {t : Tm} (ht : IsReal s t) {n : Nat} (hn : t.index < n) :
    UF.varsToWatch s st n t = varsOf st (atoms s t) := by
  rcases mono_cases h ht with ⟨hm, hk⟩ | ⟨as, p, he, _, _, _, hm⟩
  · rw [atoms_mono hk]; exact watch_mono h hI hm hn
  · obtain ⟨n, rfl⟩ : ∃ k, n = k + 1 := ⟨n - 1, by omega⟩
    rw [UF.varsToWatch, kind_of_entry he, atoms_poly he]
    simp only
    rw [args_of_entry he (by simp)]
    unfold varsOf
    rw [List.flatMap_assoc]
    refine List.flatMap_congr fun a ha => ?_
    have : a.index < t.index := h.below _ _ he a ha
    exact watch_mono h hI (hm a ha) (by omega)

/-! ### Evaluation -/

/-- The value of a variable-like term on the trail. -/
def ratVal (st : IState) (tr : Trail R) (x : Tm) : ℚ :=
  match mapFind st.ratVars x with
  | some v => tr.rats.value v
  | none => 0

/-- The terms have variables, and these are assigned. -/
def Ready (st : IState) (tr : Trail R) (xs : List Tm) : Prop :=
  ∀ x ∈ xs, ∃ v l, mapFind st.ratVars x = some v ∧ tr.level (Var.rat v) = some l

/-- `L` is the largest level of the variables, 0 if there are none. -/
structure MaxLevel (st : IState) (tr : Trail R) (xs : List Tm) (L : Nat) : Prop where
  le : ∀ x ∈ xs, ∀ v l, mapFind st.ratVars x = some v → tr.level (Var.rat v) = some l → l ≤ L
  eq : L = 0 ∨ ∃ x ∈ xs, ∃ v, mapFind st.ratVars x = some v ∧ tr.level (Var.rat v) = some L

theorem MaxLevel.nil (st : IState) (tr : Trail R) : MaxLevel st tr [] 0 :=
  ⟨by simp, .inl rfl⟩

theorem MaxLevel.append {tr : Trail R} {xs ys : List Tm} {L M : Nat} (h1 : MaxLevel st tr xs L)
    (h2 : MaxLevel st tr ys M) : MaxLevel st tr (xs ++ ys) (max L M) := by
  constructor
  · intro x hx v l hv hl
    rcases List.mem_append.mp hx with hx | hx
    · exact (h1.le x hx v l hv hl).trans (le_max_left _ _)
    · exact (h2.le x hx v l hv hl).trans (le_max_right _ _)
  · rcases le_total L M with hle | hle
    · rw [max_eq_right hle]
      rcases h2.eq with h | ⟨x, hx, h⟩
      · exact .inl h
      · exact .inr ⟨x, List.mem_append_right _ hx, h⟩
    · rw [max_eq_left hle]
      rcases h1.eq with h | ⟨x, hx, h⟩
      · exact .inl h
      · exact .inr ⟨x, List.mem_append_left _ hx, h⟩

theorem evaluate_var {tr : Trail R} {t : Tm} (ht : IsReal s t) {v l : Nat} (hv : mapFind st.ratVars t = some v)
    (hl : tr.level (Var.rat v) = some l) (n : Nat) :
    UF.evaluate s st tr (n + 1) t = some (.q (tr.rats.value v), l) := by
  rw [UF.evaluate, termToVar_real ht, hv]
  simp only [Option.map_some]
  rw [hl]
  rfl

theorem evaluate_const (hI : IInv s st) {tr : Trail R} {t : Tm} {q : ℚ} (hn : t.isNeg = false)
    (he : s.entry t = some ⟨.arithConst, .real, .rat q⟩) (n : Nat) :
    UF.evaluate s st tr (n + 1) t = some (.q q, 0) := by
  rw [UF.evaluate, termToVar_real ⟨type_of_entry he, hn⟩, mapFind_notVar hI (not_varLike_const he)]
  simp only [Option.map_none]
  rw [kind_of_entry he]
  simp only
  rw [constValue_of_entry he]

theorem evaluate_mono (h : WF H s) (hI : IInv s st) {tr : Trail R} {t : Tm} (ht : Mono s t) {n : Nat}
    (hn : t.index < n) (hr : Ready st tr (monoAtoms s t)) :
    ∃ L, UF.evaluate s st tr n t = some (.q (monoVal (ratVal st tr) s t), L) ∧
      MaxLevel st tr (monoAtoms s t) L := by
  obtain ⟨n, rfl⟩ : ∃ k, n = k + 1 := ⟨n - 1, by omega⟩
  have single : ∀ {x : Tm} {v l : Nat}, mapFind st.ratVars x = some v → tr.level (Var.rat v) = some l →
      MaxLevel st tr [x] l := by
    intro x v l hv hl
    refine ⟨?_, .inr ⟨x, by simp, v, hv, hl⟩⟩
    intro y hy w m hw hm
    rw [List.mem_singleton.mp hy, hv] at hw
    cases hw
    rw [hl] at hm
    cases hm
    exact le_refl _
  rcases ht with ⟨hneg, q, he⟩ | ht | ⟨hneg, c, y, q, he, hc, hce, hy, hyv⟩
  · refine ⟨0, ?_, by rw [monoAtoms_const he]; exact .nil _ _⟩
    rw [evaluate_const hI hneg he]
    unfold monoVal
    rw [kind_of_entry he]
    simp only
    rw [constValue_of_entry he]
  · rw [monoAtoms_var ht.2] at hr ⊢
    obtain ⟨v, l, hv, hl⟩ := hr t (by simp)
    refine ⟨l, ?_, single hv hl⟩
    rw [evaluate_var ht.1 hv hl]
    have : monoVal (ratVal st tr) s t = ratVal st tr t := by
      unfold monoVal; rcases ht.2 with hk | hk | hk <;> rw [hk]
    rw [this]
    unfold ratVal
    rw [hv]
  · have h1 : c.index < t.index := h.below _ _ he c (by simp [argsOf])
    rw [monoAtoms_product he hce] at hr ⊢
    obtain ⟨v, l, hv, hl⟩ := hr y (by simp)
    obtain ⟨n, rfl⟩ : ∃ k, n = k + 1 := ⟨n - 1, by omega⟩
    obtain ⟨g1, g2, g3⟩ := product_of_entry he hce
    refine ⟨l, ?_, single hv hl⟩
    rw [UF.evaluate, termToVar_real ⟨type_of_entry he, hneg⟩, mapFind_notVar hI (not_varLike_product he)]
    simp only [Option.map_none]
    rw [g1]
    simp only
    rw [args_of_entry he (by simp)]
    simp only
    rw [evaluate_const hI hc hce, evaluate_var hy hv hl]
    simp only [Nat.zero_max]
    unfold monoVal
    rw [g1]
    simp only
    rw [g2, g3]
    unfold ratVal
    rw [hv]

theorem evalSum_spec (h : WF H s) (hI : IInv s st) {tr : Trail R} {n : Nat} : ∀ (as : List Tm),
    (∀ a ∈ as, Mono s a ∧ a.index < n) → Ready st tr (as.flatMap (monoAtoms s)) → ∀ (x : ℚ) (ys : List Tm) (l : Nat),
    MaxLevel st tr ys l →
    ∃ L, UF.evalSum (UF.evaluate s st tr n) as (x, l) = some (x + (as.map (monoVal (ratVal st tr) s)).sum, L) ∧
      MaxLevel st tr (ys ++ as.flatMap (monoAtoms s)) L := by
  intro as
  induction as with
  | nil => intro _ _ x ys l hl; exact ⟨l, by simp [UF.evalSum], by simpa using hl⟩
  | cons a as ih =>
    intro hm hr x ys l hl
    rw [List.flatMap_cons] at hr
    obtain ⟨M, h1, h2⟩ := evaluate_mono h hI (tr := tr) (hm a (by simp)).1 (hm a (by simp)).2
      (fun y hy => hr y (List.mem_append_left _ hy))
    obtain ⟨L, h3, h4⟩ := ih (fun b hb => hm b (by simp [hb])) (fun y hy => hr y (List.mem_append_right _ hy))
      (x + monoVal (ratVal st tr) s a) (ys ++ monoAtoms s a) (max l M) (hl.append h2)
    refine ⟨L, ?_, ?_⟩
    · rw [UF.evalSum, h1]
      simp only
      rw [h3, List.map_cons, List.sum_cons, add_assoc]
    · rw [List.flatMap_cons, ← List.append_assoc]; exact h4

/-- `evaluate` gives the value of the polynomial and the largest level of its variables. -/
theorem evaluate_real (h : WF H s) (hI : IInv s st) {tr : Trail R} {t : Tm} (ht : IsReal s t) {n : Nat}
    (hn : t.index < n) (hr : Ready st tr (atoms s t)) :
    ∃ L, UF.evaluate s st tr n t = some (.q (linVal (ratVal st tr) s t), L) ∧
      MaxLevel st tr (atoms s t) L := by
  rcases mono_cases h ht with ⟨hm, hk⟩ | ⟨as, p, he, _, _, _, hm⟩
  · rw [atoms_mono hk] at hr ⊢
    unfold linVal
    rw [if_neg hk]
    exact evaluate_mono h hI hm hn hr
  · obtain ⟨n, rfl⟩ : ∃ k, n = k + 1 := ⟨n - 1, by omega⟩
    rw [atoms_poly he] at hr ⊢
    have hb : ∀ a ∈ as, Mono s a ∧ a.index < n := by
      intro a ha
      have : a.index < t.index := h.below _ _ he a ha
      exact ⟨hm a ha, by omega⟩
    obtain ⟨L, h1, h2⟩ := evalSum_spec h hI as hb hr 0 [] 0 (.nil _ _)
    refine ⟨L, ?_, by simpa using h2⟩
    rw [UF.evaluate, termToVar_real ht, mapFind_notVar hI (not_varLike_poly he)]
    simp only [Option.map_none]
    rw [kind_of_entry he]
    simp only
    rw [args_of_entry he (by simp), h1]
    unfold linVal
    rw [if_pos (kind_of_entry he), allArgs_of_entry he]
    simp

/-! ### Polynomials -/

theorem toPolyArgs_eq (h : WF H s) (hI : IInv s st) : ∀ (as : List Tm), (∀ a ∈ as, Mono s a) → ∀ p,
    UF.toPolyArgs s st as p = polyArgs s st as p := by
  intro as
  induction as with
  | nil => intro _ p; rfl
  | cons a as ih =>
    intro hm p
    have ih := ih fun b hb => hm b (by simp [hb])
    rw [UF.toPolyArgs, polyArgs, termToVar_real (hm a (by simp)).isReal]
    rcases hm a (by simp) with ⟨hneg, q, he⟩ | ht | ⟨hneg, c, y, q, he, hc, hce, hy, hyv⟩
    · rw [mapFind_notVar hI (not_varLike_const he), kind_of_entry he]
      exact ih _
    · cases hv : mapFind st.ratVars a with
      | none => rcases ht.2 with hk | hk | hk <;> rw [hk] <;> rfl
      | some v => rcases ht.2 with hk | hk | hk <;> rw [hk] <;> exact ih _
    · obtain ⟨g1, g2, g3⟩ := product_of_entry he hce
      rw [mapFind_notVar hI (not_varLike_product he), g1]
      simp only [Option.map_none]
      rw [g2, g3, termToVar_real hy]
      cases hv : mapFind st.ratVars y with
      | none => rfl
      | some v => exact ih _

theorem toPoly_eq (h : WF H s) (hI : IInv s st) {t : Tm} (ht : IsReal s t) :
    UF.toPoly s st t = poly s st t := by
  unfold UF.toPoly poly
  rw [termToVar_real ht]
  rcases mono_cases h ht with ⟨hm, hk⟩ | ⟨as, p, he, _, _, _, hm⟩
  · rcases hm with ⟨hneg, q, he⟩ | ht | ⟨hneg, c, y, q, he, hc, hce, hy, hyv⟩
    · rw [mapFind_notVar hI (not_varLike_const he), kind_of_entry he]; rfl
    · cases hv : mapFind st.ratVars t with
      | none => rcases ht.2 with hk | hk | hk <;> rw [hk] <;> rfl
      | some v => rcases ht.2 with hk | hk | hk <;> rw [hk] <;> rfl
    · obtain ⟨g1, g2, g3⟩ := product_of_entry he hce
      rw [mapFind_notVar hI (not_varLike_product he), g1]
      simp only [Option.map_none]
      rw [g2, g3, termToVar_real hy]
      cases hv : mapFind st.ratVars y <;> rfl
  · rw [mapFind_notVar hI (not_varLike_poly he), kind_of_entry he]
    simp only [Option.map_none]
    rw [args_of_entry he (by simp)]
    exact toPolyArgs_eq h hI as hm _

theorem poly_rep (h : WF H s) {t : Tm} (ht : IsReal s t) {ip : UPoly} (hp : poly s st t = some ip) :
    ∃ ms : APoly, List.Forall₂ (MonoRep st) ms ip.terms ∧ (∀ m ∈ ms, ∀ x, m.1 = some x → x ∈ atoms s t) ∧
      ∀ ρ, APoly.val ρ ms + ip.const = linVal ρ s t := by
  unfold poly at hp
  rcases real_cases h ht with ⟨q, he⟩ | hv | ⟨c, x, q, he, hc, hce, hq, hx, hxv⟩ | ⟨as, p, he, hl, hok, hf⟩
  · rw [kind_of_entry he] at hp
    simp only [Option.some.injEq] at hp
    subst hp
    refine ⟨[], .nil, by simp, fun ρ => ?_⟩
    unfold linVal monoVal
    rw [kind_of_entry he]
    simp
  · have hp' : (mapFind st.ratVars t).map (fun v => (⟨[(v, 1)], 0⟩ : UPoly)) = some ip := by
      rcases hv with hv | hv | hv <;> rw [hv] at hp <;> exact hp
    cases hm : mapFind st.ratVars t with
    | none => rw [hm] at hp'; cases hp'
    | some v =>
      rw [hm] at hp'
      simp only [Option.map_some, Option.some.injEq] at hp'
      subst hp'
      refine ⟨[(some t, 1)], .cons ⟨t, rfl, hm, rfl⟩ .nil, by rw [atoms_var hv]; simp, fun ρ => ?_⟩
      unfold linVal monoVal
      rcases hv with hv | hv | hv <;> rw [hv] <;> simp [APoly.atom]
  · obtain ⟨g1, g2, g3⟩ := product_of_entry he hce
    rw [g1] at hp
    simp only at hp
    rw [g2, g3] at hp
    cases hm : mapFind st.ratVars x with
    | none => rw [hm] at hp; cases hp
    | some v =>
      rw [hm] at hp
      simp only [Option.map_some, Option.some.injEq] at hp
      subst hp
      refine ⟨[(some x, q)], .cons ⟨x, rfl, hm, rfl⟩ .nil, ?_, fun ρ => ?_⟩
      · rw [atoms_mono (by rw [g1]; decide), monoAtoms_product he hce]; simp
      · unfold linVal monoVal
        rw [g1]
        simp [g2, g3, APoly.atom]
  · rw [kind_of_entry he] at hp
    simp only at hp
    rw [args_of_entry he (by simp)] at hp
    have hval : ∀ ρ, APoly.val ρ p = linVal ρ s t := by
      intro ρ
      unfold linVal
      rw [if_pos (kind_of_entry he), allArgs_of_entry he]
      clear hp he hl hok
      induction hf with
      | nil => rfl
      | cons hm _ ih => rw [List.map_cons, List.sum_cons, ← ih, APoly.val_cons, (monoVal_mono h hm ρ).1]
    have hat : ∀ m ∈ p, ∀ x, m.1 = some x → x ∈ atoms s t := by
      intro m hm x hx
      obtain ⟨a, ha, hma⟩ := forall₂_mem_left hf hm
      rw [atoms_poly he]
      refine List.mem_flatMap.mpr ⟨a, ha, ?_⟩
      obtain ⟨v, q⟩ := m
      simp only at hx
      subst hx
      obtain ⟨h1, h2, h3⟩ := hma
      rcases h3 with ⟨_, rfl⟩ | ⟨_, c, h4, h5, h6, h7⟩
      · rw [monoAtoms_var h2]; simp
      · rw [monoAtoms_product h7 h5]; simp
    rcases p with _ | ⟨⟨_ | x, q⟩, ms⟩
    · simp at hl
    · cases hf with
      | @cons _ a _ as hm hf =>
        have hms : ∀ m ∈ ms, m.1 ≠ none := by
          intro m hm h0
          have := hok.head_lt m hm
          rw [h0] at this
          simp [APoly.varLt] at this
        rw [polyArgs, kind_of_entry hm.2] at hp
        simp only at hp
        obtain ⟨ts, h1, h2⟩ := polyArgs_vars hf hms hp
        subst h1
        refine ⟨ms, by simpa using h2, fun m hm => hat m (by simp [hm]), fun ρ => ?_⟩
        rw [← hval ρ, APoly.val_cons, constValue_of_entry hm.2]
        simp [APoly.atom]; ring
    · have hms : ∀ m ∈ (some x, q) :: ms, m.1 ≠ none := by
        intro m hm h0
        rcases List.mem_cons.mp hm with rfl | hm
        · cases h0
        · have := hok.head_lt m hm
          rw [h0] at this
          simp [APoly.varLt] at this
      obtain ⟨ts, h1, h2⟩ := polyArgs_vars hf hms hp
      subst h1
      exact ⟨_, by simpa using h2, hat, fun ρ => by rw [← hval ρ]; simp⟩

/-- The polynomial of a term has the value of the term. -/
theorem poly_val (h : WF H s) {t : Tm} (ht : IsReal s t) {ip : UPoly} (hp : poly s st t = some ip)
    {ρ : Tm → ℚ} {r : Nat → ℚ} (hr : ∀ x ∈ atoms s t, ∀ v, mapFind st.ratVars x = some v → r v = ρ x) :
    lsum r ip.terms + ip.const = linVal ρ s t := by
  obtain ⟨ms, h1, h2, h3⟩ := poly_rep h ht hp
  rw [← h3 ρ]
  congr 1
  clear h3
  generalize ip.terms = ts at h1
  induction h1 with
  | nil => rfl
  | @cons m q ms ts hm hf ih =>
    obtain ⟨x, hx, hv, hq⟩ := hm
    rw [lsum_cons, ih fun m' hm' => h2 m' (by simp [hm']), APoly.val_cons, hx, ← hq,
      hr x (h2 m (by simp) x hx) _ hv]
    rfl

/-- The variables of the polynomial of a term. -/
theorem poly_vars (h : WF H s) {t : Tm} (ht : IsReal s t) {ip : UPoly} (hp : poly s st t = some ip) :
    ∀ p ∈ ip.terms, ∃ x ∈ atoms s t, mapFind st.ratVars x = some p.1 := by
  obtain ⟨ms, h1, h2, _⟩ := poly_rep h ht hp
  intro p hp
  obtain ⟨m, hm, x, hx, hv, _⟩ := forall₂_mem_right h1 hp
  exact ⟨x, h2 m hm x hx, hv⟩

/-- The polynomial exists if the variables do. -/
theorem poly_exists (h : WF H s) {t : Tm} (ht : IsReal s t)
    (hv : ∀ x ∈ atoms s t, ∃ v, mapFind st.ratVars x = some v) : ∃ ip, poly s st t = some ip := by
  refine poly_total h ht ?_ ?_ ?_
  · intro hvl; exact hv t (by rw [atoms_var hvl]; simp)
  · intro c x he
    obtain ⟨_, c', x', q, h1, h2, h3, _, h4, h5⟩ := h.shape _ _ he
    simp only [Descr.comp.injEq, List.cons.injEq, and_true] at h1
    obtain ⟨rfl, rfl⟩ := h1
    exact hv x (by rw [atoms_mono (by rw [kind_of_entry he]; simp), monoAtoms_product he h3]; simp)
  · intro as he a ha
    have hat : ∀ x ∈ monoAtoms s a, ∃ v, mapFind st.ratVars x = some v := by
      intro x hx
      exact hv x (by rw [atoms_poly he]; exact List.mem_flatMap.mpr ⟨a, ha, hx⟩)
    refine ⟨fun hvl => hat a (by rw [monoAtoms_var hvl]; simp), fun c x hc => ?_⟩
    obtain ⟨_, c', x', q, h1, h2, h3, _, h4, h5⟩ := h.shape _ _ hc
    simp only [Descr.comp.injEq, List.cons.injEq, and_true] at h1
    obtain ⟨rfl, rfl⟩ := h1
    exact hat x (by rw [monoAtoms_product hc h3]; simp)

end Yaga
