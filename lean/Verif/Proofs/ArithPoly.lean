/-
Polynomials: merging, normal form.
-/
import Verif.Proofs.TermSem
import Mathlib.Tactic.Ring
import Mathlib.Tactic.Linarith
import Mathlib.Tactic.LinearCombination
import Mathlib.Algebra.BigOperators.Group.List.Basic

set_option linter.unusedSectionVars false
set_option linter.unusedVariables false
set_option linter.unusedSimpArgs false

namespace Yaga
namespace APoly

/-- Value of the variable of a monomial; a constant monomial has the variable 1. -/
def atom (ρ : Tm → ℚ) : Option Tm → ℚ
  | none => 1
  | some x => ρ x

/-- Value of a polynomial. -/
def val (ρ : Tm → ℚ) (p : APoly) : ℚ := (p.map fun m => m.2 * atom ρ m.1).sum

variable {ρ : Tm → ℚ}

@[simp] theorem val_nil : val ρ [] = 0 := rfl

@[simp] theorem val_cons (m : Option Tm × ℚ) (p : APoly) : val ρ (m :: p) = m.2 * atom ρ m.1 + val ρ p := by
  unfold val; simp

theorem val_append (p q : APoly) : val ρ (p ++ q) = val ρ p + val ρ q := by
  unfold val; simp

theorem val_map_mul (c : ℚ) (p : APoly) : val ρ (p.map fun o => (o.1, o.2 * c)) = c * val ρ p := by
  induction p with
  | nil => simp
  | cons m p ih => rw [List.map_cons, val_cons, val_cons, ih]; ring

theorem varLt_trans {a b c : Option Tm} (h1 : varLt a b = true) (h2 : varLt b c = true) :
    varLt a c = true := by
  cases a <;> cases b <;> cases c <;> simp_all [varLt, Tm.lt]
  omega

theorem varLt_irrefl (a : Option Tm) : varLt a a = false := by
  cases a <;> simp [varLt, Tm.lt]

theorem eq_of_not_varLt {a b : Option Tm} (h1 : ¬ varLt a b = true) (h2 : ¬ varLt b a = true) : a = b := by
  cases a with
  | none => cases b with
    | none => rfl
    | some b => simp [varLt] at h1
  | some a => cases b with
    | none => simp [varLt] at h2
    | some b =>
      simp only [varLt, Tm.lt, decide_eq_true_eq] at h1 h2
      have : a.x = b.x := by omega
      cases a; cases b; simp_all

theorem varLt_none (a : Option Tm) : varLt a none = false := by cases a <;> rfl

theorem mergeLoop_val (c : ℚ) (fuel : Nat) (p q : APoly) (h : p.length + q.length < fuel) :
    val ρ (mergeLoop c fuel p q) = val ρ p + c * val ρ q := by
  induction fuel generalizing p q with
  | zero => omega
  | succ fuel ih =>
    match p, q with
    | [], q => rw [mergeLoop, val_map_mul]; simp
    | m :: p, [] => rw [mergeLoop] <;> simp
    | m :: p, o :: q =>
      simp only [List.length_cons] at h
      rw [mergeLoop]
      split
      · rw [val_cons, ih p (o :: q) (by simp only [List.length_cons]; omega), val_cons, val_cons]; ring
      · split
        · rw [val_cons, ih (m :: p) q (by simp only [List.length_cons]; omega), val_cons, val_cons]; ring
        · rename_i h1 h2
          have hv := eq_of_not_varLt h1 h2
          split
          · rename_i h3
            rw [ih p q (by omega), val_cons, val_cons, ← hv]
            linear_combination (-(atom ρ m.1)) * h3
          · rw [val_cons, ih p q (by omega), val_cons, val_cons, ← hv]; ring

theorem merge_val (p q : APoly) (c : ℚ) : val ρ (merge p q c) = val ρ p + c * val ρ q :=
  mergeLoop_val c _ p q (by omega)

theorem negate_val (p : APoly) : val ρ (negate p) = - val ρ p := by
  induction p with
  | nil => simp [negate]
  | cons m p ih =>
    have : val ρ (negate (m :: p)) = (-m.2) * atom ρ m.1 + val ρ (negate p) := by
      unfold negate; rw [List.map_cons, val_cons]
    rw [this, ih, val_cons]; ring

theorem multiplyBy_val (p : APoly) (r : ℚ) : val ρ (multiplyBy p r) = r * val ρ p := val_map_mul r p

/-- Every monomial of the merged polynomial has the variable of a monomial of one of them. -/
theorem mem_mergeLoop {c : ℚ} {fuel : Nat} {p q : APoly} {m : Option Tm × ℚ}
    (h : m ∈ mergeLoop c fuel p q) : (∃ k ∈ p, k.1 = m.1) ∨ ∃ k ∈ q, k.1 = m.1 := by
  induction fuel generalizing p q with
  | zero => simp [mergeLoop] at h
  | succ fuel ih =>
    match p, q with
    | [], q =>
      rw [mergeLoop] at h
      obtain ⟨k, hk, rfl⟩ := List.mem_map.mp h
      exact Or.inr ⟨k, hk, rfl⟩
    | a :: p, [] =>
      rw [mergeLoop] at h
      · exact Or.inl ⟨m, h, rfl⟩
      · simp
    | a :: p, o :: q =>
      rw [mergeLoop] at h
      have lift : ∀ {p' q' : APoly}, (∀ k ∈ p', k ∈ a :: p) → (∀ k ∈ q', k ∈ o :: q) →
          ((∃ k ∈ p', k.1 = m.1) ∨ ∃ k ∈ q', k.1 = m.1) →
          (∃ k ∈ a :: p, k.1 = m.1) ∨ ∃ k ∈ o :: q, k.1 = m.1 := by
        intro p' q' hp hq h
        exact h.imp (fun ⟨k, hk, he⟩ => ⟨k, hp k hk, he⟩) (fun ⟨k, hk, he⟩ => ⟨k, hq k hk, he⟩)
      split at h
      · rcases List.mem_cons.mp h with rfl | h
        · exact Or.inl ⟨m, by simp, rfl⟩
        · exact lift (by intro k hk; simp [hk]) (by intro k hk; exact hk) (ih h)
      · split at h
        · rcases List.mem_cons.mp h with rfl | h
          · exact Or.inr ⟨o, by simp, rfl⟩
          · exact lift (by intro k hk; exact hk) (by intro k hk; simp [hk]) (ih h)
        · split at h
          · exact lift (by intro k hk; simp [hk]) (by intro k hk; simp [hk]) (ih h)
          · rcases List.mem_cons.mp h with rfl | h
            · exact Or.inl ⟨a, by simp, rfl⟩
            · exact lift (by intro k hk; simp [hk]) (by intro k hk; simp [hk]) (ih h)

theorem _root_.Yaga.PolyOK.tail {m : Option Tm × ℚ} {p : APoly} (h : PolyOK (m :: p)) : PolyOK p :=
  ⟨(List.pairwise_cons.mp h.sorted).2, fun k hk => h.nonzero k (by simp [hk])⟩

theorem _root_.Yaga.PolyOK.head_lt {m : Option Tm × ℚ} {p : APoly} (h : PolyOK (m :: p)) :
    ∀ k ∈ p, varLt m.1 k.1 = true := (List.pairwise_cons.mp h.sorted).1

theorem mapMul_ok {c : ℚ} (hc : c ≠ 0) {p : APoly} (h : PolyOK p) :
    PolyOK (p.map fun o => (o.1, o.2 * c)) := by
  refine ⟨?_, ?_⟩
  · rw [List.pairwise_map]; exact h.sorted
  · intro m hm
    obtain ⟨k, hk, rfl⟩ := List.mem_map.mp hm
    exact mul_ne_zero (h.nonzero k hk) hc

theorem mergeLoop_ok {c : ℚ} (hc : c ≠ 0) (fuel : Nat) {p q : APoly} (hp : PolyOK p) (hq : PolyOK q) :
    PolyOK (mergeLoop c fuel p q) := by
  induction fuel generalizing p q with
  | zero => exact ⟨by simp [mergeLoop], by simp [mergeLoop]⟩
  | succ fuel ih =>
    match p, q with
    | [], q => rw [mergeLoop]; exact mapMul_ok hc hq
    | m :: p, [] =>
      rw [mergeLoop]
      · exact hp
      · simp
    | m :: p, o :: q =>
      have cons_ok : ∀ {k : Option Tm × ℚ} {l : APoly}, k.2 ≠ 0 → PolyOK l →
          (∀ x ∈ l, varLt k.1 x.1 = true) → PolyOK (k :: l) := by
        intro k l h1 h2 h3
        refine ⟨List.pairwise_cons.mpr ⟨h3, h2.sorted⟩, ?_⟩
        intro x hx
        rcases List.mem_cons.mp hx with rfl | hx
        · exact h1
        · exact h2.nonzero x hx
      rw [mergeLoop]
      split
      · rename_i h1
        refine cons_ok (hp.nonzero m (by simp)) (ih hp.tail hq) ?_
        intro x hx
        rcases mem_mergeLoop hx with ⟨k, hk, he⟩ | ⟨k, hk, he⟩
        · rw [← he]; exact hp.head_lt k hk
        · rw [← he]
          rcases List.mem_cons.mp hk with rfl | hk
          · exact h1
          · exact varLt_trans h1 (hq.head_lt k hk)
      · split
        · rename_i h1 h2
          refine cons_ok (mul_ne_zero (hq.nonzero o (by simp)) hc) (ih hp hq.tail) ?_
          intro x hx
          rcases mem_mergeLoop hx with ⟨k, hk, he⟩ | ⟨k, hk, he⟩
          · rw [← he]
            rcases List.mem_cons.mp hk with rfl | hk
            · exact h2
            · exact varLt_trans h2 (hp.head_lt k hk)
          · rw [← he]; exact hq.head_lt k hk
        · rename_i h1 h2
          have hv := eq_of_not_varLt h1 h2
          split
          · exact ih hp.tail hq.tail
          · rename_i h3
            refine cons_ok h3 (ih hp.tail hq.tail) ?_
            intro x hx
            rcases mem_mergeLoop hx with ⟨k, hk, he⟩ | ⟨k, hk, he⟩
            · rw [← he]; exact hp.head_lt k hk
            · rw [← he]; show varLt m.1 _ = _; rw [hv]; exact hq.head_lt k hk

theorem merge_ok {c : ℚ} (hc : c ≠ 0) {p q : APoly} (hp : PolyOK p) (hq : PolyOK q) :
    PolyOK (merge p q c) := mergeLoop_ok hc _ hp hq

theorem nil_ok : PolyOK [] := ⟨List.Pairwise.nil, by simp⟩

theorem singleton_ok {m : Option Tm × ℚ} (h : m.2 ≠ 0) : PolyOK [m] :=
  ⟨List.pairwise_singleton _ _, by simpa using h⟩

theorem negate_ok {p : APoly} (h : PolyOK p) : PolyOK (negate p) := by
  refine ⟨?_, ?_⟩
  · unfold negate; rw [List.pairwise_map]; exact h.sorted
  · intro m hm
    obtain ⟨k, hk, rfl⟩ := List.mem_map.mp hm
    exact neg_ne_zero.mpr (h.nonzero k hk)

theorem multiplyBy_ok {p : APoly} {r : ℚ} (hr : r ≠ 0) (h : PolyOK p) : PolyOK (multiplyBy p r) :=
  mapMul_ok hr h

/-- Merging a greater monomial appends it. -/
theorem mergeLoop_snoc (fuel : Nat) {p : APoly} {m : Option Tm × ℚ} (hf : p.length < fuel)
    (h : ∀ k ∈ p, varLt k.1 m.1 = true) : mergeLoop 1 fuel p [m] = p ++ [m] := by
  induction fuel generalizing p with
  | zero => omega
  | succ fuel ih =>
    match p with
    | [] => rw [mergeLoop]; simp
    | k :: p =>
      rw [mergeLoop, if_pos (h k (by simp)), ih (by simp only [List.length_cons] at hf; omega)
        (fun x hx => h x (by simp [hx]))]
      rfl

theorem merge_snoc {p : APoly} {m : Option Tm × ℚ} (h : ∀ k ∈ p, varLt k.1 m.1 = true) :
    merge p [m] 1 = p ++ [m] := mergeLoop_snoc _ (by simp; omega) h

/-- A polynomial in normal form whose value is always 0 has no monomials. -/
theorem eq_nil_of_val {p : APoly} (hp : PolyOK p) (h : ∀ ρ, val ρ p = 0) : p = [] := by
  match p, hp, h with
  | [], _, _ => rfl
  | m :: p, hp, h =>
    exfalso
    have hm := hp.nonzero m (by simp)
    have hlt := hp.head_lt
    have rest : ∀ (ρ : Tm → ℚ), (∀ k ∈ p, atom ρ k.1 = 0) → val ρ p = 0 := by
      intro ρ hk
      unfold val
      apply List.sum_eq_zero
      intro x hx
      obtain ⟨k, hk', rfl⟩ := List.mem_map.mp hx
      rw [hk k hk', mul_zero]
    obtain ⟨v, q⟩ := m
    cases v with
    | none =>
      have h1 := h (fun _ => 0)
      rw [val_cons, rest] at h1
      · simp [atom] at h1; exact hm h1
      · intro k hk
        have := hlt k hk
        cases hv : k.1 with
        | none => rw [hv] at this; simp [varLt] at this
        | some x => rfl
    | some x =>
      have h1 := h (fun y => if y = x then 1 else 0)
      rw [val_cons, rest] at h1
      · simp [atom] at h1; exact hm h1
      · intro k hk
        have := hlt k hk
        cases hv : k.1 with
        | none => rw [hv] at this; simp [varLt] at this
        | some y =>
          rw [hv] at this
          show (if y = x then (1 : ℚ) else 0) = 0
          rw [if_neg]
          intro he
          rw [he] at this
          have h2 := varLt_irrefl (some x)
          simp only at this
          rw [this] at h2
          cases h2

/-- If the difference has no monomials then the polynomials are equal. -/
theorem eq_of_mergeLoop_nil (fuel : Nat) {p q : APoly} (hf : p.length + q.length < fuel)
    (h : mergeLoop (-1) fuel p q = []) : p = q := by
  induction fuel generalizing p q with
  | zero => omega
  | succ fuel ih =>
    match p, q with
    | [], q =>
      rw [mergeLoop] at h
      exact (List.map_eq_nil_iff.mp h).symm
    | m :: p, [] =>
      rw [mergeLoop] at h
      · cases h
      · simp
    | m :: p, o :: q =>
      rw [mergeLoop] at h
      split at h
      · cases h
      · split at h
        · cases h
        · rename_i h1 h2
          have hv := eq_of_not_varLt h1 h2
          split at h
          · rename_i h3
            simp only [List.length_cons] at hf
            rw [ih (by omega) h]
            have : m.2 = o.2 := by linarith
            congr 1
            exact Prod.ext hv this
          · cases h

theorem eq_of_merge_nil {p q : APoly} (h : merge p q (-1) = []) : p = q :=
  eq_of_mergeLoop_nil _ (by omega) h

/-- Normal forms are unique. -/
theorem eq_of_val {p q : APoly} (hp : PolyOK p) (hq : PolyOK q) (h : ∀ ρ, val ρ p = val ρ q) : p = q := by
  apply eq_of_merge_nil
  apply eq_nil_of_val (merge_ok (by norm_num) hp hq)
  intro ρ
  rw [merge_val, h ρ]; ring

theorem merge_self_nil {p : APoly} (hp : PolyOK p) : merge p p (-1) = [] := by
  apply eq_nil_of_val (merge_ok (by norm_num) hp hp)
  intro ρ
  rw [merge_val]; ring

end APoly
end Yaga
