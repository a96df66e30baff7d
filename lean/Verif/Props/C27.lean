/-
C27: operations on linear polynomials.
-/
import Verif.Proofs.LinearPolynomial
import Verif.Spec.Fm

namespace Yaga
open Spec

/-- C27. `add` adds the values, in every assignment; the result is normal if both operands are. -/
theorem C27_add (p x : UPoly) :
    (∀ σ, pval σ (p.add x).terms (p.add x).const = pval σ p.terms p.const + pval σ x.terms x.const) ∧
    (NormalTerms p.terms → NormalTerms x.terms → NormalTerms (p.add x).terms) := by
  refine ⟨fun σ => ?_, fun h1 h2 => ?_⟩
  · unfold pval UPoly.add
    simp only
    rw [UPoly.lsum_foldl_addTerm]; ring
  · have := UPoly.wf_foldl (ts := p.terms) (xs := x.terms) ⟨h1.1, h1.2⟩ h2.2
    exact ⟨this.nodup, this.nz⟩

/-- C27. `sub` subtracts the values, in every assignment; the result is normal if both operands
are. -/
theorem C27_sub (p x : UPoly) :
    (∀ σ, pval σ (p.sub x).terms (p.sub x).const = pval σ p.terms p.const - pval σ x.terms x.const) ∧
    (NormalTerms p.terms → NormalTerms x.terms → NormalTerms (p.sub x).terms) := by
  unfold UPoly.sub
  obtain ⟨h1, h2⟩ := C27_add p ⟨x.terms.map fun t => (t.1, t.2 * (-1)), x.const * (-1)⟩
  refine ⟨fun σ => ?_, fun a b => h2 a ⟨?_, ?_⟩⟩
  · rw [h1]
    unfold pval
    simp only
    rw [lsum_scale]; ring
  · rw [List.map_map]; exact b.1
  · intro q hq
    obtain ⟨t, ht, rfl⟩ := List.mem_map.mp hq
    exact mul_ne_zero (b.2 t ht) (by norm_num)

/-- C27. `negate` negates the value and keeps the normal form. -/
theorem C27_negate (p : UPoly) :
    (∀ σ, pval σ p.negate.terms p.negate.const = -pval σ p.terms p.const) ∧
    (NormalTerms p.terms → NormalTerms p.negate.terms) := by
  refine ⟨fun σ => ?_, fun h => ⟨?_, ?_⟩⟩
  · unfold pval UPoly.negate
    simp only
    have : p.terms.map (fun t => (t.1, -t.2)) = p.terms.map fun t => (t.1, t.2 * (-1)) := by
      apply List.map_congr_left; intro t _; simp
    rw [this, lsum_scale]; ring
  · unfold UPoly.negate
    simp only
    rw [List.map_map]; exact h.1
  · intro q hq
    obtain ⟨t, ht, rfl⟩ := List.mem_map.mp hq
    exact neg_ne_zero.mpr (h.2 t ht)

/-- C27. `subtract_var` subtracts the variable; the result is normal if the variable was absent. -/
theorem C27_subtract_var (p : UPoly) (v : Nat) :
    (∀ σ, pval σ (p.subtractVar v).terms (p.subtractVar v).const =
      pval σ p.terms p.const - σ v) ∧
    (NormalTerms p.terms → v ∉ p.terms.map (·.1) → NormalTerms (p.subtractVar v).terms) := by
  refine ⟨fun σ => ?_, fun h hv => ⟨?_, ?_⟩⟩
  · unfold pval UPoly.subtractVar
    simp only
    rw [lsum_append]; simp; ring
  · unfold UPoly.subtractVar
    simp only
    rw [List.map_append, List.nodup_append]
    refine ⟨h.1, by simp, ?_⟩
    intro a ha b hb hab
    simp at hb
    subst hab; subst hb
    exact hv ha
  · intro q hq
    rcases List.mem_append.mp hq with hq | hq
    · exact h.2 q hq
    · simp at hq; subst hq; norm_num

/-- C27. `sort` keeps the terms and the value, and orders by decreasing decision level (variables
without a level last). -/
theorem C27_sort (lvl : Nat → Option Int) (p : UPoly) :
    (p.sort lvl).terms.Perm p.terms ∧
    (∀ σ, pval σ (p.sort lvl).terms (p.sort lvl).const = pval σ p.terms p.const) ∧
    (p.sort lvl).terms.Pairwise (fun a b => ∀ i, lvl b.1 = some i → ∃ j, lvl a.1 = some j ∧ i ≤ j) := by
  have hp := sortBy_perm (fun a b : Nat × ℚ => UPoly.optGt (lvl a.1) (lvl b.1)) p.terms
  refine ⟨hp, fun σ => ?_, ?_⟩
  · unfold pval UPoly.sort; simp only; rw [lsum_perm hp]
  · have := sortBy_pairwise (fun a b : Nat × ℚ => UPoly.optGt (lvl a.1) (lvl b.1))
      (by
        intro a b c h1 h2
        cases ha : lvl a.1 <;> cases hb : lvl b.1 <;> cases hc : lvl c.1 <;>
          simp [UPoly.optGt, ha, hb, hc] at h1 h2 ⊢
        omega)
      (by
        intro a b h
        cases ha : lvl a.1 <;> cases hb : lvl b.1 <;> simp [UPoly.optGt, ha, hb] at h ⊢
        omega) p.terms
    refine this.imp ?_
    intro a b h i hi
    rw [hi] at h
    cases ha : lvl a.1 with
    | none => rw [ha] at h; simp [UPoly.optGt] at h
    | some j => rw [ha] at h; simp [UPoly.optGt] at h; exact ⟨j, rfl, h⟩

/-- C27. `normalize` of the conflict analysis keeps the value and yields a normal form sorted by
variable. -/
theorem C27_normalize (p : DPoly) :
    (∀ σ, pval σ p.normalize.terms p.normalize.const = pval σ p.terms p.const) ∧
    NormalTerms p.normalize.terms ∧ p.normalize.terms.Pairwise (fun a b => a.1 < b.1) := by
  refine ⟨fun σ => ?_, ?_, (DPoly.normTerms_sorted p.terms).1⟩
  · unfold pval DPoly.normalize; simp only; rw [DPoly.lsum_normTerms]
  · have := DPoly.wf_normTerms p.terms
    exact ⟨this.nodup, this.nz⟩

/-- C27. `implied_value` of the conflict analysis is the value of the first variable for which the
polynomial is 0. -/
theorem C27_implied_value (p : DPoly) (x : Nat) (a : ℚ) (ts : List (Nat × ℚ))
    (hp : p.terms = (x, a) :: ts) (ha : a ≠ 0) (m : PModel ℚ) (σ : Nat → ℚ)
    (hσ : ∀ q ∈ ts, σ q.1 = m.value q.1) :
    pval σ p.terms p.const = 0 ↔ σ x = p.impliedValue m := by
  have e : p.impliedValue m = (-p.const - lsum σ ts) / a := by
    unfold DPoly.impliedValue
    rw [hp, lsum_congr hσ]
    simp only [List.head?_cons, Option.getD_some, List.drop_one, List.tail_cons]
    rw [foldl_sub_eq]
  rw [e, eq_div_iff ha]
  unfold pval
  rw [hp, lsum_cons]
  constructor <;> intro h <;> simp only at * <;> linarith

/-- Instances: a cancelled variable, and `normalize` with a run that sums to zero. -/
example :
    (UPoly.add ⟨[(0, 1), (1, 2)], 3⟩ ⟨[(1, -2), (2, 5)], 4⟩) = ⟨[(0, 1), (2, 5)], 7⟩ ∧
    (UPoly.sub ⟨[(0, 1), (1, 2)], 3⟩ ⟨[(0, 1)], 4⟩) = ⟨[(1, 2)], -1⟩ ∧
    (DPoly.normalize ⟨[(3, 1), (1, 2), (3, -1), (0, 4), (1, 5)], 1⟩) = ⟨[(0, 4), (1, 7)], 1⟩ := by
  decide +kernel

#print axioms C27_add
#print axioms C27_sub
#print axioms C27_negate
#print axioms C27_subtract_var
#print axioms C27_sort
#print axioms C27_normalize
#print axioms C27_implied_value

end Yaga
