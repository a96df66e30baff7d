/-
C28: Fourier-Motzkin resolution is sound and eliminates the variable.
-/
import Verif.Proofs.Fm

namespace Yaga
open Spec

/-- C28. Starting an elimination with a constraint (other than `≠`) keeps its meaning. -/
theorem C28_init (s : LinStore) (c : LinCons) (hne : ¬ (c.pred = .eq ∧ c.lit.isNeg = true))
    (σ : Nat → ℚ) : FmTrue σ (Fm.init s c) ↔ ConsTrue s c σ := Fm.init_sound s c hne σ

/-- C28. Starting an elimination with a given predicate and multiple of the polynomial. -/
theorem C28_init_with (s : LinStore) (c : LinCons) (p : Pred) (k : ℚ) (σ : Nat → ℚ) :
    FmTrue σ (Fm.initWith s c p k) ↔ Rel p (k * (lsum σ (s.terms c) - c.rhs)) 0 := by
  unfold FmTrue Fm.initWith pval
  simp only
  rw [lsum_scale]
  have : k * lsum σ (s.terms c) + -c.rhs * k = k * (lsum σ (s.terms c) - c.rhs) := by ring
  rw [this]

/-- C28. If one of two constraints is an equality, or the coefficients of the variable have opposite
signs, every valuation that satisfies both constraints satisfies the derived one. The derived
constraint is normal and does not contain the variable, and it contains no variable that was in
neither constraint. -/
theorem C28_resolve (f g : Fm) (hf : NormalTerms f.poly.terms) (hg : NormalTerms g.poly.terms)
    (x : Nat) (a b : ℚ) (ha : (x, a) ∈ f.poly.terms) (hb : (x, b) ∈ g.poly.terms)
    (hs : f.pred = .eq ∨ g.pred = .eq ∨ a * b < 0) :
    (∀ σ, FmTrue σ f → FmTrue σ g → FmTrue σ (f.resolve g x)) ∧
    NormalTerms (f.resolve g x).poly.terms ∧
    x ∉ (f.resolve g x).poly.terms.map (·.1) ∧
    (∀ y ∈ (f.resolve g x).poly.terms.map (·.1),
      y ∈ f.poly.terms.map (·.1) ∨ y ∈ g.poly.terms.map (·.1)) := by
  have wf : LinStore.WfTerms f.poly.terms := ⟨hf.1, hf.2⟩
  have wg : LinStore.WfTerms g.poly.terms := ⟨hg.1, hg.2⟩
  have ea : co x f.poly.terms = a := LinStore.delta_mem hf.1 ha
  have eb : co x g.poly.terms = b := LinStore.delta_mem hg.1 hb
  have ha0 : a ≠ 0 := hf.2 _ ha
  have hb0 : b ≠ 0 := hg.2 _ hb
  obtain ⟨u, k, _, _, _, _, _, _, h7, h8, h9, h10⟩ := Fm.resolve_sound wf wg (x := x)
    (by rw [ea]; exact ha0) (by rw [eb]; exact hb0) (by rw [ea, eb]; exact hs)
  refine ⟨h10, ⟨h8.nodup, h8.nz⟩, ?_, ?_⟩
  · intro h
    exact (co_ne_zero_iff h8 x).mpr h h9
  · intro y hy
    have hy := (co_ne_zero_iff h8 y).mpr hy
    by_contra hn
    rw [not_or] at hn
    rw [h7, co_zero_of_notMem hn.1, co_zero_of_notMem hn.2] at hy
    simp at hy

/-- C28. The derived constraint is an equality only if both are, and it is strict if and only if one
of them is. -/
theorem C28_predicate (f g : Fm) (x : Nat) :
    ((f.resolve g x).pred = .eq ↔ f.pred = .eq ∧ g.pred = .eq) ∧
    ((f.resolve g x).pred = .lt ↔ f.pred = .lt ∨ g.pred = .lt) :=
  ⟨Fm.combine_eq, Fm.combine_lt⟩

/-- The hypothesis on the signs is needed: `x ≤ 0` and `x + y ≤ 0` do not imply the result `y ≤ 0` of
resolving them on `x`. -/
theorem C28_signs_needed : ∃ (f g : Fm) (σ : Nat → ℚ),
    FmTrue σ f ∧ FmTrue σ g ∧ ¬ FmTrue σ (f.resolve g 0) := by
  have h : (Fm.resolve ⟨⟨[(0, 1)], 0⟩, .leq⟩ ⟨⟨[(0, 1), (1, 1)], 0⟩, .leq⟩ 0) =
      ⟨⟨[(1, 1)], 0⟩, .leq⟩ := by decide +kernel
  refine ⟨⟨⟨[(0, 1)], 0⟩, .leq⟩, ⟨⟨[(0, 1), (1, 1)], 0⟩, .leq⟩, fun y => if y = 0 then -1 else 1, ?_⟩
  rw [h]
  unfold FmTrue pval Rel
  simp only [lsum_cons, lsum_nil]
  norm_num

/-- Instance: `2x - y - 4 ≤ 0` and `-3x + z < 0` give `-y + 2/3 z - 4 < 0`. -/
example :
    (Fm.resolve ⟨⟨[(0, 2), (1, -1)], -4⟩, .leq⟩ ⟨⟨[(0, -3), (2, 1)], 0⟩, .lt⟩ 0) =
      ⟨⟨[(1, -1), (2, 2/3)], -4⟩, .lt⟩ := by decide +kernel

/-- Instance: the equality `2x - y = 0` is negated when it is resolved with `x - 1 ≤ 0`. -/
example :
    (Fm.resolve ⟨⟨[(0, 2), (1, -1)], 0⟩, .eq⟩ ⟨⟨[(0, 1)], -1⟩, .leq⟩ 0) =
      ⟨⟨[(1, 1)], -2⟩, .leq⟩ := by decide +kernel

#print axioms C28_init
#print axioms C28_init_with
#print axioms C28_resolve
#print axioms C28_predicate
#print axioms C28_signs_needed

end Yaga
