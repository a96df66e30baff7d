/-
Facts about Fourier-Motzkin elimination.
-/
import Verif.Spec.Fm
import Verif.Proofs.LinearPolynomial
import Mathlib.Tactic.FieldSimp

set_option linter.unusedVariables false
set_option linter.unnecessarySeqFocus false

namespace Yaga
open Spec
open LinStore (delta WfTerms)

/-- Coefficient of a variable in a list of terms. -/
def co (x : Nat) (ts : List (Nat × ℚ)) : ℚ := lsum (delta x) ts

theorem co_append (x : Nat) (a b : List (Nat × ℚ)) : co x (a ++ b) = co x a + co x b :=
  lsum_append _ a b

theorem co_scale (x : Nat) (k : ℚ) (ts : List (Nat × ℚ)) :
    co x (ts.map fun t => (t.1, t.2 * k)) = k * co x ts := lsum_scale _ k ts

theorem co_ne_zero_iff {ts : List (Nat × ℚ)} (w : WfTerms ts) (x : Nat) :
    co x ts ≠ 0 ↔ x ∈ ts.map (·.1) := by
  constructor
  · intro h
    by_contra hn
    exact h (LinStore.delta_notMem hn)
  · intro h
    obtain ⟨p, hp, rfl⟩ := List.mem_map.mp h
    unfold co
    rw [LinStore.delta_mem w.nodup hp]
    exact w.nz p hp

theorem co_zero_of_notMem {ts : List (Nat × ℚ)} {x : Nat} (h : x ∉ ts.map (·.1)) : co x ts = 0 :=
  LinStore.delta_notMem h

theorem Fm.coefOf_eq {p : DPoly} (h : (p.terms.map (·.1)).Nodup) (x : Nat) :
    Fm.coefOf p x = co x p.terms := by
  unfold Fm.coefOf
  cases e : p.terms.find? (fun t => t.1 == x) with
  | none =>
    have : x ∉ p.terms.map (·.1) := by
      intro hm
      obtain ⟨q, hq, rfl⟩ := List.mem_map.mp hm
      have := List.find?_eq_none.mp e q hq
      simp at this
    rw [co_zero_of_notMem this]; rfl
  | some q =>
    have h1 := List.find?_some e
    have h2 := List.mem_of_find?_eq_some e
    simp at h1
    subst h1
    unfold co
    rw [LinStore.delta_mem h h2]; rfl

namespace Fm

/-- `resolve` is a linear combination. -/
theorem resolve_spec {f g : Fm} (hf : (f.poly.terms.map (·.1)).Nodup)
    (hg : (g.poly.terms.map (·.1)).Nodup) {x : Nat} (hb : co x g.poly.terms ≠ 0) :
    ∃ u k : ℚ,
      (∀ σ, pval σ (f.resolve g x).poly.terms (f.resolve g x).poly.const =
        u * pval σ f.poly.terms f.poly.const + k * pval σ g.poly.terms g.poly.const) ∧
      (∀ z, co z (f.resolve g x).poly.terms = u * co z f.poly.terms + k * co z g.poly.terms) ∧
      WfTerms (f.resolve g x).poly.terms ∧
      ((u = 1 ∧ k = -co x f.poly.terms / co x g.poly.terms ∧
          (g.pred = .eq ∨ 0 ≤ -co x f.poly.terms / co x g.poly.terms)) ∨
       (u = -1 ∧ k = co x f.poly.terms / co x g.poly.terms ∧
          0 < co x f.poly.terms / co x g.poly.terms ∧ g.pred ≠ .eq)) := by
  have ef := coefOf_eq hf x
  have eg := coefOf_eq hg x
  unfold resolve
  rw [ef, eg]
  generalize ha : co x f.poly.terms = a
  generalize hbb : co x g.poly.terms = b
  have hneg : ∀ ts : List (Nat × ℚ), (ts.map fun t => (t.1, -t.2)) = ts.map fun t => (t.1, t.2 * (-1)) := by
    intro ts
    apply List.map_congr_left
    intro t _
    simp
  by_cases hflip : (decide (-a / b < 0) && g.pred != .eq) = true
  · refine ⟨-1, a / b, ?_, ?_, ?_, ?_⟩
    · intro σ
      simp only [hflip, if_true]
      unfold pval DPoly.normalize
      simp only
      rw [DPoly.lsum_normTerms, lsum_append, lsum_scale, hneg, lsum_scale, neg_div]
      ring
    · intro z
      simp only [hflip, if_true]
      unfold DPoly.normalize co
      simp only
      rw [DPoly.lsum_normTerms, lsum_append, lsum_scale, hneg, lsum_scale, neg_div]
      ring
    · exact DPoly.wf_normTerms _
    · right
      simp only [Bool.and_eq_true, decide_eq_true_eq, bne_iff_ne] at hflip
      refine ⟨rfl, rfl, ?_, hflip.2⟩
      have := hflip.1
      rw [neg_div] at this
      linarith
  · refine ⟨1, -a / b, ?_, ?_, ?_, ?_⟩
    · intro σ
      simp only [if_neg hflip]
      unfold pval DPoly.normalize
      simp only
      rw [DPoly.lsum_normTerms, lsum_append, lsum_scale]
      ring
    · intro z
      simp only [if_neg hflip]
      unfold DPoly.normalize co
      simp only
      rw [DPoly.lsum_normTerms, lsum_append, lsum_scale]
      ring
    · exact DPoly.wf_normTerms _
    · left
      simp only [Bool.and_eq_true, decide_eq_true_eq, bne_iff_ne, not_and_or, not_not, not_lt] at hflip
      exact ⟨rfl, rfl, hflip.symm⟩

theorem combine_eq {a b : Pred} : combine a b = .eq ↔ a = .eq ∧ b = .eq := by
  cases a <;> cases b <;> decide

theorem combine_lt {a b : Pred} : combine a b = .lt ↔ a = .lt ∨ b = .lt := by
  cases a <;> cases b <;> decide

theorem rel_combine {a b : Pred} {p q u k : ℚ} (hp : Rel a p 0) (hq : Rel b q 0)
    (hu : a ≠ .eq → u = 1) (hk : b ≠ .eq → 0 < k) : Rel (combine a b) (u * p + k * q) 0 := by
  have hu' : a ≠ .eq → u * p = p := fun h => by rw [hu h, one_mul]
  have h1 : b = .lt → k * q < 0 := by
    rintro rfl
    exact mul_neg_of_pos_of_neg (hk (by decide)) hq
  have h2 : b = .leq → k * q ≤ 0 := by
    rintro rfl
    exact mul_nonpos_of_nonneg_of_nonpos (hk (by decide)).le hq
  have h3 : b = .eq → k * q = 0 := by
    rintro rfl
    have : q = 0 := hq
    rw [this, mul_zero]
  have h4 : a = .eq → u * p = 0 := by
    rintro rfl
    have : p = 0 := hp
    rw [this, mul_zero]
  generalize u * p = P at *
  generalize k * q = Q at *
  cases a <;> cases b <;> simp [Rel, combine] at * <;> linarith

/-- One resolution step is sound, eliminates the variable, and `u` is the sign with which the first
constraint enters. -/
theorem resolve_sound {f g : Fm} (hf : WfTerms f.poly.terms) (hg : WfTerms g.poly.terms) {x : Nat}
    (ha : co x f.poly.terms ≠ 0) (hb : co x g.poly.terms ≠ 0)
    (hs : f.pred = .eq ∨ g.pred = .eq ∨ co x f.poly.terms * co x g.poly.terms < 0) :
    ∃ u k : ℚ, (u = 1 ∨ u = -1) ∧ (f.pred ≠ .eq → u = 1) ∧ (g.pred ≠ .eq → 0 < k) ∧
      (g.pred = .eq → u = 1) ∧
      (g.pred ≠ .eq → u * co x f.poly.terms * co x g.poly.terms < 0) ∧
      (∀ σ, pval σ (f.resolve g x).poly.terms (f.resolve g x).poly.const =
        u * pval σ f.poly.terms f.poly.const + k * pval σ g.poly.terms g.poly.const) ∧
      (∀ z, co z (f.resolve g x).poly.terms = u * co z f.poly.terms + k * co z g.poly.terms) ∧
      WfTerms (f.resolve g x).poly.terms ∧
      co x (f.resolve g x).poly.terms = 0 ∧
      (∀ σ, FmTrue σ f → FmTrue σ g → FmTrue σ (f.resolve g x)) := by
  obtain ⟨u, k, h1, h2, h3, h4⟩ := resolve_spec hf.nodup hg.nodup hb
  refine ⟨u, k, ?_⟩
  generalize hA : co x f.poly.terms = a at *
  generalize hB : co x g.poly.terms = b at *
  have hx : u * a + k * b = 0 := by
    rcases h4 with ⟨rfl, rfl, _⟩ | ⟨rfl, rfl, _⟩
    · field_simp; ring
    · field_simp; ring
  have hu : u = 1 ∨ u = -1 := by
    rcases h4 with ⟨h, _⟩ | ⟨h, _⟩
    · exact Or.inl h
    · exact Or.inr h
  have hge : g.pred = .eq → u = 1 := by
    intro h
    rcases h4 with ⟨h, _⟩ | ⟨_, _, _, h'⟩
    · exact h
    · exact absurd h h'
  have hb2 : 0 < b * b := mul_self_pos.mpr hb
  have hk : g.pred ≠ .eq → 0 < k := by
    intro h
    rcases h4 with ⟨_, hk, h' | h'⟩ | ⟨_, hk, h', _⟩
    · exact absurd h' h
    · rw [hk]
      rcases h'.lt_or_eq with h' | h'
      · exact h'
      · exfalso
        have : -a / b * b = 0 := by rw [← h', zero_mul]
        rw [div_mul_cancel₀ _ hb] at this
        exact ha (by linarith)
    · rw [hk]; exact h'
  have hfu : f.pred ≠ .eq → u = 1 := by
    intro hfe
    rcases h4 with ⟨h, _⟩ | ⟨_, _, h, hge'⟩
    · exact h
    · exfalso
      rcases hs with h' | h' | h'
      · exact hfe h'
      · exact hge' h'
      · have : a * b = a / b * (b * b) := by field_simp
        rw [this] at h'
        have := mul_pos h hb2
        linarith
  have hsgn : g.pred ≠ .eq → u * a * b < 0 := by
    intro h
    have h5 := hk h
    have : u * a = - (k * b) := by linarith
    rw [this]
    have : 0 < k * (b * b) := mul_pos h5 hb2
    linarith
  refine ⟨hu, hfu, hk, hge, hsgn, h1, h2, h3, ?_, ?_⟩
  · rw [h2, hA, hB]; exact hx
  · intro σ hσf hσg
    unfold FmTrue at *
    rw [h1]
    exact rel_combine hσf hσg hfu hk

theorem init_sound (s : LinStore) (c : LinCons) (hne : ¬ (c.pred = .eq ∧ c.lit.isNeg = true))
    (σ : Nat → ℚ) : FmTrue σ (init s c) ↔ ConsTrue s c σ := by
  unfold FmTrue init initWith ConsTrue LinTrue pval
  simp only
  rw [lsum_scale]
  unfold initPred
  cases hn : c.lit.isNeg <;> cases hp : c.pred <;> simp [Rel, hn, hp] at hne ⊢ <;>
    constructor <;> intro h <;> linarith

theorem init_wf {s : LinStore} {c : LinCons} (w : WfTerms (s.terms c)) (p : Pred) {k : ℚ} (hk : k ≠ 0) :
    WfTerms (initWith s c p k).poly.terms := by
  refine ⟨?_, ?_⟩
  · unfold initWith
    simp only
    rw [List.map_map]
    exact w.nodup
  · intro q hq
    unfold initWith at hq
    simp only at hq
    obtain ⟨t, ht, rfl⟩ := List.mem_map.mp hq
    exact mul_ne_zero (w.nz t ht) hk

end Fm
end Yaga
