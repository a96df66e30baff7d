/-
C25: equivalent linear constraints share one boolean variable.
-/
import Verif.Proofs.LinearSteps
import Mathlib.Tactic.NormNum

namespace Yaga
open Spec

namespace LinStore

/-- Two constraints created in one history: which stored elements they refer to. -/
theorem two_made (hv : Nat → Nat) (hc : ℚ → Nat) {s s2 : LinStore} (hs : LinReach hv hc s)
    {ts1 ts2 : List (Nat × ℚ)} (h1 : (ts1.map (·.1)).Nodup) (h2 : (ts2.map (·.1)).Nodup)
    {p1 p2 : Pred} {r1 r2 : ℚ} (hs2 : LinSteps hv hc (s.make hv hc ts1 p1 r1).1 s2) :
    Inv (s2.make hv hc ts2 p2 r2).1 ∧
    ∃ e1 e2, Made (s2.make hv hc ts2 p2 r2).1 (s.make hv hc ts1 p1 r1).2 ts1 p1 r1 e1 ∧
      Made (s2.make hv hc ts2 p2 r2).1 (s2.make hv hc ts2 p2 r2).2 ts2 p2 r2 e2 := by
  have hI := reach_inv hv hc hs
  obtain ⟨i1, _, e1, m1⟩ := make_spec hv hc hI h1 p1 r1
  obtain ⟨i2, k2⟩ := steps_spec hv hc i1 hs2
  obtain ⟨i3, k3, e2, m2⟩ := make_spec hv hc i2 h2 p2 r2
  have k := k2.trans k3
  refine ⟨i3, e1, e2, ⟨k.set _ m1.mem, m1.eq, fun σ => ?_, fun h0 h => ?_⟩, m2⟩
  · rw [linTrue_perm (k.terms _ m1.mem), m1.means σ]
  · have := k.terms _ m1.mem
    rw [h] at this
    exact m1.nonempty h0 this.symm.eq_nil

end LinStore

/-- C25. Two constraints with variables that are created at different times get the same literal
exactly when they are equivalent, and opposite literals exactly when one is the negation of the
other. -/
theorem C25_same_literal_iff (hv : Nat → Nat) (hc : ℚ → Nat) (s s2 : LinStore)
    (hs : LinReach hv hc s) (ts1 ts2 : List (Nat × ℚ)) (h1 : (ts1.map (·.1)).Nodup)
    (h2 : (ts2.map (·.1)).Nodup) (z1 : ∃ p ∈ ts1, p.2 ≠ 0) (z2 : ∃ p ∈ ts2, p.2 ≠ 0)
    (p1 p2 : Pred) (r1 r2 : ℚ) (hs2 : LinSteps hv hc (s.make hv hc ts1 p1 r1).1 s2) :
    ((s2.make hv hc ts2 p2 r2).2.lit = (s.make hv hc ts1 p1 r1).2.lit ↔
      ∀ σ, LinTrue σ ts1 p1 r1 ↔ LinTrue σ ts2 p2 r2) ∧
    ((s2.make hv hc ts2 p2 r2).2.lit = (s.make hv hc ts1 p1 r1).2.lit.neg ↔
      ∀ σ, LinTrue σ ts1 p1 r1 ↔ ¬ LinTrue σ ts2 p2 r2) := by
  obtain ⟨hI, e1, e2, m1, m2⟩ :=
    LinStore.two_made hv hc hs h1 h2 (p1 := p1) (p2 := p2) (r1 := r1) (r2 := r2) hs2
  generalize (s2.make hv hc ts2 p2 r2).2 = c2 at m2
  generalize (s.make hv hc ts1 p1 r1).2 = c1 at m1
  generalize (s2.make hv hc ts2 p2 r2).1 = t at hI m1 m2
  clear hs2
  have w1 := hI.wf e1 m1.mem
  have w2 := hI.wf e2 m2.mem
  have n1 := hI.norm e1 m1.mem
  have n2 := hI.norm e2 m2.mem
  have x1 := m1.nonempty z1
  have x2 := m2.nonempty z2
  -- equivalent stored elements are the same element, and none is the complement of another
  have key : ∀ (H : ∀ σ, LinTrue σ (t.terms e1) e1.pred e1.rhs ↔
      LinTrue σ (t.terms e2) e2.pred e2.rhs), e1 = e2 := by
    intro H
    obtain ⟨a, b, c⟩ := LinStore.normal_equiv w1 w2 n1 n2 x1 x2 H
    exact hI.uniq e1 m1.mem e2 m2.mem a b c
  have key2 : ∀ (H : ∀ σ, LinTrue σ (t.terms e1) e1.pred e1.rhs ↔
      ¬ LinTrue σ (t.terms e2) e2.pred e2.rhs), False := fun H =>
    LinStore.normal_not_compl w1 w2 n1 n2 x1 x2 H
  have lm1 := fun σ => (m1.litMeans hI σ).1
  have lm2 := fun σ => (m2.litMeans hI σ).1
  have nn : ∀ l : Lit, l.neg.neg = l := by
    intro l
    have : l.neg.neg.value = l.value := by show - -l.value = l.value; omega
    cases l; simp only [Lit.neg] at this ⊢; simp
  have negmeans : ∀ (l : Lit) (σ : Nat → ℚ), LitMeans t l.neg σ ↔ ¬ LitMeans t l σ := by
    intro l σ
    unfold LitMeans
    rw [LinStore.Lit.neg_isNeg, LinStore.Lit.neg_ord]
    cases l.isNeg <;> simp
  constructor
  · constructor
    · intro h σ
      rw [← lm1 σ, ← lm2 σ, h]
    · intro H
      have M1 := m1.means
      have M2 := m2.means
      rcases m1.eq with a | a <;> rcases m2.eq with b | b
      · simp only [if_pos a] at M1
        simp only [if_pos b] at M2
        have := key fun σ => by rw [M1, M2, H]
        rw [a, b, this]
      · simp only [if_pos a] at M1
        simp only [b, if_neg (LinStore.LinCons.neg_ne e2)] at M2
        exact (key2 fun σ => by rw [M1, M2, H, not_not]).elim
      · simp only [a, if_neg (LinStore.LinCons.neg_ne e1)] at M1
        simp only [if_pos b] at M2
        exact (key2 fun σ => by rw [M1, M2, H]).elim
      · simp only [a, if_neg (LinStore.LinCons.neg_ne e1)] at M1
        simp only [b, if_neg (LinStore.LinCons.neg_ne e2)] at M2
        have := key fun σ => by rw [M1, M2, H]
        rw [a, b, this]
  · constructor
    · intro h σ
      rw [← lm1 σ, ← lm2 σ, h, negmeans, not_not]
    · intro H
      have M1 := m1.means
      have M2 := m2.means
      rcases m1.eq with a | a <;> rcases m2.eq with b | b
      · simp only [if_pos a] at M1
        simp only [if_pos b] at M2
        exact (key2 fun σ => by rw [M1, M2, H]).elim
      · simp only [if_pos a] at M1
        simp only [b, if_neg (LinStore.LinCons.neg_ne e2)] at M2
        have := key fun σ => by rw [M1, M2, H]
        rw [a, b, this]; rfl
      · simp only [a, if_neg (LinStore.LinCons.neg_ne e1)] at M1
        simp only [if_pos b] at M2
        have := key fun σ => by rw [M1, M2, H, not_not]
        rw [a, b, this]; exact (nn _).symm
      · simp only [a, if_neg (LinStore.LinCons.neg_ne e1)] at M1
        simp only [b, if_neg (LinStore.LinCons.neg_ne e2)] at M2
        exact (key2 fun σ => by rw [M1, M2, H]).elim

/-- C25. A multiple of a constraint, in any order of the variables, gets the literal of the
constraint if the factor is positive or the predicate is equality. With a negative factor, `<` and
`≤` have to be exchanged and the literals are opposite. -/
theorem C25_multiples (hv : Nat → Nat) (hc : ℚ → Nat) (s s2 : LinStore)
    (hs : LinReach hv hc s) (ts1 ts2 : List (Nat × ℚ)) (h1 : (ts1.map (·.1)).Nodup)
    (z1 : ∃ p ∈ ts1, p.2 ≠ 0) (k : ℚ) (hk : k ≠ 0)
    (hp : ts2.Perm (ts1.map fun p => (p.1, k * p.2))) (p1 : Pred) (r : ℚ)
    (hs2 : LinSteps hv hc (s.make hv hc ts1 p1 r).1 s2) :
    (0 < k → (s2.make hv hc ts2 p1 (k * r)).2.lit = (s.make hv hc ts1 p1 r).2.lit) ∧
    (p1 = .eq → (s2.make hv hc ts2 p1 (k * r)).2.lit = (s.make hv hc ts1 p1 r).2.lit) ∧
    (k < 0 → p1 = .lt →
      (s2.make hv hc ts2 .leq (k * r)).2.lit = (s.make hv hc ts1 p1 r).2.lit.neg) ∧
    (k < 0 → p1 = .leq →
      (s2.make hv hc ts2 .lt (k * r)).2.lit = (s.make hv hc ts1 p1 r).2.lit.neg) := by
  have h2 : (ts2.map (·.1)).Nodup := by
    have : (ts2.map (·.1)).Perm (ts1.map (·.1)) := by
      have := hp.map (·.1)
      rw [List.map_map] at this
      exact this
    exact this.nodup_iff.mpr h1
  have z2 : ∃ p ∈ ts2, p.2 ≠ 0 := by
    obtain ⟨p, hp1, hp2⟩ := z1
    exact ⟨(p.1, k * p.2), hp.symm.subset (List.mem_map.mpr ⟨p, hp1, rfl⟩), mul_ne_zero hk hp2⟩
  have hsum : ∀ σ, lsum σ ts2 = k * lsum σ ts1 := by
    intro σ
    rw [lsum_perm hp, ← lsum_scale]
    congr 1
    apply List.map_congr_left
    intro p _
    rw [mul_comm]
  have A := fun p2 => C25_same_literal_iff hv hc s s2 hs ts1 ts2 h1 h2 z1 z2 p1 p2 r (k * r) hs2
  refine ⟨fun h => (A p1).1.mpr fun σ => ?_, fun h => (A p1).1.mpr fun σ => ?_,
    fun h e => (A .leq).2.mpr fun σ => ?_, fun h e => (A .lt).2.mpr fun σ => ?_⟩
  · unfold LinTrue
    rw [hsum]
    cases p1 <;> simp only [Rel]
    · exact (mul_right_inj' hk).symm
    · exact (mul_lt_mul_iff_right₀ h).symm
    · exact (mul_le_mul_iff_right₀ h).symm
  · subst h
    unfold LinTrue
    rw [hsum]
    exact (mul_right_inj' hk).symm
  · subst e
    unfold LinTrue
    rw [hsum]
    show _ < _ ↔ ¬ (_ ≤ _)
    rw [not_le]; exact (mul_lt_mul_left_of_neg h).symm
  · subst e
    unfold LinTrue
    rw [hsum]
    show _ ≤ _ ↔ ¬ (_ < _)
    rw [not_lt]; exact (mul_le_mul_left_of_neg h).symm

/-- C25. Stored constraints that the comparison accepts have the same hash, whatever the two
hash functions for variables and coefficients are, and the comparison is exactly equality up to
the order of the terms. -/
theorem C25_equal_hash (hv : Nat → Nat) (hc : ℚ → Nat) (s : LinStore) (hs : LinReach hv hc s)
    (c d : LinCons) (h1 : c ∈ s.set) (h2 : d ∈ s.set) :
    (s.equal c d = true ↔ (s.terms c).Perm (s.terms d) ∧ c.pred = d.pred ∧ c.rhs = d.rhs) ∧
    (s.equal c d = true → LinStore.hash hv hc s c = LinStore.hash hv hc s d) := by
  have hI := LinStore.reach_inv hv hc hs
  have := LinStore.equal_iff hI.len (hI.rng c h1).2 (hI.rng d h2).2 (hI.wf c h1) (hI.wf d h2)
  refine ⟨this, fun h => ?_⟩
  obtain ⟨a, _, b⟩ := this.mp h
  exact LinStore.hash_perm hv hc hI.len (hI.rng c h1).2 (hI.rng d h2).2 a b

/-- Instances: a permuted multiple of a constraint with five variables (compared by sorting), and
the negation by scaling of one with two variables. -/
example :
    let a := LinStore.init.make id (fun _ => 0) [(0, 2), (1, 4), (2, 6), (3, 8), (4, 10)] .leq 2
    let b := a.1.make id (fun _ => 0) [(4, 5), (2, 3), (3, 4), (1, 2), (0, 1)] .leq 1
    let c := b.1.make id (fun _ => 0) [(7, 2), (6, 4)] .leq 6
    let d := c.1.make id (fun _ => 0) [(6, -2), (7, -1)] .lt (-3)
    b.2.lit = a.2.lit ∧ d.2.lit = c.2.lit.neg ∧ c.2.lit = Lit.pos 1 ∧ d.1.vars.length = 7 := by
  decide +kernel

#print axioms C25_same_literal_iff
#print axioms C25_multiples
#print axioms C25_equal_hash

end Yaga
