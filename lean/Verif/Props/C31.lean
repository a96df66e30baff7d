/-
C31: implied bounds are sound.
-/
import Verif.Proofs.LraExample
import Verif.Proofs.LraImplied

namespace Yaga
open Spec

/-- C31. In every state the theory can reach, an upper bound that was recorded for `x` (from a unit
constraint or by any chain of deductions) and is not obsolete holds under every valuation that agrees
with the assigned rational variables and satisfies the constraints on the trail. If the bound is
reported as strict, it holds strictly. -/
theorem C31_upper (hv : Nat → Nat) (hc : ℚ → Nat) (st : Lra.St) (h : Lra.Reach hv hc st) (x : Nat)
    (b : Bnd) (hb : b ∈ (st.bnd.vb x).ub) (hl : b.isObsolete st.store st.models = false)
    (σ : Nat → ℚ) (hσ : AgreesWith st.models σ) (hS : SatTrail st.store st.models σ) :
    σ x ≤ b.value ∧ (b.isStrict = true → σ x < b.value) := by
  have := Lra.bound_sound (Lra.reach_linv h) (up := true) (x := x) hb hl hσ hS
  unfold dq at this
  simp only [if_true, one_mul] at this
  exact ⟨by linarith [this.1], fun hs => by linarith [this.2 (deepStrict_of_isStrict hs)]⟩

/-- C31. The same for lower bounds. -/
theorem C31_lower (hv : Nat → Nat) (hc : ℚ → Nat) (st : Lra.St) (h : Lra.Reach hv hc st) (x : Nat)
    (b : Bnd) (hb : b ∈ (st.bnd.vb x).lb) (hl : b.isObsolete st.store st.models = false)
    (σ : Nat → ℚ) (hσ : AgreesWith st.models σ) (hS : SatTrail st.store st.models σ) :
    b.value ≤ σ x ∧ (b.isStrict = true → b.value < σ x) := by
  have := Lra.bound_sound (Lra.reach_linv h) (up := false) (x := x) hb hl hσ hS
  unfold dq at this
  simp only [Bool.false_eq_true, if_false] at this
  exact ⟨by linarith [this.1], fun hs => by linarith [this.2 (deepStrict_of_isStrict hs)]⟩

/-- C31. Recorded disallowed values are not taken by such a valuation. -/
theorem C31_disallowed (hv : Nat → Nat) (hc : ℚ → Nat) (st : Lra.St) (h : Lra.Reach hv hc st) (x : Nat)
    (b : Bnd) (hb : b ∈ (st.bnd.vb x).dis) (hl : b.isObsolete st.store st.models = false)
    (σ : Nat → ℚ) (hσ : AgreesWith st.models σ) (hS : SatTrail st.store st.models σ) :
    σ x ≠ b.value := Lra.dis_sound (Lra.reach_linv h) hb hl hσ hS

/-- C31. What the queries return is recorded and not obsolete, so the statements above apply. -/
theorem C31_queries (st : Lra.St) (x : Nat) (b : Bnd) (q : ℚ) :
    (((st.bnd.vb x).upper st.store st.models).2 = some b →
      b ∈ (st.bnd.vb x).ub ∧ b.isObsolete st.store st.models = false) ∧
    (((st.bnd.vb x).lower st.store st.models).2 = some b →
      b ∈ (st.bnd.vb x).lb ∧ b.isObsolete st.store st.models = false) ∧
    (((st.bnd.vb x).inequality st.store st.models q).2 = some b →
      b ∈ (st.bnd.vb x).dis ∧ b.isObsolete st.store st.models = false ∧ b.value = q) := by
  refine ⟨fun h => ?_, fun h => ?_, fun h => ?_⟩
  · obtain ⟨a, _, c⟩ := Lra.query_some (up := true) (b := st.bnd) (x := x) h
    exact ⟨a, c⟩
  · obtain ⟨a, _, c⟩ := Lra.query_some (up := false) (b := st.bnd) (x := x) h
    exact ⟨a, c⟩
  · unfold VBounds.inequality at h
    simp only at h
    have m1 := List.mem_of_find?_eq_some h
    have m2 := List.find?_some h
    unfold VBounds.dropObs at m1
    exact ⟨(List.mem_filter.mp m1).1, by simpa using (List.mem_filter.mp m1).2, by simpa using m2⟩

/-- C31, strictness. A bound of an unassigned variable that is not reported as strict is attained by a
valuation that agrees with the trail and satisfies all constraints from which the bound was derived.
What is missing: this is restricted to bounds whose dependencies are bounds of unassigned variables from
unit constraints. For dependencies with dependencies it is false (`C31_strictness_inexact`). -/
theorem C31_attained_partial (hv : Nat → Nat) (hc : ℚ → Nat) (st : Lra.St) (h : Lra.Reach hv hc st)
    (x : Nat) (b : Bnd) (hb : b ∈ (st.bnd.vb x).ub ∨ b ∈ (st.bnd.vb x).lb)
    (hl : b.isObsolete st.store st.models = false) (hx : st.models.rats.defined x = false)
    (hd : ∀ d ∈ b.deps, d.deps = [] ∧ st.models.rats.defined d.var = false)
    (hs : b.isStrict = false) :
    ∃ σ, AgreesWith st.models σ ∧ σ x = b.value ∧ ConsTrue st.store b.reason σ ∧
      ∀ d ∈ b.deps, ConsTrue st.store d.reason σ := by
  rcases hb with hb | hb
  · exact Lra.bound_attained (Lra.reach_linv h) (up := true) hb hl hx hd hs
  · exact Lra.bound_attained (Lra.reach_linv h) (up := false) hb hl hx hd hs

/-- C31, strictness is not reported exactly: in a reachable state with `x₀ ≤ x₁`, `x₁ ≤ x₂`, `x₂ < 5` on
the trail the bound `x₀ ≤ 5` is not reported as strict, although no valuation that satisfies the
constraints on the trail gives `x₀` the value 5. `Implied_value::is_strict` looks only at the reasons of
the direct dependencies. -/
theorem C31_strictness_inexact :
    ∃ (st : Lra.St) (b : Bnd), Lra.Reach id (fun _ => 0) st ∧
      ((st.bnd.vb 0).upper st.store st.models).2 = some b ∧ b.value = 5 ∧ b.isStrict = false ∧
      ∀ σ, AgreesWith st.models σ → SatTrail st.store st.models σ → σ 0 ≠ b.value := by
  have hr := Lra.reach_exChain
  have hI := Lra.reach_linv hr
  obtain ⟨b, hb⟩ : ∃ b, (((Lra.after Lra.exChain).bnd.vb 0).upper (Lra.after Lra.exChain).store
      (Lra.after Lra.exChain).models).2 = some b := Option.isSome_iff_exists.mp (by decide +kernel)
  obtain ⟨b1, b2⟩ := (C31_queries (Lra.after Lra.exChain) 0 b 0).1 hb
  have key : ((((Lra.after Lra.exChain).bnd.vb 0).upper (Lra.after Lra.exChain).store
      (Lra.after Lra.exChain).models).2.all fun b => decide (b.value = 5) && !b.isStrict &&
        b.deps.any fun d => d.deps.any fun e => e.reason.isStrict) = true := by decide +kernel
  rw [hb] at key
  simp only [Option.all_some, Bool.and_eq_true, decide_eq_true_eq, Bool.not_eq_true',
    List.any_eq_true] at key
  obtain ⟨⟨k1, k2⟩, d, hd, e, he, hst⟩ := key
  refine ⟨_, b, hr, hb, k1, k2, fun σ hσ hS heq => ?_⟩
  have := (Lra.bound_sound hI (up := true) (x := 0) b1 b2 hσ hS).2
    (.dep b d hd (.dep d e he (.here e hst)))
  rw [heq] at this
  simp at this

/-- The upper bound of `x₀` derived from `x₀ + x₁ ≤ 1` and `x₁ ≥ 2`. -/
example : ((((Lra.after Lra.exDerived).bnd.vb 0).upper (Lra.after Lra.exDerived).store
    (Lra.after Lra.exDerived).models).2.map fun b => (b.value, b.isStrict, b.deps.length)) =
    some (-1, false, 1) := by decide +kernel

/-- The valuation `x₀ = -1, x₁ = 2` attains it. It violates `x₀ ≥ 0`, so the bounds are in conflict. -/
example : ∃ b, b ∈ ((Lra.after Lra.exDerived).bnd.vb 0).ub ∧ b.value = -1 ∧
    ∃ σ, AgreesWith (Lra.after Lra.exDerived).models σ ∧ σ 0 = b.value ∧
      ConsTrue (Lra.after Lra.exDerived).store b.reason σ ∧
      ∀ d ∈ b.deps, ConsTrue (Lra.after Lra.exDerived).store d.reason σ := by
  have hne : (((Lra.after Lra.exDerived).bnd.vb 0).ub.head?.isSome) = true := by decide +kernel
  obtain ⟨b, hb⟩ := Option.isSome_iff_exists.mp hne
  have hm : b ∈ ((Lra.after Lra.exDerived).bnd.vb 0).ub := List.mem_of_mem_head? hb
  have key : (((Lra.after Lra.exDerived).bnd.vb 0).ub.head?.all fun b => decide (b.value = -1) &&
      !b.isObsolete (Lra.after Lra.exDerived).store (Lra.after Lra.exDerived).models &&
      !b.isStrict && b.deps.all fun d => d.deps.isEmpty &&
        !(Lra.after Lra.exDerived).models.rats.defined d.var) = true := by decide +kernel
  rw [hb] at key
  simp only [Option.all_some, Bool.and_eq_true, decide_eq_true_eq, Bool.not_eq_true',
    List.all_eq_true, List.isEmpty_iff] at key
  exact ⟨b, hm, key.1.1.1, C31_attained_partial id (fun _ => 0) _ Lra.reach_exDerived 0 b (Or.inl hm)
    key.1.1.2 (by decide +kernel) key.2 key.1.2⟩

#print axioms C31_upper
#print axioms C31_lower
#print axioms C31_disallowed
#print axioms C31_queries
#print axioms C31_attained_partial
#print axioms C31_strictness_inexact

end Yaga
