/-
C29: bound conflict explanations are valid lemmas.
-/
import Verif.Proofs.LraExample

namespace Yaga
open Spec

/-- C29. In every state the theory can reach, the clause that is reported for crossing bounds of a
variable is true under every valuation of the rational variables. -/
theorem C29_valid (hv : Nat → Nat) (hc : ℚ → Nat) (lvl : Nat → Nat) (st : Lra.St)
    (h : Lra.Reach hv hc st) (x : Nat) (cl : Clause)
    (hcl : (Lra.boundConflict hv hc lvl st x).2 = some cl) (σ : Nat → ℚ) :
    ∃ l ∈ cl, LitMeans (Lra.boundConflict hv hc lvl st x).1.store l σ :=
  ((Lra.boundConflict_spec hv hc lvl (Lra.reach_linv h) x).2 cl hcl).valid σ

/-- C29. Every literal of the reported clause stands for a linear constraint; in particular the clause is
not true because of a literal without constraint. -/
theorem C29_literals (hv : Nat → Nat) (hc : ℚ → Nat) (lvl : Nat → Nat) (st : Lra.St)
    (h : Lra.Reach hv hc st) (x : Nat) (cl : Clause)
    (hcl : (Lra.boundConflict hv hc lvl st x).2 = some cl) :
    ∀ l ∈ cl, ∃ c, IsCons (Lra.boundConflict hv hc lvl st x).1.store c ∧ c.lit.ord = l.ord :=
  ((Lra.boundConflict_spec hv hc lvl (Lra.reach_linv h) x).2 cl hcl).real

/-- C29. All literals of the reported clause are false in the trail. The hypothesis excludes that a
literal of a fully assigned constraint was assigned against the value of the constraint. -/
theorem C29_false (hv : Nat → Nat) (hc : ℚ → Nat) (lvl : Nat → Nat) (st : Lra.St)
    (h : Lra.Reach hv hc st) (hC : ValuesConsistent st.store st.models) (x : Nat) (cl : Clause)
    (hcl : (Lra.boundConflict hv hc lvl st x).2 = some cl) :
    ∀ l ∈ cl, evalLit (Lra.boundConflict hv hc lvl st x).1.models.bools l = some false :=
  ((Lra.boundConflict_spec hv hc lvl (Lra.reach_linv h) x).2 cl hcl).falsified hC

/-- C29. The analysis leads to a state the theory can reach. Unless it reports no conflict, it keeps the
values of the rational variables, of the literals that had a value, the meaning of the constraints, and
the consistency of literals and values. -/
theorem C29_state (hv : Nat → Nat) (hc : ℚ → Nat) (lvl : Nat → Nat) (st : Lra.St)
    (h : Lra.Reach hv hc st) (x : Nat) :
    Lra.Reach hv hc (Lra.boundConflict hv hc lvl st x).1 ∧
    ∀ cl, (Lra.boundConflict hv hc lvl st x).2 = some cl →
      (Lra.boundConflict hv hc lvl st x).1.models.rats = st.models.rats ∧
      (∀ l v, evalLit st.models.bools l = some v →
        evalLit (Lra.boundConflict hv hc lvl st x).1.models.bools l = some v) ∧
      (∀ c, IsCons st.store c → IsCons (Lra.boundConflict hv hc lvl st x).1.store c ∧
        ∀ σ, ConsTrue (Lra.boundConflict hv hc lvl st x).1.store c σ ↔ ConsTrue st.store c σ) ∧
      (ValuesConsistent st.store st.models →
        ValuesConsistent (Lra.boundConflict hv hc lvl st x).1.store
          (Lra.boundConflict hv hc lvl st x).1.models) := by
  obtain ⟨h1, h2⟩ := Lra.boundConflict_spec hv hc lvl (Lra.reach_linv h) x
  refine ⟨Lra.steps_trans h h1, fun cl hcl => ?_⟩
  have h3 := h2 cl hcl
  exact ⟨h3.rats, h3.evals, fun c hc' => ⟨(hc'.kept h3.same).1, consTrue_kept h3.same hc'⟩,
    h3.consistent⟩

/-- C29. A conflict is reported exactly if both bounds exist and cross, or meet and one of them is
reported as strict. -/
theorem C29_reported (hv : Nat → Nat) (hc : ℚ → Nat) (lvl : Nat → Nat) (st : Lra.St) (x : Nat) :
    (Lra.boundConflict hv hc lvl st x).2.isSome = true ↔
      ∃ lb ub, ((st.bnd.vb x).lower st.store st.models).2 = some lb ∧
        ((st.bnd.vb x).upper st.store st.models).2 = some ub ∧
        (ub.value < lb.value ∨
          (lb.value = ub.value ∧ (lb.isStrict = true ∨ ub.isStrict = true))) := by
  have hl : (st.bnd.lower st.store st.models x).2 = ((st.bnd.vb x).lower st.store st.models).2 := rfl
  have hu : ((st.bnd.lower st.store st.models x).1.upper st.store st.models x).2 =
      ((st.bnd.vb x).upper st.store st.models).2 := by
    simp [BState.upper, BState.lower, BState.put, VBounds.upper, VBounds.lower]
  unfold Lra.boundConflict
  simp only
  rw [hl, hu]
  cases ((st.bnd.vb x).lower st.store st.models).2 with
  | none => simp
  | some lb =>
    cases ((st.bnd.vb x).upper st.store st.models).2 with
    | none => simp
    | some ub =>
      simp only [Option.some.injEq, exists_and_left, exists_eq_left']
      split
      · rename_i hc'
        simp only [Option.isSome_none, Bool.false_eq_true, false_iff]
        rcases hc' with h | ⟨h1, h2⟩
        · rintro (h' | ⟨h', _⟩) <;> linarith
        · rw [Bool.or_eq_false_iff] at h2
          rintro (h' | ⟨_, h' | h'⟩)
          · linarith
          · rw [h2.1] at h'; cases h'
          · rw [h2.2] at h'; cases h'
      · rename_i hc'
        simp only [Option.isSome_some, true_iff]
        rw [not_or] at hc'
        rcases lt_trichotomy lb.value ub.value with h | h | h
        · exact absurd h hc'.1
        · right
          refine ⟨h, ?_⟩
          by_contra hn
          rw [not_or, Bool.not_eq_true, Bool.not_eq_true] at hn
          exact hc'.2 ⟨h, by rw [hn.1, hn.2]; rfl⟩
        · exact Or.inl h

/-- `x₀ + x₁ ≤ 1`, `x₁ ≥ 2`, `x₀ ≥ 0`: the upper bound of `x₀` is derived from the bound of `x₁`. -/
example : (Lra.boundConflict id (fun _ => 0) (fun _ => 0) (Lra.after Lra.exDerived) 0).2 =
    some [(Lit.pos 0).neg, Lit.pos 1, Lit.pos 2] := by decide +kernel

/-- `x₀ + x₁ ≤ 1` with `x₁ = 2` and `x₀ ≥ 0`: the derived constraint `x₁ ≤ 1` is new (variable 2). -/
example : (Lra.boundConflict id (fun _ => 0) (fun _ => 0) (Lra.after Lra.exUnit) 0).2 =
    some [(Lit.pos 0).neg, Lit.pos 1, Lit.pos 2] := by decide +kernel

example (σ : Nat → ℚ) : ∃ l ∈ [(Lit.pos 0).neg, Lit.pos 1, Lit.pos 2],
    LitMeans (Lra.boundConflict id (fun _ => 0) (fun _ => 0) (Lra.after Lra.exUnit) 0).1.store l σ :=
  C29_valid id (fun _ => 0) (fun _ => 0) _ Lra.reach_exUnit 0 _ (by decide +kernel) σ

example : ValuesConsistent (Lra.after Lra.exUnit).store (Lra.after Lra.exUnit).models :=
  Lra.consistent_of_consistentB (by decide +kernel)

#print axioms C29_valid
#print axioms C29_literals
#print axioms C29_false
#print axioms C29_state
#print axioms C29_reported

end Yaga
