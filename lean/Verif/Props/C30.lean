/-
C30: inequality conflict explanations are valid lemmas.
-/
import Verif.Proofs.LraExample

namespace Yaga
open Spec

/-- C30. In every state the theory can reach, the clause that is reported for bounds that allow only a
value that is forbidden by a disequality is true under every valuation of the rational variables. -/
theorem C30_valid (hv : Nat → Nat) (hc : ℚ → Nat) (lvl : Nat → Nat) (st : Lra.St)
    (h : Lra.Reach hv hc st) (x : Nat) (cl : Clause)
    (hcl : (Lra.ineqConflict hv hc lvl st x).2 = some cl) (σ : Nat → ℚ) :
    ∃ l ∈ cl, LitMeans (Lra.ineqConflict hv hc lvl st x).1.store l σ :=
  ((Lra.ineqConflict_spec hv hc lvl (Lra.reach_linv h) x).2 cl hcl).valid σ

/-- C30. Every literal of the reported clause stands for a linear constraint. -/
theorem C30_literals (hv : Nat → Nat) (hc : ℚ → Nat) (lvl : Nat → Nat) (st : Lra.St)
    (h : Lra.Reach hv hc st) (x : Nat) (cl : Clause)
    (hcl : (Lra.ineqConflict hv hc lvl st x).2 = some cl) :
    ∀ l ∈ cl, ∃ c, IsCons (Lra.ineqConflict hv hc lvl st x).1.store c ∧ c.lit.ord = l.ord :=
  ((Lra.ineqConflict_spec hv hc lvl (Lra.reach_linv h) x).2 cl hcl).real

/-- C30. All literals of the reported clause are false in the trail. -/
theorem C30_false (hv : Nat → Nat) (hc : ℚ → Nat) (lvl : Nat → Nat) (st : Lra.St)
    (h : Lra.Reach hv hc st) (hC : ValuesConsistent st.store st.models) (x : Nat) (cl : Clause)
    (hcl : (Lra.ineqConflict hv hc lvl st x).2 = some cl) :
    ∀ l ∈ cl, evalLit (Lra.ineqConflict hv hc lvl st x).1.models.bools l = some false :=
  ((Lra.ineqConflict_spec hv hc lvl (Lra.reach_linv h) x).2 cl hcl).falsified hC

/-- C30. The analysis leads to a state the theory can reach and keeps values and meanings. -/
theorem C30_state (hv : Nat → Nat) (hc : ℚ → Nat) (lvl : Nat → Nat) (st : Lra.St)
    (h : Lra.Reach hv hc st) (x : Nat) :
    Lra.Reach hv hc (Lra.ineqConflict hv hc lvl st x).1 ∧
    ∀ cl, (Lra.ineqConflict hv hc lvl st x).2 = some cl →
      (Lra.ineqConflict hv hc lvl st x).1.models.rats = st.models.rats ∧
      (∀ l v, evalLit st.models.bools l = some v →
        evalLit (Lra.ineqConflict hv hc lvl st x).1.models.bools l = some v) ∧
      (∀ c, IsCons st.store c → IsCons (Lra.ineqConflict hv hc lvl st x).1.store c ∧
        ∀ σ, ConsTrue (Lra.ineqConflict hv hc lvl st x).1.store c σ ↔ ConsTrue st.store c σ) ∧
      (ValuesConsistent st.store st.models →
        ValuesConsistent (Lra.ineqConflict hv hc lvl st x).1.store
          (Lra.ineqConflict hv hc lvl st x).1.models) := by
  obtain ⟨h1, h2⟩ := Lra.ineqConflict_spec hv hc lvl (Lra.reach_linv h) x
  refine ⟨Lra.steps_trans h h1, fun cl hcl => ?_⟩
  have h3 := h2 cl hcl
  exact ⟨h3.rats, h3.evals, fun c hc' => ⟨(hc'.kept h3.same).1, consTrue_kept h3.same hc'⟩,
    h3.consistent⟩

/-- `x₀ ≤ x₁`, `x₀ ≥ 3`, `x₀ + 2 x₁ ≠ 9` with `x₁ = 3`: the derived constraints are `x₁ < 3` (new
variable 3) and `x₁ > 3` (negation of the new variable 4). -/
example : (Lra.ineqConflict id (fun _ => 0) (fun _ => 0) (Lra.after Lra.exNeq) 0).2 =
    some [(Lit.pos 0).neg, Lit.pos 1, Lit.pos 2, Lit.pos 3, (Lit.pos 4).neg] := by decide +kernel

example (σ : Nat → ℚ) : ∃ l ∈ [(Lit.pos 0).neg, Lit.pos 1, Lit.pos 2, Lit.pos 3, (Lit.pos 4).neg],
    LitMeans (Lra.ineqConflict id (fun _ => 0) (fun _ => 0) (Lra.after Lra.exNeq) 0).1.store l σ :=
  C30_valid id (fun _ => 0) (fun _ => 0) _ Lra.reach_exNeq 0 _ (by decide +kernel) σ

example : ValuesConsistent (Lra.after Lra.exNeq).store (Lra.after Lra.exNeq).models :=
  Lra.consistent_of_consistentB (by decide +kernel)

#print axioms C30_valid
#print axioms C30_literals
#print axioms C30_false
#print axioms C30_state

end Yaga
