/-
C58: the answer `unsat` of the solver for QF_LRA.
-/
import Verif.Proofs.QfUnsat
import Verif.Proofs.QfRun

namespace Yaga
open Spec

/-- C58. When `check` for QF_LRA returns `unsat`, no truth values and rational values satisfy the
asserted clauses and give the literals of the constraints their truth values. This holds for all
restarts, all choices in semantic splits, all values of the options and any variable order that picks
declared variables that are not assigned. -/
theorem C58_unsat {O : Type} (hv : Nat → Nat) (hc : ℚ → Nat) (op : LaOpts) (W : QOrder O)
    (A : List Clause) (P : List QAtom) (c0 : QC O) (h : Qf.Start hv hc A P c0)
    (hW : ∀ c, Qf.Reach hv hc op W c0 c → Qf.PicksFree hv hc op W c)
    (hr : Qf.Returns hv hc op W c0 .unsat) : ¬ ∃ σ ρ, QfModel A P σ ρ :=
  Qf.unsat_model h hW hr

/-- Whether the answer is `unsat`. -/
def Qf.Out.isUnsat {O : Type} : Qf.Out O → Bool
  | .unsat => true
  | _ => false

/-- `x₀ ≤ 1` (literal 1), `x₁ ≤ 1` (literal 2), `3 ≤ x₀ + x₁` (literal `¬3`), `x₀ < x₁` (literal 4) and the
variable 0 that is no constraint. -/
def Qf.exBuild : List Qf.BAct :=
  [.vars .boolean 1, .vars .rational 2, .cons [(0, 1)] .leq 1, .cons [(1, 1)] .leq 1,
    .cons [(0, -1), (1, -1)] .leq (-3), .cons [(0, 1), (1, -1)] .lt 0]

/-- Options of examples. -/
def Qf.exOpts : LaOpts := ⟨true, true, true⟩

/-- The clauses `(x₀ ≤ 1)`, `(x₁ ≤ 1)`, `(3 ≤ x₀ + x₁ ∨ p)` and `(3 ≤ x₀ + x₁ ∨ ¬p)`: the solver decides
`p`, finds a conflict, learns a clause, and returns `unsat`. -/
def Qf.exUnsat : List Clause :=
  [[Lit.pos 1], [Lit.pos 2], [(Lit.pos 3).neg, Lit.pos 0], [(Lit.pos 3).neg, (Lit.pos 0).neg]]

theorem Qf.exUnsat_run : ((Qf.startRun id (fun _ => 0) Qf.exBuild Qf.exUnsat).bind fun r =>
    (Qf.checkRun id (fun _ => 0) Qf.exOpts 100 20 r.1).map Qf.Out.isUnsat) = some true := by decide +kernel

/-- The hypotheses of `C58_unsat` hold for this run. -/
example : ∃ c0 P, Qf.Start id (fun _ => 0) Qf.exUnsat P c0 ∧
    (∀ c, Qf.PicksFree id (fun _ => 0) Qf.exOpts Qf.anyOrder c) ∧
    Qf.Returns id (fun _ => 0) Qf.exOpts Qf.anyOrder c0 .unsat := by
  have h := Qf.exUnsat_run
  cases hs : Qf.startRun id (fun _ => 0) Qf.exBuild Qf.exUnsat with
  | none => rw [hs] at h; cases h
  | some r =>
    obtain ⟨c0, P⟩ := r
    rw [hs] at h
    simp only [Option.bind_some] at h
    refine ⟨c0, P, Qf.startRun_sound _ _ hs, fun c => (Qf.anyOrder_ok c).1, ?_⟩
    cases hr : Qf.checkRun id (fun _ => 0) Qf.exOpts 100 20 c0 with
    | none => rw [hr] at h; cases h
    | some out =>
      rw [hr] at h
      have := Qf.checkRun_sound _ _ _ hr c0 .refl
      cases out with
      | unsat => exact this
      | sat q => cases h
      | run c => cases h

#print axioms C58_unsat

end Yaga
