/-
C59: the answer `sat` of the solver for QF_LRA.
-/
import Verif.Proofs.QfModel
import Verif.Props.C58

namespace Yaga
open Spec

/-- C59. When `check` for QF_LRA returns `sat`, every declared variable has a value and the values on the
trail satisfy the asserted clauses and give the literals of the constraints their truth values. This holds
for all restarts, all choices in semantic splits, all values of the options and any variable order that
picks declared variables that are not assigned as long as there is one. -/
theorem C59_sat {O : Type} (hv : Nat → Nat) (hc : ℚ → Nat) (op : LaOpts) (W : QOrder O)
    (A : List Clause) (P : List QAtom) (c0 : QC O) (h : Qf.Start hv hc A P c0)
    (hW : ∀ c, Qf.Reach hv hc op W c0 c → Qf.PicksFree hv hc op W c ∧ Qf.PicksAll hv hc op W c)
    (q : QS) (hr : Qf.Returns hv hc op W c0 (.sat q)) :
    QfModel A P (fun n => q.s.t.bools.value n) (fun x => q.s.t.rats.value x) ∧
    (∀ n < q.s.t.bools.num, q.s.t.bools.defined n = true) ∧ ∀ x < q.s.t.rats.num, q.s.t.rats.defined x = true := by
  obtain ⟨h1, h2⟩ := Qf.sat_model h hW hr
  exact ⟨h1, fun n hn => h2 (.bool n) hn, fun x hx => h2 (.rat x) hx⟩

/-- C59. The two answers exclude each other: when one execution returns `sat`, no execution returns
`unsat`, whatever the options and the variable orders are. -/
theorem C59_agree {O O' : Type} (hv hv' : Nat → Nat) (hc hc' : ℚ → Nat) (op op' : LaOpts) (W : QOrder O)
    (W' : QOrder O') (A : List Clause) (P : List QAtom) (c0 : QC O) (c0' : QC O') (h : Qf.Start hv hc A P c0)
    (h' : Qf.Start hv' hc' A P c0')
    (hW : ∀ c, Qf.Reach hv hc op W c0 c → Qf.PicksFree hv hc op W c ∧ Qf.PicksAll hv hc op W c)
    (hW' : ∀ c, Qf.Reach hv' hc' op' W' c0' c → Qf.PicksFree hv' hc' op' W' c)
    (q : QS) (hr : Qf.Returns hv hc op W c0 (.sat q)) : ¬ Qf.Returns hv' hc' op' W' c0' .unsat := fun hu =>
  C58_unsat hv' hc' op' W' A P c0' h' hW' hu ⟨_, _, (C59_sat hv hc op W A P c0 h hW q hr).1⟩

/-- Whether the answer is `sat` with these values of the Boolean and of the rational variables. -/
def Qf.Out.isSat {O : Type} (bs : List Bool) (rs : List ℚ) : Qf.Out O → Bool
  | .sat q => (List.range q.s.t.bools.num).map q.s.t.bools.value == bs &&
      (List.range q.s.t.rats.num).map q.s.t.rats.value == rs
  | _ => false

/-- The clauses `(x₀ ≤ 1 ∨ p)`, `(3 ≤ x₀ + x₁)`, `(x₀ < x₁)`, `(x₁ ≤ 1 ∨ ¬p)`. -/
def Qf.exSat : List Clause :=
  [[Lit.pos 1, Lit.pos 0], [(Lit.pos 3).neg], [Lit.pos 4], [Lit.pos 2, (Lit.pos 0).neg]]

/-- The solver derives two more constraints and finds `x₀ = 0`, `x₁ = 3`. -/
theorem Qf.exSat_run : ((Qf.startRun id (fun _ => 0) Qf.exBuild Qf.exSat).bind fun r =>
    (Qf.checkRun id (fun _ => 0) Qf.exOpts 100 20 r.1).map
      (Qf.Out.isSat [false, true, false, false, true, true, true] [0, 3])) = some true := by decide +kernel

/-- The hypotheses of `C59_sat` hold for this run. -/
example : ∃ c0 P q, Qf.Start id (fun _ => 0) Qf.exSat P c0 ∧
    (∀ c, Qf.PicksFree id (fun _ => 0) Qf.exOpts Qf.anyOrder c ∧ Qf.PicksAll id (fun _ => 0) Qf.exOpts Qf.anyOrder c) ∧
    Qf.Returns id (fun _ => 0) Qf.exOpts Qf.anyOrder c0 (.sat q) := by
  have h := Qf.exSat_run
  cases hs : Qf.startRun id (fun _ => 0) Qf.exBuild Qf.exSat with
  | none => rw [hs] at h; cases h
  | some r =>
    obtain ⟨c0, P⟩ := r
    rw [hs] at h
    simp only [Option.bind_some] at h
    cases hr : Qf.checkRun id (fun _ => 0) Qf.exOpts 100 20 c0 with
    | none => rw [hr] at h; cases h
    | some out =>
      rw [hr] at h
      have := Qf.checkRun_sound _ _ _ hr c0 .refl
      cases out with
      | unsat => cases h
      | sat q => exact ⟨c0, P, q, Qf.startRun_sound _ _ hs, fun c => Qf.anyOrder_ok c, this⟩
      | run c => cases h

#print axioms C59_sat
#print axioms C59_agree

end Yaga
