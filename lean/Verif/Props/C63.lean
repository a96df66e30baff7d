/-
C63. The solver for QF_LRA with its variable order `Generalized_vsids`.
-/
import Verif.Props.C62
import Verif.Proofs.QfOrder
import Verif.Proofs.QfOrderRun

namespace Yaga
open Spec

variable {S : Type} [LinearOrder S] [ScoreOps S]

/-- C63. After propagation without conflict, in every state the check loop reaches (also after restarts and
with the constraints that the plugin for linear arithmetic derived), the order picks only declared variables
that have no value, and it picks none only if every declared variable has a value. -/
theorem C63_picks (hv : Nat → Nat) (hc : ℚ → Nat) (op : LaOpts) (A : List Clause) (P : List QAtom)
    (c0 : QC (GVsids S)) (h : Qf.Start hv hc A P c0) (ho : Qf.OrderStart A c0) (c : QC (GVsids S))
    (hr : Qf.Reach hv hc op (Qf.gvOrder S) c0 c) (q : QS) (hp : Qf.QProp hv hc op c.q [] q)
    (o : GVsids S) (v : Option Var) (la : LA Nat) (hpick : (c.o.sync q.la.trail).pickLa q.la = some (o, v, la)) :
    (∀ x, v = some x → x.ord < q.la.trail.numVars x.type ∧ q.la.trail.level x = none) ∧
    (v = none → ∀ x : Var, x.ord < q.la.trail.numVars x.type → q.la.trail.level x ≠ none) := by
  obtain ⟨h1, h2⟩ := Qf.gv_picks h ho hr
  refine ⟨?_, ?_⟩
  · rintro x rfl
    exact h1 q x o la hp hpick
  · rintro rfl
    exact h2 q o la hp hpick

/-- C63. If `check` returns unsat, there is no assignment of the Boolean and rational variables that
satisfies the asserted clauses and gives each Boolean variable of a constraint the truth value of the
constraint. -/
theorem C63_unsat (hv : Nat → Nat) (hc : ℚ → Nat) (op : LaOpts) (A : List Clause) (P : List QAtom)
    (c0 : QC (GVsids S)) (h : Qf.Start hv hc A P c0) (ho : Qf.OrderStart A c0)
    (hr : Qf.Returns hv hc op (Qf.gvOrder S) c0 .unsat) : ¬ ∃ σ ρ, QfModel A P σ ρ :=
  C58_unsat hv hc op (Qf.gvOrder S) A P c0 h (fun _ hr => (Qf.gv_picks h ho hr).1) hr

/-- C63. If `check` returns sat, the values on the trail are such an assignment, and every variable has a
value. -/
theorem C63_sat (hv : Nat → Nat) (hc : ℚ → Nat) (op : LaOpts) (A : List Clause) (P : List QAtom)
    (c0 : QC (GVsids S)) (h : Qf.Start hv hc A P c0) (ho : Qf.OrderStart A c0)
    (q : QS) (hr : Qf.Returns hv hc op (Qf.gvOrder S) c0 (.sat q)) :
    QfModel A P (fun n => q.s.t.bools.value n) (fun x => q.s.t.rats.value x) ∧
    (∀ n < q.s.t.bools.num, q.s.t.bools.defined n = true) ∧ ∀ x < q.s.t.rats.num, q.s.t.rats.defined x = true :=
  C59_sat hv hc op (Qf.gvOrder S) A P c0 h (fun _ hr => Qf.gv_picks h ho hr) q hr

/-- C63. Without the option `--prop-rational` (the default), no assertion of the order fails and no step of
the loop is stuck: `check` returns unsat or sat, or makes iterations for ever. -/
theorem C63_never_stuck (hv : Nat → Nat) (hc : ℚ → Nat) (op : LaOpts) (hop : op.propRational = false)
    (A : List Clause) (P : List QAtom) (c0 : QC (GVsids S)) (h : Qf.Start hv hc A P c0)
    (ho : Qf.OrderStart A c0) :
    (∃ out, Qf.Returns hv hc op (Qf.gvOrder S) c0 out ∧ (out = .unsat ∨ ∃ q, out = .sat q)) ∨
    ∃ f : Nat → QC (GVsids S), f 0 = c0 ∧ ∀ i, Qf.Iter hv hc op (Qf.gvOrder S) (f i) (.run (f (i + 1))) :=
  C62_never_stuck hv hc op (Qf.gvOrder S) A P c0 h (fun _ hr => (Qf.gv_picks h ho hr).1)
    fun c hr => ⟨Qf.gv_handles c, Qf.gv_answers hop h ho hr⟩

/-- `x₀ = 0`, `x₁ = 0`, `x₀ + x₁ = 3`. -/
def Qf.exPushBuild : List Qf.BAct :=
  [.vars .rational 2, .cons [(0, 1)] .eq 0, .cons [(1, 1)] .eq 0, .cons [(0, 1), (1, 1)] .eq 3]

/-- The first two constraints hold, the third does not. -/
def Qf.exPush : List Clause := [[Lit.pos 0], [Lit.pos 1], [(Lit.pos 2).neg]]

theorem Qf.exPush_run : ((Qf.startRun id (fun _ => 0) Qf.exPushBuild Qf.exPush).map fun r =>
    Qf.gvFails id (fun _ => 0) ⟨true, true, true⟩ 100 6 (Qf.gvStart (S := Int) Qf.exPush r.1)) = some true := by
  decide +kernel

/-- C63, where the code is wrong: with `--prop-rational` the assertion of `Variable_priority_queue::push`
(src/variable_order/Variable_priority_queue.cpp:16) can fail. `x₀` and `x₁` are pushed when both have one
allowed value; `x₀` is decided, the third constraint changes the bounds of `x₁`, and `x₁` is pushed again
although it is still in the queue. -/
theorem C63_push_assertion : ∃ (c0 c : QC (GVsids Int)) (P : List QAtom) (q : QS),
    Qf.Start id (fun _ => 0) Qf.exPush P c0 ∧ Qf.OrderStart Qf.exPush c0 ∧
    Qf.Reach id (fun _ => 0) ⟨true, true, true⟩ (Qf.gvOrder Int) c0 c ∧
    Qf.QProp id (fun _ => 0) ⟨true, true, true⟩ c.q [] q ∧
    (c.o.sync q.la.trail).pickLa q.la = none := by
  have h := Qf.exPush_run
  cases hs : Qf.startRun id (fun _ => 0) Qf.exPushBuild Qf.exPush with
  | none => rw [hs] at h; cases h
  | some r =>
    obtain ⟨c0, P⟩ := r
    rw [hs] at h
    simp only [Option.map_some, Option.some.injEq] at h
    obtain ⟨c, q, h1, h2, h3⟩ := Qf.gvFails_sound _ _ _ h _ .refl
    obtain ⟨h4, h5⟩ := Qf.gvStart_sound (S := Int) _ _ hs
    exact ⟨_, c, P, q, h4, h5, h1, h2, h3⟩

/-- Options without `--prop-rational`. -/
def Qf.exDefault : LaOpts := ⟨false, true, false⟩

/-- Clauses over the constraints 1 to 3 of `Qf.exBuild` and the Boolean variable 0. -/
def Qf.exHard : List Clause :=
  [[Lit.pos 1, Lit.pos 0], [Lit.pos 1, (Lit.pos 0).neg], [Lit.pos 2, Lit.pos 4], [Lit.pos 2, (Lit.pos 4).neg],
    [(Lit.pos 3).neg]]

/-- The solver with restarts after conflicts of the first iterations learns clauses, derives a constraint and answers
unsat. -/
theorem Qf.exHard_run : ((Qf.startRun id (fun _ => 0) Qf.exBuild Qf.exHard).bind fun r =>
    (Qf.gvCheckRun id (fun _ => 0) Qf.exDefault 100 (List.replicate 5 true ++ List.replicate 20 false)
      (Qf.gvStart (S := Int) Qf.exHard r.1)).map Qf.Out.isUnsat) = some true := by
  decide +kernel

/-- The hypotheses of `C63_unsat` and `C63_never_stuck` hold for this run. -/
example : ∃ (c0 : QC (GVsids Int)) (P : List QAtom), Qf.exDefault.propRational = false ∧
    Qf.Start id (fun _ => 0) Qf.exHard P c0 ∧ Qf.OrderStart Qf.exHard c0 ∧
    Qf.Returns id (fun _ => 0) Qf.exDefault (Qf.gvOrder Int) c0 .unsat := by
  have h := Qf.exHard_run
  cases hs : Qf.startRun id (fun _ => 0) Qf.exBuild Qf.exHard with
  | none => rw [hs] at h; cases h
  | some r =>
    obtain ⟨c0, P⟩ := r
    rw [hs] at h
    simp only [Option.bind_some, Option.map_eq_some_iff] at h
    obtain ⟨out, hr, hu⟩ := h
    obtain ⟨h4, h5⟩ := Qf.gvStart_sound (S := Int) _ _ hs
    have := Qf.gvCheckRun_sound _ _ _ hr _ .refl
    cases out with
    | unsat => exact ⟨_, P, rfl, h4, h5, this⟩
    | sat q => cases hu
    | run c => cases hu

theorem Qf.exSat_gvRun : ((Qf.startRun id (fun _ => 0) Qf.exBuild Qf.exSat).bind fun r =>
    (Qf.gvCheckRun id (fun _ => 0) Qf.exDefault 100 (List.replicate 20 false)
      (Qf.gvStart (S := Int) Qf.exSat r.1)).map
      (Qf.Out.isSat [false, true, false, false, true] [0, 3])) = some true := by decide +kernel

/-- The hypotheses of `C63_sat` and `C63_picks` hold: for the clauses of `C59` the order picks two variables
and then none, and the solver answers sat. -/
example : ∃ (c0 c : QC (GVsids Int)) (P : List QAtom) (q q' : QS), Qf.Start id (fun _ => 0) Qf.exSat P c0 ∧
    Qf.OrderStart Qf.exSat c0 ∧ Qf.Returns id (fun _ => 0) Qf.exDefault (Qf.gvOrder Int) c0 (.sat q) ∧
    Qf.Reach id (fun _ => 0) Qf.exDefault (Qf.gvOrder Int) c0 c ∧ Qf.QProp id (fun _ => 0) Qf.exDefault c.q [] q' ∧
    ∃ o la, (c.o.sync q'.la.trail).pickLa q'.la = some (o, none, la) := by
  have h := Qf.exSat_gvRun
  cases hs : Qf.startRun id (fun _ => 0) Qf.exBuild Qf.exSat with
  | none => rw [hs] at h; cases h
  | some r =>
    obtain ⟨c0, P⟩ := r
    rw [hs] at h
    simp only [Option.bind_some, Option.map_eq_some_iff] at h
    obtain ⟨out, hr, hu⟩ := h
    obtain ⟨h4, h5⟩ := Qf.gvStart_sound (S := Int) _ _ hs
    have := Qf.gvCheckRun_sound _ _ _ hr _ .refl
    cases out with
    | unsat => cases hu
    | sat q =>
      obtain ⟨c, h6, h7⟩ := id this
      cases h7 with
      | sat hq hp => exact ⟨_, c, P, _, _, h4, h5, this, h6, hq, _, _, hp⟩
    | run c => cases hu

#print axioms C63_picks
#print axioms C63_unsat
#print axioms C63_sat
#print axioms C63_never_stuck
#print axioms C63_push_assertion

end Yaga
