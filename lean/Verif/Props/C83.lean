/-
C83: no assertion of the arithmetic plugin fails while it derives conflict clauses or chooses values.
-/
import Verif.Proofs.FmChecked
import Verif.Proofs.QfModel
import Verif.Props.C55
import Verif.Props.C62

namespace Yaga
open Spec

/-- C83. In every history of the plugin `propagate` meets no failing assertion, divides by no zero and dereferences
no iterator at the end, and computes what the model without these checks computes: every constraint given to
Fourier-Motzkin elimination has variables and is no disequality, every resolved variable occurs in both polynomials
with coefficients that are not zero and occurs no more in the result, the derived constraint is false on the trail, and
the bounds added for unit constraints are those of constraints whose first variable is the only unassigned one. -/
theorem C83_propagate {R : Type} (hv : Nat → Nat) (hc : ℚ → Nat) (o : LaOpts) (timely : Prop) (la : LA R) (s : Stage)
    (h : LA.Reach hv hc o timely la s) : la.propagateC hv hc o = some (la.propagate hv hc o) := by
  obtain ⟨w, hg⟩ := h.good
  exact hg.propagateC o

/-- C83. After propagation without conflict the choice of a value for a variable meets no failing assertion: the
lower bound is not above the upper bound, both exist if there is no integer between them, and the value is allowed. -/
theorem C83_decide {R : Type} (hv : Nat → Nat) (hc : ℚ → Nat) (o : LaOpts) (la : LA R)
    (h : LA.Reach hv hc o True la .settled) (x : Nat) (hx : x < la.trail.rats.num) (hu : la.level x = none)
    (fuel : Nat) : la.decideC fuel x = some (la.decide fuel x) := by
  obtain ⟨q, hq⟩ := C62_value hv hc o la .settled h (by rintro ⟨⟩) x
  exact LA.decideC_of hq fun la' hd => by
    obtain ⟨w, hg⟩ := (LA.Reach.decideRat h x fuel hx hu hd).good
    exact hg.keep.ok

/-- The states before the rounds of one propagation of the solver: the Boolean plugin and the arithmetic plugin have
propagated without conflict and something was added to the trail, src/Theory_combination.cpp:5-29. -/
inductive Qf.Rounds (hv : Nat → Nat) (hc : ℚ → Nat) (op : LaOpts) : QS → QS → Prop where
  | refl (q : QS) : Rounds hv hc op q q
  | next {q q' : QS} {s : BS} {la : LA Nat} (h : q.s.Propagates none s)
      (hp : (Qf.withTrail q.la s.t).propagate hv hc op = (la, []))
      (hr : Rounds hv hc op ⟨Qf.follow s la, la⟩ q') : Rounds hv hc op q q'

/-- C83. In every run of the solver for QF_LRA no assertion fails in any call of `propagate` of the arithmetic
plugin, and none when it decides the variable that was picked. -/
theorem C83_runs {O : Type} (hv : Nat → Nat) (hc : ℚ → Nat) (op : LaOpts) (W : QOrder O)
    (A : List Clause) (P : List QAtom) (c0 : QC O) (h : Qf.Start hv hc A P c0)
    (hW : ∀ c, Qf.Reach hv hc op W c0 c → Qf.PicksFree hv hc op W c)
    (c : QC O) (hr : Qf.Reach hv hc op W c0 c) :
    (∀ q s, Qf.Rounds hv hc op c.q q → q.s.Propagates none s →
      (Qf.withTrail q.la s.t).propagateC hv hc op = some ((Qf.withTrail q.la s.t).propagate hv hc op)) ∧
    ∀ q n o la fuel, Qf.QProp hv hc op c.q [] q → W.pick c.o q.la (some (.rat n)) o la →
      la.decideC fuel n = some (la.decide fuel n) := by
  obtain ⟨b, st, hs, hC, -⟩ := Qf.all_reach h hW hr
  constructor
  · intro q s hrd
    have key : ∃ b st, st ≠ .conflict ∧ Qf.Core hv hc op c0.q.la.store A b st q := by
      have : ∀ {q1 q : QS}, Qf.Rounds hv hc op q1 q → ∀ {b st}, st ≠ Stage.conflict →
          Qf.Core hv hc op c0.q.la.store A b st q1 →
          ∃ b st, st ≠ Stage.conflict ∧ Qf.Core hv hc op c0.q.la.store A b st q := by
        intro q1 q hrd
        induction hrd with
        | refl => exact fun hs hC => ⟨_, _, hs, hC⟩
        | next hb hp _ ih =>
          intro b st hs hC
          obtain ⟨st1, hs1, hC1, -⟩ := Qf.core_bool hC hs hb
          have h2 := (Qf.core_lra hC1 hs1 hp).1
          refine ih ?_ h2
          rw [if_neg (by simp)]
          split <;> simp
      exact this hrd hs hC
    obtain ⟨b1, st1, hs1, hC1⟩ := key
    intro hb
    obtain ⟨st2, hs2, hC2, -⟩ := Qf.core_bool hC1 hs1 hb
    exact C83_propagate hv hc op True _ st2 hC2.reach
  · intro q n o la fuel hp hpk
    obtain ⟨g1, g2⟩ := hW c hr _ _ _ _ hp hpk
    obtain ⟨st', h1, h3, _⟩ := Qf.core_prop hp hC hs
    rw [h3 rfl] at h1
    rw [h1.trail] at g1 g2
    have h2 := Qf.core_queried h1 (W.queried hpk)
    refine C83_decide hv hc op la h2.reach n ?_ ?_ fuel
    · rw [show la.trail = q.s.t from h2.trail]; exact g1
    · show la.trail.level ⟨.rational, n⟩ = none
      rw [show la.trail = q.s.t from h2.trail]; exact g2

/-- Two variables, `x₀ - x₁ ≤ 0`, `x₀ + x₁ ≤ 0` and `x₁ = 0`; the first two constraints are true, the third one is
false, and `x₀` is decided. -/
def LA.exAsserts : List LA.Act :=
  [.resize .rational 2, .cons [(0, 1), (1, -1)] .leq 0, .cons [(0, 1), (1, 1)] .leq 0, .cons [(1, 1)] .eq 0, .propagate,
    .decideBool 0 true, .propagate, .setBool 1 true 1, .propagate, .setBool 2 false 1, .propagate, .decideRat 0]

/-- The bounds `0 ≤ x₁ ≤ 0` and the disequality give a conflict clause: the three constraints and a constraint
derived by Fourier-Motzkin elimination. -/
example : ∃ la : LA Nat, LA.Reach id (fun _ => 0) LA.exOpts True la .decided ∧
    (la.propagate id (fun _ => 0) LA.exOpts).2.map (·.length) = [4] ∧
    (la.propagateC id (fun _ => 0) LA.exOpts).isSome = true := by
  obtain ⟨la, h1, h2⟩ := LA.start_get (o := LA.exOpts) (timely := true) (as := LA.exAsserts)
    (s := .decided) (by decide +kernel)
  have e : (LA.start LA.exOpts true LA.exAsserts).map (fun r =>
      (r.1.propagate id (fun _ => 0) LA.exOpts).2.map (·.length)) = some [4] := by decide +kernel
  rw [h1] at e
  simp only [Option.map_some, Option.some.injEq] at e
  refine ⟨la, by simpa using h2, e, ?_⟩
  rw [C83_propagate id (fun _ => 0) LA.exOpts True la .decided (by simpa using h2)]
  rfl

/-- The assertions are not vacuous: resolution fails when the variable does not occur in the second polynomial. -/
example : Fm.resolveC ⟨⟨[(0, 1), (1, 1)], 0⟩, .leq⟩ ⟨⟨[(0, 1)], 0⟩, .leq⟩ 1 = none ∧
    (Fm.resolveC ⟨⟨[(0, 1), (1, 1)], 0⟩, .leq⟩ ⟨⟨[(0, 1), (1, -1)], 0⟩, .leq⟩ 1).isSome = true := by
  decide +kernel

#print axioms C83_propagate
#print axioms C83_decide
#print axioms C83_runs

end Yaga
