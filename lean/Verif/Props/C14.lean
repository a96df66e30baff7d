/-
C14: unit propagation is complete.
-/
import Verif.Proofs.BoolExample

namespace Yaga
open Spec BS

/-- The clause has no literal that is true and at most one that is not false (counted by position). -/
def Spec.FalseOrUnit (m : PModel Bool) (c : Clause) : Prop :=
  (∀ l ∈ c, evalLit m l = some false) ∨
  ∃ xs l ys, c = xs ++ l :: ys ∧ evalLit m l = none ∧ ∀ k ∈ xs ++ ys, evalLit m k = some false

/-- C14. Whenever a history of the check loop reaches a state where the Boolean plugin has returned
without a conflict (and nothing changed since), no clause of the database is false and no clause has
all literals but one false with the last one unassigned. -/
theorem C14_propagation_complete {s : BS} (hist : Hist .complete s) :
    ∀ c ∈ s.cls, ¬ FalseOrUnit s.t.bools c := by
  obtain ⟨hi, hws, hdom, hun, -⟩ := hist_inv hist
  intro c hc hbad
  obtain ⟨r, hr, rfl⟩ := List.getElem_of_mem hc
  have hcl : s.clause r = s.cls[r] := by
    simp [clause, List.getD_eq_getElem?_getD, List.getElem?_eq_getElem hr]
  rw [← hcl] at hbad
  have hne := hws.ne r hr
  -- a false watched literal is paired with a true one
  have hpair : ∀ w ∈ (s.clause r).take 2, evalLit s.t.bools w = some false →
      ∃ o ∈ s.clause r, evalLit s.t.bools o = some true ∧ 2 ≤ (s.clause r).length := by
    intro w hw hf
    obtain ⟨o, ⟨rest, h1⟩, h2, -⟩ := (hdom r hr w hw hf).resolve_right id
    rcases h1 with h1 | h1 <;> rw [h1] <;> exact ⟨o, by simp, h2, by simp⟩
  have hno : ∀ o ∈ s.clause r, evalLit s.t.bools o ≠ some true := by
    intro o ho ht
    rcases hbad with h | ⟨xs, l, ys, h1, h2, h3⟩
    · rw [h o ho] at ht; cases ht
    · rw [h1] at ho
      by_cases hol : o = l
      · rw [hol, h2] at ht; cases ht
      · have : o ∈ xs ++ ys := by simp at ho ⊢; tauto
        rw [h3 o this] at ht; cases ht
  have hnf : ∀ w ∈ (s.clause r).take 2, evalLit s.t.bools w ≠ some false := by
    intro w hw hf
    obtain ⟨o, ho, ht, -⟩ := hpair w hw hf
    exact hno o ho ht
  rcases hbad with h | ⟨xs, l, ys, h1, h2, h3⟩
  · match hc : s.clause r, hne with
    | a :: rest, _ =>
      exact hnf a (by rw [hc]; simp) (h a (by rw [hc]; simp))
  · match xs, ys with
    | [], [] =>
      have := hun r hr l (by simpa using h1)
      rw [evalLit_none hi] at h2
      rw [h2] at this; cases this
    | [], y :: ys =>
      exact hnf y (by rw [h1]; simp) (h3 y (by simp))
    | x :: xs, ys =>
      exact hnf x (by rw [h1]; simp) (h3 x (by simp))

/-- C14 for a single call: from every state that the check loop can reach before a call of
`propagate`, if the call ends without a conflict the database has no false and no unit clause. -/
theorem C14_after_propagate {s s' : BS} (hist : Hist .ready s ∨ Hist .fresh s)
    (h : Propagates s none s') : ∀ c ∈ s'.cls, ¬ FalseOrUnit s'.t.bools c := by
  refine C14_propagation_complete ?_
  rcases hist with h1 | h1
  · exact Hist.prop h1 h
  · exact Hist.propFresh h1 h

/-- Not vacuous: after the first propagation x0 and x1 are true; a decision of x2 makes the third
clause unit, and propagation reports the conflict it leads to. -/
example : Hist .complete Ex.s1 ∧ evalLit Ex.s1.t.bools (.pos 1) = some true ∧
    evalLit Ex.s1.t.bools (.pos 2) = none := ⟨Ex.s1_hist, by decide, by decide⟩

example : FalseOrUnit Ex.s2.t.bools [(Lit.pos 2).neg, (Lit.pos 3).neg] :=
  Or.inr ⟨[(Lit.pos 2).neg], (Lit.pos 3).neg, [], rfl, by decide, by decide⟩

example : Hist .conflict Ex.s3 := Hist.prop (c := some _) Ex.s2_hist Ex.s2_s3

/-- After the conflict the clause `¬x2` is asserting at level 0; the solver learns it, backtracks
and propagates it without conflict. -/
def Ex.s4 : BS := (Ex.s3.learnAll [[(Lit.pos 2).neg]]).backtrackUip [[(Lit.pos 2).neg]] 0

example : Hist .ready Ex.s4 :=
  .jump (Hist.prop (c := some _) Ex.s2_hist Ex.s2_s3) (by decide) (by
    intro c hc
    simp only [List.mem_singleton] at hc
    subst hc
    exact ⟨⟨by decide, by decide⟩, (Lit.pos 2).neg, [], rfl, ⟨1, by decide, by decide⟩, by simp,
      by simp, by simp⟩)

example : ∃ s', Propagates Ex.s4 none s' ∧ evalLit s'.t.bools (.pos 2) = some false :=
  ⟨_, ⟨10, rfl⟩, by decide⟩

/-- The statement counts positions. A clause that repeats a literal, like x0 ∨ x0, is watched twice
by that literal and not recognised as a unit clause. -/
theorem C14_duplicate_literal_not_unit :
    ∃ s s' : BS, Hist .fresh s ∧ s.cls = [[.pos 0, .pos 0]] ∧ Propagates s none s' ∧
      evalLit s'.t.bools (.pos 0) = none :=
  ⟨Ex.state 1 [[.pos 0, .pos 0]], _, .start _ rfl ⟨by decide, by decide⟩, rfl, ⟨5, rfl⟩, by decide⟩

#print axioms C14_propagation_complete
#print axioms C14_after_propagate
#print axioms C14_duplicate_literal_not_unit

end Yaga
