/-
C51: unit propagation terminates.
-/
import Verif.Proofs.BcpTerm
import Verif.Proofs.BoolExample

namespace Yaga
open BS

/-- C51. From every state whatsoever (any database, watch lists, trail and stack), `propagate` of the
Boolean plugin ends, with a conflict or without. -/
theorem C51_propagation_terminates (s : BS) : ∃ c s', Propagates s c s' := propagates_ends s

/-- The result is unique: it does not depend on the bound on the number of iterations in the model. -/
theorem C51_result_unique {s s1 s2 : BS} {c1 c2 : Option Clause} (h1 : Propagates s c1 s1)
    (h2 : Propagates s c2 s2) : c1 = c2 ∧ s1 = s2 := by
  have mono : ∀ f s r, propLoop f s = some r → ∀ g, f ≤ g → propLoop g s = some r := by
    intro f
    induction f with
    | zero => intro s r h; simp [propLoop] at h
    | succ f ih =>
      intro s r h g hg
      obtain ⟨g, rfl⟩ : ∃ k, g = k + 1 := ⟨g - 1, by omega⟩
      rw [propLoop] at h ⊢
      rcases hs : s.sat with _ | ⟨⟨lit, reason⟩, rest⟩
      · simpa [hs] using h
      · simp only [hs] at h ⊢
        rcases hr : (assignPopped { s with sat := rest } lit reason).falsified lit.neg with ⟨_ | c, s2⟩
        · simp only [hr] at h ⊢
          exact ih _ _ h _ (by omega)
        · simpa [hr] using h
  obtain ⟨f1, h1⟩ := h1
  obtain ⟨f2, h2⟩ := h2
  have e1 := mono _ _ _ h1 (max f1 f2) (by omega)
  have e2 := mono _ _ _ h2 (max f1 f2) (by omega)
  rw [e1] at e2
  simpa using e2

/-- A state where propagation derives two literals before it ends. -/
example : Propagates Ex.s0 none Ex.s1 ∧ evalLit Ex.s0.t.bools (.pos 1) = none ∧
    evalLit Ex.s1.t.bools (.pos 1) = some true := ⟨Ex.s0_s1, by decide, by decide⟩

#print axioms C51_propagation_terminates
#print axioms C51_result_unique

end Yaga
