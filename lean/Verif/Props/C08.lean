/-
C08: subsumption never changes the problem.
-/
import Verif.Proofs.Subsumption

namespace Yaga
open Spec

/-- C08. For every list of learned clauses and every number of old clauses, what remains is a
sublist of the clauses before, and every (non-empty) clause before is a superset of a clause that
remains. -/
theorem C08_subsumption_covers (learned : List Clause) (oldSize : Nat) :
    (removeSubsumed learned oldSize).Sublist learned ∧
    ∀ c ∈ learned, c ≠ [] → ∃ d ∈ removeSubsumed learned oldSize, d ⊆ c :=
  removeSubsumed_inv learned oldSize

/-- C08. The remaining clauses are logically equivalent to the clauses before (the solver never
stores an empty clause: `check` answers `unsat` instead of learning it). -/
theorem C08_subsumption_equivalent (learned : List Clause) (oldSize : Nat)
    (hne : ∀ c ∈ learned, c ≠ []) (σ : Assignment) :
    allTrue σ (removeSubsumed learned oldSize) ↔ allTrue σ learned := by
  obtain ⟨h1, h2⟩ := removeSubsumed_inv learned oldSize
  constructor
  · intro h c hc
    obtain ⟨d, hd, hsub⟩ := h2 c hc (hne c hc)
    obtain ⟨l, hl, ht⟩ := h d hd
    exact ⟨l, hsub hl, ht⟩
  · intro h c hc; exact h c (h1.subset hc)

/-- Non-vacuity: one old and two new clauses; the last new clause subsumes both others. -/
example : removeSubsumed [[.pos 0, .pos 1, .pos 2], [.pos 3, .pos 1, .pos 2], [.pos 1, .pos 2]] 1
    = [[.pos 1, .pos 2]] := by decide

example := C08_subsumption_equivalent
  [[.pos 0, .pos 1, .pos 2], [.pos 3, .pos 1, .pos 2], [.pos 1, .pos 2]] 1 (by decide)

#print axioms C08_subsumption_covers
#print axioms C08_subsumption_equivalent

end Yaga
