/-
C07: clause minimisation is sound.
-/
import Verif.Proofs.Subsumption
import Verif.Proofs.AnalysisExample

namespace Yaga
open Spec
variable {R : Type}

/-- C07. For every trail with well-formed reasons and every clause, minimisation returns a
sub-clause (same order), and the sub-clause follows from the original clause and the reasons of the
trail, although redundancy is judged against the clause while it is compacted in place. -/
theorem C07_minimize_sound (deref : R → Clause) (t : Trail R) (hi : t.Inv)
    (hro : ReasonsOk deref t) (c : Clause) :
    (minimize deref t c).Sublist c ∧
    ∀ σ, clauseTrue σ c → (∀ v r, t.reason v = some r → clauseTrue σ (deref r)) →
      clauseTrue σ (minimize deref t c) :=
  ⟨minimize_sublist deref t c, fun σ h1 h2 => minimize_sound hi hro c σ h1 h2⟩

/-- C07, consequence for backjumping: if nothing was propagated late, minimisation does not change
the set of decision levels above 0 that occur in the clause (hence not its LBD above level 0), and
it keeps a literal that is the only one of its level. -/
theorem C07_minimize_keeps_levels (deref : R → Clause) (t : Trail R) (hi : t.Inv)
    (hro : ReasonsOk deref t) (ht : Tight deref t) (c : Clause) (n : Nat) (hn : 0 < n) :
    ((∃ l ∈ minimize deref t c, t.level l.var = some n) ↔ ∃ l ∈ c, t.level l.var = some n) ∧
    ∀ x ∈ c, t.level x.var = some n → (∀ l ∈ c, t.level l.var = some n → l = x) →
      x ∈ minimize deref t c := by
  have key := minimize_levels hi hro ht c n hn
  refine ⟨⟨?_, key⟩, ?_⟩
  · rintro ⟨l, hl, e⟩; exact ⟨l, (minimize_sublist deref t c).subset hl, e⟩
  · intro x hx hxl huniq
    obtain ⟨l, hl, e⟩ := key ⟨x, hx, hxl⟩
    rw [← huniq l ((minimize_sublist deref t c).subset hl) e]; exact hl

/-- Non-vacuity: in the example trail x2 was propagated by x2 ∨ ¬x1, so ¬x2 is removed from
¬x2 ∨ ¬x1 ∨ ¬x0. -/
example : minimize id Example.t4 [(Lit.pos 2).neg, (Lit.pos 1).neg, (Lit.pos 0).neg] =
    [(Lit.pos 1).neg, (Lit.pos 0).neg] := by decide

example := C07_minimize_sound id Example.t4 Example.t4_inv Example.t4_reasons
  [(Lit.pos 2).neg, (Lit.pos 1).neg, (Lit.pos 0).neg]

example := C07_minimize_keeps_levels id Example.t4 Example.t4_inv Example.t4_reasons Example.t4_tight
  [(Lit.pos 2).neg, (Lit.pos 1).neg, (Lit.pos 0).neg] 2 (by decide)

#print axioms C07_minimize_sound
#print axioms C07_minimize_keeps_levels

end Yaga
