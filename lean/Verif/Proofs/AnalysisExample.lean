/-
A concrete trail that satisfies the hypotheses of the theorems about conflict analysis.
-/
import Verif.Proofs.Reasons

namespace Yaga.Example
open Spec

/-- Four boolean variables, nothing assigned. -/
def t0 : Trail Clause := Trail.init.resize .boolean 4
/-- Level 1: x0 decided true. -/
def t1 : Trail Clause := (t0.decide (.bool 0)).setValue (.bool 0) (.b true)
/-- Level 2: x1 decided true. -/
def t2 : Trail Clause := (t1.decide (.bool 1)).setValue (.bool 1) (.b true)
/-- x2 propagated by the clause x2 ∨ ¬x1. -/
def r3 : Clause := [.pos 2, (Lit.pos 1).neg]
def t3 : Trail Clause := (t2.propagate (.bool 2) (some r3) 2).setValue (.bool 2) (.b true)
/-- x3 propagated false by the clause ¬x3 ∨ ¬x2 ∨ ¬x0. -/
def r4 : Clause := [(Lit.pos 3).neg, (Lit.pos 2).neg, (Lit.pos 0).neg]
def t4 : Trail Clause := (t3.propagate (.bool 3) (some r4) 2).setValue (.bool 3) (.b false)
/-- A clause that is false in `t4`: x3 ∨ ¬x2. -/
def conflict : Clause := [.pos 3, (Lit.pos 2).neg]

theorem t0_inv : t0.Inv := Trail.resize_inv Trail.init_inv _ _ (by first | decide | simp [Trail.init])
theorem t1_inv : t1.Inv := Trail.decide_inv t0_inv _ _ (by decide) (by decide) (by decide)
theorem t2_inv : t2.Inv := Trail.decide_inv t1_inv _ _ (by decide) (by decide) (by decide)
theorem t3_inv : t3.Inv := Trail.propagate_inv t2_inv _ _ _ _ (by decide) (by decide) (by decide) (by decide)
theorem t4_inv : t4.Inv := Trail.propagate_inv t3_inv _ _ _ _ (by decide) (by decide) (by decide) (by decide)

theorem t0_reason (v : Var) : t0.reason v = none := by
  simp [t0, Trail.resize, Trail.init]
theorem t0_level (v : Var) : t0.level v = none := by
  simp [t0, Trail.resize, Trail.init]

theorem t2_reasons : ReasonsOk id t2 :=
  reasonsOk_decide t1_inv (reasonsOk_decide t0_inv (reasonsOk_of_noReason t0_reason) _ _ (by decide))
    _ _ (by decide)
theorem t3_reasons : ReasonsOk id t3 :=
  reasonsOk_propagate t2_inv t2_reasons 2 r3 2 true (by decide) (by decide) (by decide) (by
    intro m hm hne
    simp only [id, r3, List.mem_cons, List.not_mem_nil, or_false] at hm
    rcases hm with rfl | rfl
    · exact absurd rfl hne
    · exact ⟨by decide, 2, by decide, by decide⟩)
theorem t4_reasons : ReasonsOk id t4 :=
  reasonsOk_propagate t3_inv t3_reasons 3 r4 2 false (by decide) (by decide) (by decide) (by
    intro m hm hne
    simp only [id, r4, List.mem_cons, List.not_mem_nil, or_false] at hm
    rcases hm with rfl | rfl | rfl
    · exact absurd rfl hne
    · exact ⟨by decide, 2, by decide, by decide⟩
    · exact ⟨by decide, 1, by decide, by decide⟩)
theorem t4_tight : Tight id t4 := by
  refine tight_propagate t3_reasons (tight_propagate t2_reasons (tight_decide
    (reasonsOk_decide t0_inv (reasonsOk_of_noReason t0_reason) _ _ (by decide))
    (tight_decide (reasonsOk_of_noReason t0_reason) (tight_of_noReason t0_reason) _ _ (by decide))
    _ _ (by decide)) _ _ _ _ (by decide) ?_) _ _ _ _ (by decide) ?_
  · intro _; exact ⟨(Lit.pos 1).neg, by decide, by decide, by decide⟩
  · intro _; exact ⟨(Lit.pos 2).neg, by decide, by decide, by decide⟩
theorem t4_zero : ZeroReason t4 :=
  zeroReason_propagate (zeroReason_propagate (zeroReason_decide t1_inv (zeroReason_decide t0_inv
    (zeroReason_of_unassigned t0_level) _ _) _ _) _ _ _ _) _ _ _ _

theorem conflict_false : ∀ l ∈ conflict, evalLit t4.bools l = some false := by decide

end Yaga.Example
