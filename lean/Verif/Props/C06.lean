/-
C06: learned clauses are conflicting and ready for backjumping.
-/
import Verif.Proofs.AnalysisExample

namespace Yaga
open Spec
variable {R : Type}

/-- C06. For every trail whose bookkeeping and reasons are in order and every clause that is false
in it, `analyze` succeeds. Its clause `c'` is false in the trail, has no duplicate literal, is
ordered by decision level from the highest to the lowest and is empty only together with level -1.
Otherwise the level `L` is a level below the current one and after backtracking to `L` either
exactly the first literal is unassigned and all others are false (so it can be propagated), or at
least the first two literals are unassigned and were at level `L + 1`, where every literal of that
level was decided or assigned without a reason (semantic split). -/
theorem C06_backjump_ready (deref : R → Clause) (t : Trail R) (hi : t.Inv)
    (hro : ReasonsOk deref t) (ht : Tight deref t) (hz : ZeroReason t) (conflict : Clause)
    (hf : ∀ l ∈ conflict, evalLit t.bools l = some false) :
    ∃ c' lvl, analyze deref t conflict = some (c', lvl) ∧
      (∀ l ∈ c', evalLit t.bools l = some false) ∧ c'.Nodup ∧
      c'.Pairwise (fun a b => ∃ la lb, t.level a.var = some la ∧ t.level b.var = some lb ∧ lb ≤ la) ∧
      ((c' = [] ∧ lvl = -1) ∨ ∃ L : Nat, lvl = L ∧ L < t.decisionLevel ∧
        ((∃ x rest, c' = x :: rest ∧ evalLit (t.backtrack L).bools x = none ∧
            ∀ m ∈ rest, evalLit (t.backtrack L).bools m = some false) ∨
         (∃ x y rest, c' = x :: y :: rest ∧
            evalLit (t.backtrack L).bools x = none ∧ evalLit (t.backtrack L).bools y = none ∧
            t.level x.var = some (L + 1) ∧ t.level y.var = some (L + 1) ∧
            ∀ m ∈ c', t.level m.var = some (L + 1) → t.reason m.var = none))) := by
  obtain ⟨c', lvl, h1, h2, h3, h4, h5⟩ := analyze_spec hi hro ht hz conflict hf
  refine ⟨c', lvl, h1, h2, h3, ?_, h5.imp id ?_⟩
  · refine h4.imp_of_mem ?_
    intro a b ha hb hab
    obtain ⟨la, hla⟩ := false_level hi (h2 a ha)
    obtain ⟨lb, hlb⟩ := false_level hi (h2 b hb)
    rw [levelOr_of_level hla, levelOr_of_level hlb] at hab
    exact ⟨la, lb, hla, hlb, by omega⟩
  · rintro ⟨L, e, h⟩
    rcases h with ⟨x, rest, n, e1, e2, e3, e4, -⟩ | ⟨x, y, rest, e1, e2, e3, e4⟩
    · have hb := hi.bound _ _ e2
      refine ⟨L, e, by omega, Or.inl ⟨x, rest, e1, evalLit_backtrack_high hi (by omega) e2 e3, ?_⟩⟩
      intro m hm
      obtain ⟨k, hk, hkL⟩ := e4 m hm
      rw [evalLit_backtrack_low hi (by omega) hk hkL]
      exact h2 m (by rw [e1]; exact List.mem_cons_of_mem _ hm)
    · have hb := hi.bound _ _ e2
      exact ⟨L, e, by omega, Or.inr ⟨x, y, rest, e1,
        evalLit_backtrack_high hi (by omega) e2 (by omega),
        evalLit_backtrack_high hi (by omega) e3 (by omega), e2, e3, e4⟩⟩

/-- Non-vacuity: the example trail meets all hypotheses; the result is an asserting clause. -/
example : ∃ c' lvl, analyze id Example.t4 Example.conflict = some (c', lvl) ∧ lvl = 1 ∧
    c' = [(Lit.pos 2).neg, (Lit.pos 0).neg] := ⟨_, _, by decide, rfl, rfl⟩

example := C06_backjump_ready id Example.t4 Example.t4_inv Example.t4_reasons Example.t4_tight
  Example.t4_zero Example.conflict Example.conflict_false

/-- Without the hypothesis that nothing is propagated late, the claim is false for the code: a
variable propagated at level 2 by a clause whose other literals are at level 1 is resolved away, and
the returned clause has two literals at the level to backtrack to. -/
theorem C06_needs_tight :
    ∃ (t : Trail Clause) (c c' : Clause) (lvl : Int), t.Inv ∧ ReasonsOk id t ∧ ZeroReason t ∧
      (∀ l ∈ c, evalLit t.bools l = some false) ∧ analyze id t c = some (c', lvl) ∧ lvl = 1 ∧
      c' = [(Lit.pos 0).neg, (Lit.pos 1).neg] ∧
      t.level (.bool 0) = some 1 ∧ t.level (.bool 1) = some 1 := by
  -- x0 decided at 1, x1 propagated at 1 by x1 ∨ ¬x0, x2 decided at 2, x3 propagated at 2 by
  -- x3 ∨ ¬x0 ∨ ¬x1
  let r1 : Clause := [.pos 1, (Lit.pos 0).neg]
  let r3 : Clause := [.pos 3, (Lit.pos 0).neg, (Lit.pos 1).neg]
  let a1 := (Example.t1.propagate (.bool 1) (some r1) 1).setValue (.bool 1) (.b true)
  let a2 := (a1.decide (.bool 2)).setValue (.bool 2) (.b true)
  let a3 := (a2.propagate (.bool 3) (some r3) 2).setValue (.bool 3) (.b true)
  have i1 : a1.Inv := Trail.propagate_inv Example.t1_inv _ _ _ _ (by decide) (by decide) (by decide) (by decide)
  have i2 : a2.Inv := Trail.decide_inv i1 _ _ (by decide) (by decide) (by decide)
  have i3 : a3.Inv := Trail.propagate_inv i2 _ _ _ _ (by decide) (by decide) (by decide) (by decide)
  have k0 : ReasonsOk id Example.t1 := reasonsOk_decide Example.t0_inv
    (reasonsOk_of_noReason Example.t0_reason) _ _ (by decide)
  have k1 : ReasonsOk id a1 := reasonsOk_propagate Example.t1_inv k0 1 r1 1 true (by decide)
    (by decide) (by decide) (by
      intro m hm hne
      simp only [id, r1, List.mem_cons, List.not_mem_nil, or_false] at hm
      rcases hm with rfl | rfl
      · exact absurd rfl hne
      · exact ⟨by decide, 1, by decide, by decide⟩)
  have k2 : ReasonsOk id a2 := reasonsOk_decide i1 k1 _ _ (by decide)
  have k3 : ReasonsOk id a3 := reasonsOk_propagate i2 k2 3 r3 2 true (by decide) (by decide)
    (by decide) (by
      intro m hm hne
      simp only [id, r3, List.mem_cons, List.not_mem_nil, or_false] at hm
      rcases hm with rfl | rfl | rfl
      · exact absurd rfl hne
      · exact ⟨by decide, 1, by decide, by decide⟩
      · exact ⟨by decide, 1, by decide, by decide⟩)
  have z3 : ZeroReason a3 := zeroReason_propagate (zeroReason_decide i1 (zeroReason_propagate
    (zeroReason_decide Example.t0_inv (zeroReason_of_unassigned Example.t0_level) _ _) _ _ _ _) _ _)
    _ _ _ _
  exact ⟨a3, [(Lit.pos 3).neg], _, _, i3, k3, z3, by decide, by decide, rfl, rfl, by decide, by decide⟩

#print axioms C06_backjump_ready
#print axioms C06_needs_tight

end Yaga
