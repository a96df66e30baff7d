/-
C52: the loop of the propositional solver always makes a step.
-/
import Verif.Props.C16
import Verif.Props.C51

namespace Yaga
open Spec BS Check

variable {S : Type} [LinearOrder S] [ScoreOps S]

/-- C52. In every state that the loop of the propositional solver reaches, propagation ends and
whatever its result is, the loop can go on: conflict analysis succeeds, the level to backtrack to is
between 0 and the current level, the learned clause is not taken for a semantic split (so the
clause is unit after backtracking), or the variable picked can be decided. -/
theorem C52_progress {A : List Clause} {c0 c : CS (Evsids S)} (h : PropStart A c0)
    (hr : Reach (propEnv S) c0 c) :
    (∃ cs s, PropRun (propEnv S) c.s cs s) ∧
    ∀ cs s, PropRun (propEnv S) c.s cs s →
      (cs = [] ∧ ((Iter (propEnv S) c (.sat s)) ∨
        ∃ n, Iter (propEnv S) c (.run ⟨s.decide (.bool n), c.old, c.o⟩))) ∨
      (cs ≠ [] ∧ (Iter (propEnv S) c .unsat ∨
        ∃ x rest, ∃ L : Nat, Learned s cs [x :: rest] L ∧ L < s.t.decisionLevel ∧
          isSemanticSplit s.t (x :: rest) = false ∧
          (∀ o, (propEnv S).events c.o o →
            Iter (propEnv S) c (.run ⟨(s.learnAll [x :: rest]).backtrackUip [x :: rest] L, c.old, o⟩)) ∧
          evalLit ((s.learnAll [x :: rest]).backtrackUip [x :: rest] L).t.bools x = some true)) := by
  have hp := pgood_reach h hr
  constructor
  · obtain ⟨d, s', hs⟩ := C51_propagation_terminates c.s
    rcases d with _ | d
    · exact ⟨[], s', .done hs (.refl _)⟩
    · exact ⟨[d], s', .boolConflict hs⟩
  · intro cs s hrun
    rcases ps_propRun hp.1 hrun with ⟨rfl, h1⟩ | ⟨d, rfl, h1, h2⟩
    · left
      refine ⟨rfl, ?_⟩
      have hpick := orderOk_pick hp.2 h1.num h1.good.base.inv
      rcases hv : c.o.pick s.t.bools with _ | v
      · exact Or.inl (.sat (o := c.o) hrun ⟨hv.symm, rfl⟩)
      · rw [hv] at hpick
        obtain ⟨n, rfl⟩ : ∃ n, v = .bool n := by
          rcases v with ⟨ty, o⟩
          have : ty = .boolean := hpick.1.1
          subst this
          exact ⟨o, rfl⟩
        exact Or.inr ⟨n, .decideBool hrun ⟨hv.symm, rfl⟩⟩
    · right
      refine ⟨by simp, ?_⟩
      by_cases h0 : s.t.decisionLevel = 0
      · exact Or.inl (.unsatZero hrun (by simp) h0)
      obtain ⟨c', lvl, e1, e2⟩ := prop_asserting h1.good h1.tr h2
      have hac : analyzeConflicts s.clause s.t [d] = some ([c'], some lvl) := by
        rw [analyzeConflicts_one, e1]; rfl
      rcases e2 with rfl | ⟨L, rfl, e3, e4⟩
      · exact Or.inl (.unsatEmpty hrun (by simp) h0 hac (by simp))
      right
      obtain ⟨x, rest, rfl, ⟨k, g5, g6⟩, g7, -⟩ := e4
      have hl : Learned s [d] [x :: rest] L := ⟨[x :: rest], hac, by simp, (learnSelect_one _ _).symm⟩
      have hsp : isSemanticSplit s.t (x :: rest) = false := by
        cases rest with
        | nil => simp [isSemanticSplit]
        | cons z zs =>
          obtain ⟨-, k', hk', e⟩ := g7 z (by simp)
          simp [isSemanticSplit, g5, e]
          omega
      refine ⟨x, rest, L, hl, e3, hsp, fun o ho => .uip hrun (by simp) h0 hl ho (by omega)
        (by simp [hsp]), ?_⟩
      have hbt : ((s.learnAll [x :: rest]).backtrackTo L).t = s.t.backtrack L := by
        have : (s.learnAll [x :: rest]).t = s.t := by
          simp only [learnAll, List.foldl, learnClause]
          rcases rest with _ | ⟨y, ys⟩ <;> rfl
        show (s.learnAll [x :: rest]).t.backtrack L = _; rw [this]
      have hd : ((s.learnAll [x :: rest]).backtrackTo L).t.bools.defined x.ord = false := by
        rw [hbt]
        exact ((Trail.backtrack_spec h1.good.base.inv L (by omega)).2.1 _ _ g5 g6).2.2
      simp [backtrackUip, propHeads, hd, assignLit, evalLit, Trail.setValue, Lit.var,
        PModel.setValue]

/-- Not vacuous: the run of C15 reaches a state with a conflict above level 0. -/
example : PropStart C15Ex.cls C15Ex.c0 ∧
    Reach (propEnv Int) C15Ex.c0 ⟨C15Ex.s2, 0, C15Ex.order⟩ :=
  ⟨C15Ex.c0_start, .step .refl (.decideBool (c := C15Ex.c0) (s := C15Ex.s1) (n := 0)
    (.done ⟨10, rfl⟩ (.refl _)) ⟨by decide, rfl⟩)⟩

#print axioms C52_progress

end Yaga
