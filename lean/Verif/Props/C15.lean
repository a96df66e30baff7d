/-
C15: unsat answers of the propositional solver are right.
-/
import Verif.Proofs.CheckProp

namespace Yaga
open Spec BS Check

variable {S : Type} [LinearOrder S] [ScoreOps S]

/-- C15. If the propositional solver, started on the clauses `A`, returns unsat in any run, no
assignment makes all clauses of `A` true. The runs cover all choices of the restart policy and the
phases, and all scores of the variable order. -/
theorem C15_unsat_sound {A : List Clause} {c0 : CS (Evsids S)} (h : PropStart A c0)
    (hr : Returns (propEnv S) c0 .unsat) : Unsat A := by
  obtain ⟨c, h1, h2⟩ := hr
  have hp := pgood_reach h h1
  obtain ⟨b, hg⟩ := pgood_good hp
  have := (good_iter sound_propEnv hg (picksFree_prop hp) h2).1 rfl
  intro σ hσ
  exact this ⟨σ, trivial, hσ⟩

/-- Every clause in the database, learned clauses included, is a consequence of `A` at any time. -/
theorem C15_database_entailed {A : List Clause} {c0 c : CS (Evsids S)} (h : PropStart A c0)
    (hr : Reach (propEnv S) c0 c) : ∀ d ∈ c.s.cls, Entails A d := by
  obtain ⟨b, hg⟩ := pgood_good (pgood_reach h hr)
  exact fun d hd σ hσ => hg.ent d hd σ trivial hσ

/-! A run: the four clauses over x0, x1. The solver decides one variable, learns a unit clause from
the conflict, and finds the second conflict on level 0. -/
namespace C15Ex

def cls : List Clause :=
  [[.pos 0, .pos 1], [.pos 0, (Lit.pos 1).neg], [(Lit.pos 0).neg, .pos 1],
   [(Lit.pos 0).neg, (Lit.pos 1).neg]]

def order : Evsids Int := (Evsids.new.step (.resize 2)).step (.init cls)
def c0 : CS (Evsids Int) := ⟨Ex.state 2 cls, 0, order⟩

theorem c0_start : PropStart cls c0 := ⟨⟨rfl, rfl, rfl, rfl, ⟨by decide, by decide⟩⟩, rfl⟩

def s1 : BS := ((propLoop 10 c0.s.initProp).getD (none, c0.s)).2
def s2 : BS := s1.decide (.bool 0)
def s3 : BS := ((propLoop 10 s2.initProp).getD (none, c0.s)).2
def s4 : BS := (s3.learnAll [[(Lit.pos 0).neg]]).backtrackUip [[(Lit.pos 0).neg]] 0
def s5 : BS := ((propLoop 10 s4.initProp).getD (none, c0.s)).2
def c3 : Clause := ((propLoop 10 s2.initProp).getD (none, c0.s)).1.getD []
def c5 : Clause := ((propLoop 10 s4.initProp).getD (none, c0.s)).1.getD []

theorem run : Returns (propEnv Int) c0 .unsat := by
  refine ⟨⟨s4, 0, order⟩, .step (.step .refl (c' := ⟨s2, 0, order⟩) ?_) ?_, ?_⟩
  · exact .decideBool (c := c0) (s := s1) (n := 0) (.done ⟨10, rfl⟩ (.refl _)) ⟨by decide, rfl⟩
  · refine .uip (c := ⟨s2, 0, order⟩) (cs := [c3]) (s := s3) (ls := [[(Lit.pos 0).neg]]) (L := 0)
      (.boolConflict ⟨10, rfl⟩) (by simp) (by decide) ⟨[[(Lit.pos 0).neg]], by decide, by decide,
      by decide⟩ ⟨[], by simp, rfl⟩ (by decide) (by decide)
  · exact .unsatZero (cs := [c5]) (s := s5) (.boolConflict ⟨10, rfl⟩) (by simp) (by decide)

end C15Ex

#print axioms C15_unsat_sound
#print axioms C15_database_entailed

end Yaga
