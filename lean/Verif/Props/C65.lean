/-
C65: the check loop of the propositional solver ends, with the right answer.
-/
import Verif.Proofs.CheckTerm
import Verif.Props.C52

namespace Yaga
open Spec BS Check

variable {S : Type} [LinearOrder S] [ScoreOps S]

omit [LinearOrder S] [ScoreOps S] in
/-- A run of the loop of `check`, src/Solver.cpp:188-228: the states before the first `k` iterations
and the one after them. -/
def Spec.LoopRun (E : Env (Evsids S)) (c0 : CS (Evsids S)) (k : Nat) (f : Nat → CS (Evsids S)) : Prop :=
  f 0 = c0 ∧ ∀ i < k, Iter E (f i) (.run (f (i + 1)))

theorem run_fuel {A : List Clause} {n : Nat} {c0 : CS (Evsids S)} (h : TGood A n c0) {k : Nat}
    {f : Nat → CS (Evsids S)} (hr : LoopRun (propEnv S) c0 k f) :
    TGood A n (f k) ∧ k + fuelLeft n (f k).s ≤ fuelLeft n c0.s := by
  induction k with
  | zero => rw [hr.1]; exact ⟨h, by omega⟩
  | succ k ih =>
    obtain ⟨h1, h2⟩ := ih ⟨hr.1, fun i hi => hr.2 i (by omega)⟩
    obtain ⟨h3, h4⟩ := tgood_step h1 (hr.2 k (by omega))
    exact ⟨h3, by omega⟩

/-- C65. However the loop goes on (whatever the restart policy does, whatever variables the order
picks), it makes at most `4^n (n+1) + n` iterations that do not return, where `n` is the number of
variables. -/
theorem C65_iterations_bounded {A : List Clause} {c0 : CS (Evsids S)} (h : PropStart A c0) {k : Nat}
    {f : Nat → CS (Evsids S)} (hr : LoopRun (propEnv S) c0 k f) :
    k ≤ 4 ^ c0.s.t.bools.num * (c0.s.t.bools.num + 1) + c0.s.t.bools.num := by
  obtain ⟨-, h2⟩ := run_fuel (tgood_start h) hr
  have h3 := free_le c0.s.t.bools.num c0.s
  have h4 : (4 ^ c0.s.t.bools.num - (covered c0.s.t.bools.num c0.s).card) * (c0.s.t.bools.num + 1) ≤
      4 ^ c0.s.t.bools.num * (c0.s.t.bools.num + 1) := Nat.mul_le_mul_right _ (Nat.sub_le _ _)
  unfold fuelLeft at h2
  omega

/-- C65. There is no infinite run. -/
theorem C65_terminates {A : List Clause} {c0 : CS (Evsids S)} (h : PropStart A c0) :
    ¬ ∃ f : Nat → CS (Evsids S), f 0 = c0 ∧ ∀ i, Iter (propEnv S) (f i) (.run (f (i + 1))) := by
  rintro ⟨f, h1, h2⟩
  have := C65_iterations_bounded h (k := 4 ^ c0.s.t.bools.num * (c0.s.t.bools.num + 1) + c0.s.t.bools.num + 1)
    ⟨h1, fun i _ => h2 i⟩
  omega

theorem answer_from {A : List Clause} {c0 : CS (Evsids S)} (h : PropStart A c0) (m : Nat) :
    ∀ c, Reach (propEnv S) c0 c → TGood A c0.s.t.bools.num c → fuelLeft c0.s.t.bools.num c.s ≤ m →
      Returns (propEnv S) c .unsat ∨ ∃ s, Returns (propEnv S) c (.sat s) := by
  induction m with
  | zero =>
    intro c hr hg hm
    obtain ⟨⟨cs, s, hp⟩, hall⟩ := C52_progress h hr
    have hno : ∀ c', ¬ Iter (propEnv S) c (.run c') := fun c' hi => by
      have := (tgood_step hg hi).2
      omega
    rcases hall cs s hp with ⟨-, h1 | ⟨n, h1⟩⟩ | ⟨-, h1 | ⟨x, rest, L, -, -, -, h1, -⟩⟩
    · exact Or.inr ⟨s, c, .refl, h1⟩
    · exact absurd h1 (hno _)
    · exact Or.inl ⟨c, .refl, h1⟩
    · exact absurd (h1 c.o ⟨[], by simp, rfl⟩) (hno _)
  | succ m ih =>
    intro c hr hg hm
    obtain ⟨⟨cs, s, hp⟩, hall⟩ := C52_progress h hr
    have hgo : ∀ c', Iter (propEnv S) c (.run c') →
        Returns (propEnv S) c .unsat ∨ ∃ s, Returns (propEnv S) c (.sat s) := by
      intro c' hi
      obtain ⟨g1, g2⟩ := tgood_step hg hi
      have hpre : ∀ c1, Reach (propEnv S) c' c1 → Reach (propEnv S) c c1 := by
        intro c1 h1
        induction h1 with
        | refl => exact .step .refl hi
        | step _ h2 ih => exact .step ih h2
      rcases ih c' (.step hr hi) g1 (by omega) with ⟨c1, h1, h2⟩ | ⟨s', c1, h1, h2⟩
      · exact Or.inl ⟨c1, hpre c1 h1, h2⟩
      · exact Or.inr ⟨s', c1, hpre c1 h1, h2⟩
    rcases hall cs s hp with ⟨-, h1 | ⟨n, h1⟩⟩ | ⟨-, h1 | ⟨x, rest, L, -, -, -, h1, -⟩⟩
    · exact Or.inr ⟨s, c, .refl, h1⟩
    · exact hgo _ h1
    · exact Or.inl ⟨c, .refl, h1⟩
    · exact hgo _ (h1 c.o ⟨[], by simp, rfl⟩)

theorem tgood_reach {A : List Clause} {c0 c : CS (Evsids S)} (h : PropStart A c0)
    (hr : Reach (propEnv S) c0 c) : TGood A c0.s.t.bools.num c := by
  induction hr with
  | refl => exact tgood_start h
  | step _ hi ih => exact (tgood_step ih hi).1

/-- C65. From every state the loop reaches it gets to an answer. -/
theorem C65_answers {A : List Clause} {c0 c : CS (Evsids S)} (h : PropStart A c0)
    (hr : Reach (propEnv S) c0 c) :
    Returns (propEnv S) c .unsat ∨ ∃ s, Returns (propEnv S) c (.sat s) :=
  answer_from h _ c hr (tgood_reach h hr) (le_refl _)

/-- C65. The solver decides satisfiability: it can answer "unsat" exactly for unsatisfiable clauses
and "sat" exactly for satisfiable ones. -/
theorem C65_decides {A : List Clause} {c0 : CS (Evsids S)} (h : PropStart A c0) :
    (Returns (propEnv S) c0 .unsat ↔ ¬ ∃ m, allTrue m A) ∧
    ((∃ s, Returns (propEnv S) c0 (.sat s)) ↔ ∃ m, allTrue m A) := by
  have hu : Returns (propEnv S) c0 .unsat → ¬ ∃ m, allTrue m A := by
    rintro h1 ⟨m, hm⟩
    exact C15_unsat_sound h h1 m hm
  have hs : (∃ s, Returns (propEnv S) c0 (.sat s)) → ∃ m, allTrue m A := by
    rintro ⟨s, h1⟩
    exact ⟨_, (C16_sat_sound h h1).2⟩
  rcases C65_answers h .refl with h1 | h1
  · exact ⟨⟨hu, fun _ => h1⟩, ⟨hs, fun hm => absurd hm (hu h1)⟩⟩
  · exact ⟨⟨hu, fun hn => absurd (hs h1) hn⟩, ⟨hs, fun _ => h1⟩⟩

/-- Not vacuous: the run of C15 makes two iterations before it returns. -/
example : PropStart C15Ex.cls C15Ex.c0 ∧ ∃ f, LoopRun (propEnv Int) C15Ex.c0 2 f := by
  refine ⟨C15Ex.c0_start, fun i => if i = 0 then C15Ex.c0 else if i = 1 then ⟨C15Ex.s2, 0, C15Ex.order⟩ else
    ⟨C15Ex.s4, 0, C15Ex.order⟩, rfl, fun i hi => ?_⟩
  obtain rfl | rfl : i = 0 ∨ i = 1 := by omega
  · exact .decideBool (c := C15Ex.c0) (s := C15Ex.s1) (n := 0) (.done ⟨10, rfl⟩ (.refl _)) ⟨by decide, rfl⟩
  · exact .uip (c := ⟨C15Ex.s2, 0, C15Ex.order⟩) (cs := [C15Ex.c3]) (s := C15Ex.s3) (ls := [[(Lit.pos 0).neg]]) (L := 0)
      (.boolConflict ⟨10, rfl⟩) (by simp) (by decide) ⟨[[(Lit.pos 0).neg]], by decide, by decide, by decide⟩
      ⟨[], by simp, rfl⟩ (by decide) (by decide)

#print axioms C65_iterations_bounded
#print axioms C65_terminates
#print axioms C65_answers
#print axioms C65_decides

end Yaga
