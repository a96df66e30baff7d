/-
C48: the propagation loop of the theory combination.
-/
import Verif.Model.Combination

namespace Yaga
variable {S : Type}

/-- `Pass ps s s'`: starting in `s`, all plugins of `ps` were called in order, none reported a
conflict, and the state is now `s'`. -/
inductive Spec.Pass : List (Plugin S) → S → S → Prop where
  | nil (s) : Pass [] s s
  | cons (p ps s s') : (p.propagate s).2 = [] → Pass ps (p.propagate s).1 s' → Pass (p :: ps) s s'

/-- Any number of complete passes without conflict. -/
inductive Spec.Passes (ps : List (Plugin S)) : S → S → Prop where
  | refl (s) : Passes ps s s
  | step (s s' s'') : Pass ps s s' → Passes ps s' s'' → Passes ps s s''

open Spec

theorem combineRound_ok (ps : List (Plugin S)) (s : S) (h : (combineRound ps s).2 = []) :
    Pass ps s (combineRound ps s).1 := by
  induction ps generalizing s with
  | nil => exact .nil s
  | cons p ps ih =>
    simp only [combineRound] at h ⊢
    cases hc : (p.propagate s).2 with
    | nil =>
      simp only [hc, List.isEmpty_nil, if_true] at h ⊢
      exact .cons p ps s _ hc (ih _ h)
    | cons c cs => simp [hc] at h

theorem combineRound_conflict (ps : List (Plugin S)) (s : S) (h : (combineRound ps s).2 ≠ []) :
    ∃ pre p post s1, ps = pre ++ p :: post ∧ Pass pre s s1 ∧
      p.propagate s1 = combineRound ps s := by
  induction ps generalizing s with
  | nil => simp [combineRound] at h
  | cons p ps ih =>
    simp only [combineRound] at h ⊢
    cases hc : (p.propagate s).2 with
    | nil =>
      simp only [hc, List.isEmpty_nil, if_true] at h ⊢
      obtain ⟨pre, q, post, s1, h1, h2, h3⟩ := ih _ h
      exact ⟨p :: pre, q, post, s1, by simp [h1], .cons p pre s s1 hc h2, h3⟩
    | cons c cs =>
      refine ⟨[], p, ps, s, rfl, .nil s, ?_⟩
      simp
      rw [← hc]

/-- C48. If combined propagation returns conflicts, they are the conflicts one plugin returned,
after some complete passes of all plugins without conflict and the plugins before it in this
pass. If it returns no conflict, the last thing that happened was a complete pass over all plugins
without conflict that left the number of assignments at the current level unchanged. -/
theorem C48_fixpoint (recent : S → Nat) (ps : List (Plugin S)) (fuel : Nat) (s s' : S)
    (cs : List Clause) (h : combinePropagate recent ps fuel s = some (s', cs)) :
    (cs ≠ [] → ∃ pre p post s1 s2, ps = pre ++ p :: post ∧ Passes ps s s1 ∧ Pass pre s1 s2 ∧
      p.propagate s2 = (s', cs)) ∧
    (cs = [] → ∃ s1, Passes ps s s1 ∧ Pass ps s1 s' ∧ recent s1 = recent s') := by
  induction fuel generalizing s with
  | zero => simp [combinePropagate] at h
  | succ fuel ih =>
    simp only [combinePropagate] at h
    by_cases hc : (combineRound ps s).2 = []
    · simp only [hc, List.isEmpty_nil, Bool.not_true, Bool.false_eq_true, if_false] at h
      have hp := combineRound_ok ps s hc
      by_cases hr : recent s = recent (combineRound ps s).1
      · rw [if_pos hr] at h
        simp only [Option.some.injEq, Prod.mk.injEq] at h
        obtain ⟨rfl, rfl⟩ := h
        exact ⟨fun h => absurd rfl h, fun _ => ⟨s, .refl s, hp, hr⟩⟩
      · rw [if_neg hr] at h
        obtain ⟨h1, h2⟩ := ih _ h
        refine ⟨fun hne => ?_, fun he => ?_⟩
        · obtain ⟨pre, p, post, s1, s2, a, b, c, d⟩ := h1 hne
          exact ⟨pre, p, post, s1, s2, a, .step _ _ _ hp b, c, d⟩
        · obtain ⟨s1, a, b, c⟩ := h2 he
          exact ⟨s1, .step _ _ _ hp a, b, c⟩
    · have hc' : (combineRound ps s).2.isEmpty = false := by
        cases hcc : (combineRound ps s).2 with
        | nil => exact absurd hcc hc
        | cons => rfl
      simp only [hc', Bool.not_false, if_true, Option.some.injEq] at h
      refine ⟨fun _ => ?_, fun he => ?_⟩
      · obtain ⟨pre, p, post, s1, a, b, c⟩ := combineRound_conflict ps s hc
        exact ⟨pre, p, post, s, s1, a, .refl s, b, c.trans h⟩
      · exact absurd ((Prod.mk.inj h).2.trans he) hc

/-- Every plugin only adds assignments to the current level (contract of `Theory::propagate`,
src/Theory.h:23-30). -/
def Spec.OnlyAdds (recent : S → Nat) (ps : List (Plugin S)) : Prop :=
  ∀ p ∈ ps, ∀ s, recent s ≤ recent (p.propagate s).1

theorem Spec.Pass.mono {recent : S → Nat} {ps : List (Plugin S)} {s s' : S} (h : Pass ps s s')
    (ha : OnlyAdds recent ps) : recent s ≤ recent s' := by
  induction h with
  | nil => exact Nat.le_refl _
  | cons p ps s s' _ _ ih =>
    exact Nat.le_trans (ha p List.mem_cons_self s)
      (ih fun q hq => ha q (List.mem_cons_of_mem _ hq))

/-- C48. If plugins only ever add assignments, then in the final pass of a conflict-free result no
plugin added an assignment: splitting the pass anywhere, the number of assignments there equals
the final number. -/
theorem C48_nothing_new_in_last_pass (recent : S → Nat) (ps : List (Plugin S))
    (ha : OnlyAdds recent ps) (fuel : Nat) (s s' : S)
    (h : combinePropagate recent ps fuel s = some (s', [])) :
    ∃ s1, Passes ps s s1 ∧ Pass ps s1 s' ∧
      ∀ pre post s2, ps = pre ++ post → Pass pre s1 s2 → Pass post s2 s' → recent s2 = recent s' := by
  obtain ⟨s1, h1, h2, h3⟩ := (C48_fixpoint recent ps fuel s s' [] h).2 rfl
  refine ⟨s1, h1, h2, fun pre post s2 he hp hq => ?_⟩
  subst he
  have m1 := hp.mono (recent := recent) fun p hp' => ha p (List.mem_append_left _ hp')
  have m2 := hq.mono (recent := recent) fun p hp' => ha p (List.mem_append_right _ hp')
  omega

/-- C48. If plugins only add assignments and their number is bounded by `N` (the number of
variables), the loop terminates within `N + 1` rounds. -/
theorem C48_terminates (recent : S → Nat) (ps : List (Plugin S)) (ha : OnlyAdds recent ps)
    (N : Nat) (hN : ∀ s, recent s ≤ N) (s : S) :
    (combinePropagate recent ps (N + 1) s).isSome = true := by
  have key : ∀ fuel s, N + 1 ≤ fuel + recent s → 0 < fuel →
      (combinePropagate recent ps fuel s).isSome = true := by
    intro fuel
    induction fuel with
    | zero => intro s _ h; omega
    | succ fuel ih =>
      intro s hf _
      simp only [combinePropagate]
      by_cases hc : (combineRound ps s).2 = []
      · simp only [hc, List.isEmpty_nil, Bool.not_true, Bool.false_eq_true, if_false]
        have hp := (combineRound_ok ps s hc).mono ha
        by_cases hr : recent s = recent (combineRound ps s).1
        · rw [if_pos hr]; rfl
        · rw [if_neg hr]
          have hb := hN (combineRound ps s).1
          exact ih _ (by omega) (by omega)
      · have hc' : (combineRound ps s).2.isEmpty = false := by
          cases hcc : (combineRound ps s).2 with
          | nil => exact absurd hcc hc
          | cons => rfl
        simp [hc']
  exact key (N + 1) s (by omega) (by omega)

/-- Two plugins on a counter bounded by 5: the first adds below 3, the second between 3 and 5. -/
def examplePlugins : List (Plugin Nat) :=
  [⟨fun n => (if n < 3 then n + 1 else n, []), fun n _ => n⟩,
   ⟨fun n => (if 3 ≤ n ∧ n < 5 then n + 1 else n, []), fun n _ => n⟩]

example : OnlyAdds id examplePlugins ∧ combinePropagate id examplePlugins 6 0 = some (5, []) := by
  refine ⟨?_, by decide⟩
  intro p hp s
  simp only [examplePlugins, List.mem_cons, List.not_mem_nil, or_false] at hp
  rcases hp with rfl | rfl <;> simp <;> split <;> omega

#print axioms C48_fixpoint
#print axioms C48_nothing_new_in_last_pass
#print axioms C48_terminates

end Yaga
