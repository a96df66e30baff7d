/-
C09: the Luby restart policy.
-/
import Verif.Proofs.Luby

namespace Yaga
open Spec

/-- C09. For every 1-based index below `2^32 - 1`, the bit-twiddling loop terminates with the
term of the Luby sequence at that index (and the sequence has only one such term). -/
theorem C09_luby_sequence (i : Nat) (h1 : 1 ≤ i) (h2 : i < 2 ^ 32 - 1) :
    ∃ v, luby i = some v ∧ IsLuby i v ∧ ∀ w, IsLuby i w → w = v := by
  obtain ⟨v, hv, hl⟩ := luby_spec i h1 h2
  exact ⟨v, hv, hl, fun w hw => hw.unique hl⟩

/-- At the excluded index the 32-bit increment wraps around and the function returns 0, which is
not a term of the sequence. (The counter is an `int`, so this index is never used.) -/
theorem C09_luby_wraps : luby (2 ^ 32 - 1) = some 0 := by decide

/-- Number of restarts in a history of events. -/
def Spec.restarts (es : List REvent) : Nat :=
  es.foldl (fun n e => match e with | .restart => n + 1 | .learned _ => n) 0

/-- Number of clauses learned since the last restart. -/
def Spec.learnedSince (es : List REvent) : Nat :=
  es.foldl (fun n e => match e with | .restart => 0 | .learned _ => n + 1) 0

theorem LubyState.run_append (s : LubyState) (es fs : List REvent) :
    s.run (es ++ fs) = (s.run es).bind fun s' => s'.run fs := by
  induction es generalizing s with
  | nil => rfl
  | cons e es ih =>
    simp only [List.cons_append, LubyState.run]
    cases s.step e with
    | none => rfl
    | some s' => simp [ih]

theorem luby_fits (i v : Nat) (h : IsLuby i v) (hi : i < 2 ^ 23 - 1) :
    (v : Int) * lubyMult < 2 ^ 31 := by
  obtain ⟨k, rfl, hk⟩ := h.pow
  have h1 : 2 ^ (k + 1) < 2 ^ 23 := by
    have := Nat.two_pow_pos (k + 1); omega
  have h2 := (Nat.pow_lt_pow_iff_right (a := 2) (by omega)).1 h1
  have h3 : 2 ^ k ≤ 2 ^ 21 := Nat.pow_le_pow_right (by omega) (by omega)
  unfold lubyMult
  have : ((2 ^ k : Nat) : Int) ≤ 2 ^ 21 := by exact_mod_cast h3
  omega

theorem LubyState.next_spec (s : LubyState) (h : s.index + 1 < 2 ^ 23 - 1) :
    ∃ v, IsLuby (s.index + 1) v ∧ s.next = some ⟨(v : Int) * lubyMult, s.index + 1⟩ := by
  obtain ⟨v, hv, hl⟩ := luby_spec (s.index + 1) (by omega) (by omega)
  refine ⟨v, hl, ?_⟩
  have := luby_fits _ v hl h
  simp only [LubyState.next, hv, if_pos this]

/-- C09. As long as the interval fits into an `int` (the first `2^23 - 2` intervals), after any
history of events the policy asks for a restart iff the number of clauses learned since the last
restart is at least 550 times the term of the Luby sequence that belongs to the number of
restarts so far. -/
theorem C09_restart_when_due (es : List REvent) (h : restarts es + 1 < 2 ^ 23 - 1) :
    ∃ s0 s v, LubyState.init = some s0 ∧ s0.run es = some s ∧ IsLuby (restarts es + 1) v ∧
      (s.shouldRestart = true ↔ 550 * v ≤ learnedSince es) := by
  obtain ⟨v0, hv0, hs0⟩ := LubyState.next_spec ⟨0, 0⟩ (by decide)
  have key : ∀ es : List REvent, restarts es + 1 < 2 ^ 23 - 1 →
      ∃ s v, LubyState.run ⟨(v0 : Int) * lubyMult, 1⟩ es = some s ∧ IsLuby (restarts es + 1) v ∧
        s.index = restarts es + 1 ∧ s.countdown = 550 * (v : Int) - learnedSince es := by
    intro es
    induction es using List.reverseRecOn with
    | nil =>
      intro _
      refine ⟨_, v0, rfl, hv0, rfl, ?_⟩
      simp [learnedSince, lubyMult]; omega
    | append_singleton es e ih =>
      intro hlt
      cases e with
      | learned n =>
        have hr : restarts (es ++ [.learned n]) = restarts es := by simp [restarts]
        have hl : learnedSince (es ++ [.learned n]) = learnedSince es + 1 := by simp [learnedSince]
        obtain ⟨s, v, h1, h2, h3, h4⟩ := ih (by omega)
        refine ⟨{ s with countdown := s.countdown - 1 }, v, ?_, by rw [hr]; exact h2, ?_, ?_⟩
        · simp [LubyState.run_append, h1, LubyState.run, LubyState.step]
        · simp [h3, hr]
        · simp only [h4, hl]; push_cast; omega
      | restart =>
        have hr : restarts (es ++ [.restart]) = restarts es + 1 := by simp [restarts]
        have hl : learnedSince (es ++ [.restart]) = 0 := by simp [learnedSince]
        obtain ⟨s, v, h1, h2, h3, h4⟩ := ih (by omega)
        obtain ⟨v', hv', hn⟩ := LubyState.next_spec s (by rw [h3]; omega)
        refine ⟨⟨(v' : Int) * lubyMult, s.index + 1⟩, v', ?_, by rw [hr, ← h3]; exact hv', ?_, ?_⟩
        · simp [LubyState.run_append, h1, LubyState.run, LubyState.step, hn]
        · simp [h3, hr]
        · simp [hl, lubyMult]; omega
  obtain ⟨s, v, h1, h2, h3, h4⟩ := key es h
  refine ⟨_, s, v, hs0, h1, h2, ?_⟩
  simp only [LubyState.shouldRestart, decide_eq_true_eq, h4]
  omega

/-- Beyond that the product `luby * 550` leaves the range of `int`. -/
theorem C09_interval_overflow : (LubyState.next ⟨0, 2 ^ 23 - 2⟩).isNone = true := by decide

/-- Three restarts happened, 1100 clauses since: the fourth interval (1 * 550) is over; the third
was 2 * 550. -/
example : luby 3 = some 2 ∧ luby 7 = some 4 ∧ luby 12 = some 1 ∧
    restarts [.restart, .learned 1, .restart, .restart, .learned 4] + 1 < 2 ^ 23 - 1 ∧
    learnedSince [.restart, .learned 1, .restart, .restart, .learned 4] = 1 := by decide

#print axioms C09_luby_sequence
#print axioms C09_luby_wraps
#print axioms C09_restart_when_due
#print axioms C09_interval_overflow

end Yaga
