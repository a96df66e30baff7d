/-
C89: `Subsumption` stays inside its memory and its assertions hold.

Missing for the full claim: the code violates it. `Yaga::init` (src/Yaga.cpp:63-67) removes the
learned clauses and leaves `Subsumption::old_size` as it is, so the first restart of a second
`check-sat` forms an iterator behind the end of the deque (`C89_stale_size`).
-/
import Verif.Proofs.SubsumptionChecked
import Verif.Proofs.AnalysisExample
import Verif.Spec.SubsumptionHistory

namespace Yaga
open Spec Subs

variable {R : Type}

/-- Minimising a clause: no access outside the bitset, both assertions of `selfsubsumes` hold, and
the result is that of `minimize` (about which C07 speaks). -/
theorem C89_minimize (n : Nat) (deref : R → Clause) (t : Trail R) (hro : ReasonsOk deref t)
    (hd : ∀ v r, t.reason v = some r → ∀ l ∈ deref r, l.ord < n) (c : Clause)
    (hc : ∀ l ∈ c, l.ord < n) :
    minimizeC (n * 2) deref t c = some (minimize deref t c) :=
  minimizeLoopC_eq hro hd hc c [] (List.suffix_refl c) (by simp) (fun _ h => by cases h)

/-- One restart: no access outside a vector or the deque, and the result is that of
`removeSubsumed` (about which C06 speaks). -/
theorem C89_restart (s : SubsMem) (n : Nat) (h1 : s.occSize = n * 2) (h2 : s.bitSize = n * 2)
    (h3 : s.oldSize ≤ s.learned.length) (h4 : ∀ c ∈ s.learned, ∀ l ∈ c, l.ord < n) :
    s.step .restart = some { s with
      learned := removeSubsumed s.learned s.oldSize
      oldSize := (removeSubsumed s.learned s.oldSize).length } :=
  SubsMem.removeSubsumedC_eq h1 h2 h3 h4

/-- A restart with more old clauses than there are clauses is undefined. -/
theorem C89_restart_undefined (s : SubsMem) (h : s.learned.length < s.oldSize) :
    s.step .restart = none := by
  show s.removeSubsumedC = none
  unfold SubsMem.removeSubsumedC
  rw [if_neg (by omega)]

/-- From the first resize on, no history of one `check-sat` is undefined, and `old_size` is never
larger than the number of learned clauses. -/
theorem C89_history_partial (evs : List SubsMem.Ev) (h : OneCheck 0 evs) :
    ∃ s, SubsMem.run {} evs = some s ∧ s.oldSize ≤ s.learned.length ∧
      s.occSize = s.bitSize ∧ ∀ c ∈ s.learned, ∀ l ∈ c, l.index < s.occSize := by
  have key : ∀ (evs : List SubsMem.Ev) (n : Nat) (s : SubsMem), OneCheck n evs →
      s.occSize = n * 2 → s.bitSize = n * 2 → s.oldSize ≤ s.learned.length →
      (∀ c ∈ s.learned, Below n c) →
      ∃ s', SubsMem.run s evs = some s' ∧ s'.oldSize ≤ s'.learned.length ∧
        s'.occSize = s'.bitSize ∧ ∀ c ∈ s'.learned, ∀ l ∈ c, l.index < s'.occSize := by
    intro evs
    induction evs with
    | nil =>
      intro n s _ h1 h2 h3 h4
      exact ⟨s, rfl, h3, h1.trans h2.symm, fun c hc l hl => by
        rw [h1]; exact index_lt (h4 c hc l hl)⟩
    | cons e evs ih =>
      intro n s ho h1 h2 h3 h4
      rcases e with k | c | ⟨i, c⟩ | _ | _
      · exact ih k { s with occSize := k * 2, bitSize := k * 2 } ho.2 rfl rfl h3
          fun c hc l hl => lt_of_lt_of_le (h4 c hc l hl) ho.1
      · refine ih n { s with learned := s.learned ++ [c] } ho.2 h1 h2 (by simp; omega) ?_
        intro d hd
        rcases List.mem_append.1 hd with hd | hd
        · exact h4 d hd
        · rw [List.mem_singleton.1 hd]; exact ho.1
      · refine ih n { s with learned := s.learned.set i c } ho.2 h1 h2 (by simpa using h3) ?_
        intro d hd
        rcases List.mem_or_eq_of_mem_set hd with hd | rfl
        · exact h4 d hd
        · exact ho.1
      · have hs := C89_restart s n h1 h2 h3 h4
        obtain ⟨s', e', r'⟩ := ih n { s with
          learned := removeSubsumed s.learned s.oldSize
          oldSize := (removeSubsumed s.learned s.oldSize).length } ho h1 h2 le_rfl
          (SubsMem.removeSubsumed_below h4)
        refine ⟨s', ?_, r'⟩
        unfold SubsMem.run
        rw [List.foldlM_cons, hs]
        exact e'
      · exact absurd ho (by simp [OneCheck])
  exact key evs 0 {} h rfl rfl le_rfl (fun _ hc => by cases hc)

/-- The counterexample: a clause is learned, the solver restarts, the user calls `check-sat` again
(`Yaga::init`), and the solver restarts. -/
theorem C89_stale_size :
    SubsMem.run {} [.resize 2, .learn [.pos 0, .pos 1], .restart] =
      some { occSize := 4, bitSize := 4, oldSize := 1, learned := [[.pos 0, .pos 1]] } ∧
    SubsMem.run {} [.resize 2, .learn [.pos 0, .pos 1], .restart, .init, .restart] = none := by
  decide +kernel

/-- Also when enough clauses are learned again, the stale size makes the restart treat new clauses
as old ones, and a subsumed one stays: the same clauses without the first `check-sat` lose it. -/
theorem C89_stale_size_keeps_subsumed :
    (SubsMem.run {} [.resize 3, .learn [.pos 2], .learn [.pos 1], .restart, .init,
      .learn [.pos 0], .learn [.pos 0, .pos 1], .restart]).map SubsMem.learned =
        some [[.pos 0], [.pos 0, .pos 1]] ∧
    (SubsMem.run {} [.resize 3, .learn [.pos 0], .learn [.pos 0, .pos 1], .restart]).map
      SubsMem.learned = some [[.pos 0]] := by
  decide +kernel

/-! A history that meets the hypotheses: three clauses, two restarts, one clause is removed. -/
example : OneCheck 0 [.resize 3, .learn [.pos 0, .pos 1, .pos 2], .restart,
    .learn [.pos 0, .pos 1], .learn [(Lit.pos 2).neg], .restart] := by
  simp only [OneCheck]; decide

example : (SubsMem.run {} [.resize 3, .learn [.pos 0, .pos 1, .pos 2], .restart,
    .learn [.pos 0, .pos 1], .learn [(Lit.pos 2).neg], .restart]).map SubsMem.learned =
      some [[.pos 0, .pos 1], [(Lit.pos 2).neg]] := by
  decide +kernel

/-! A clause with a redundant literal; the trail of the examples meets the hypotheses, and the
bitset has exactly the size needed. -/
example : minimizeC 8 id Example.t4 [(Lit.pos 2).neg, (Lit.pos 1).neg, (Lit.pos 0).neg] =
    some [(Lit.pos 1).neg, (Lit.pos 0).neg] := by decide

example : minimizeC 5 id Example.t4 [(Lit.pos 2).neg, (Lit.pos 1).neg, (Lit.pos 0).neg] = none := by
  decide

example := C89_minimize 4 id Example.t4 Example.t4_reasons
  (fun v r h => by
    have : r = Example.r3 ∨ r = Example.r4 := by
      simp only [Example.t4, Example.t3, Example.t2, Example.t1, Trail.propagate, Trail.decide,
        Trail.setValue, Function.update_apply, Example.t0_reason] at h
      split_ifs at h <;> simp_all
    rcases this with rfl | rfl <;> decide)
  [(Lit.pos 2).neg, (Lit.pos 1).neg, (Lit.pos 0).neg] (by decide)

/-! Without the resize the first access is outside the vector. -/
example : SubsMem.run {} [.learn [.pos 0], .restart] = none := by decide +kernel

#print axioms C89_minimize
#print axioms C89_restart
#print axioms C89_restart_undefined
#print axioms C89_history_partial
#print axioms C89_stale_size
#print axioms C89_stale_size_keeps_subsumed

end Yaga
