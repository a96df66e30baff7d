import Verif.Model.Trail
import Verif.Proofs.Literal

namespace Yaga

theorem evalClauseLoop_none_iff (m : PModel Bool) (c : Clause) (n : Nat) :
    evalClauseLoop m c n = none ↔ ∃ l ∈ c, evalLit m l = some true := by
  induction c generalizing n with
  | nil => simp [evalClauseLoop]
  | cons l ls ih =>
    unfold evalClauseLoop
    rcases h : evalLit m l with _ | b
    · simp [ih, h]
    · cases b <;> simp [ih, h]

theorem evalClauseLoop_le (m : PModel Bool) (c : Clause) (n k : Nat)
    (h : evalClauseLoop m c n = some k) : k ≤ n + c.length ∧ n ≤ k := by
  induction c generalizing n with
  | nil => simp [evalClauseLoop] at h; subst h; simp
  | cons l ls ih =>
    unfold evalClauseLoop at h
    rcases hl : evalLit m l with _ | b
    · simp only [hl] at h
      have := ih _ h; simp; omega
    · cases b
      · simp only [hl] at h
        have := ih _ h; simp; omega
      · simp [hl] at h

theorem evalClauseLoop_all_false (m : PModel Bool) (c : Clause) (n k : Nat)
    (h : evalClauseLoop m c n = some k) :
    n + c.length ≤ k ↔ ∀ l ∈ c, evalLit m l = some false := by
  induction c generalizing n with
  | nil => simp [evalClauseLoop] at h; subst h; simp
  | cons l ls ih =>
    unfold evalClauseLoop at h
    rcases hl : evalLit m l with _ | b
    · simp only [hl] at h
      have := evalClauseLoop_le m ls _ _ h
      simp [hl]; omega
    · cases b
      · simp only [hl] at h
        have := ih _ h
        simp only [List.length_cons, List.forall_mem_cons, hl, true_and, ← this]
        omega
      · simp [hl] at h

theorem evalClause_true_iff (m : PModel Bool) (c : Clause) :
    evalClause m c = some true ↔ ∃ l ∈ c, evalLit m l = some true := by
  rw [← evalClauseLoop_none_iff m c 0]
  unfold evalClause
  cases h : evalClauseLoop m c 0 with
  | none => simp
  | some n => simp

theorem evalClause_false_iff (m : PModel Bool) (c : Clause) :
    evalClause m c = some false ↔ ∀ l ∈ c, evalLit m l = some false := by
  unfold evalClause
  cases h : evalClauseLoop m c 0 with
  | none =>
    have := (evalClauseLoop_none_iff m c 0).1 h
    obtain ⟨l, hl, ht⟩ := this
    simp only [Option.some.injEq, Bool.true_eq_false, false_iff, not_forall]
    exact ⟨l, hl, by simp [ht]⟩
  | some n =>
    have := evalClauseLoop_all_false m c 0 n h
    rw [← this]
    simp

theorem evalLit_neg (m : PModel Bool) (l : Lit) : evalLit m l.neg = (evalLit m l).map (!·) := by
  unfold evalLit
  simp only [Lit.ord_neg, Lit.isNeg_neg]
  split
  · cases m.value l.ord <;> cases l.isNeg <;> simp
  · simp

end Yaga
