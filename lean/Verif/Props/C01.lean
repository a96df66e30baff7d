/-
C01: literal algebra. The statements only use the constructor from an ordinal, `~`, `var`,
`is_negation`, equality and the two comparison functions of the API.
-/
import Verif.Proofs.Literal

namespace Yaga

/-- C01: `~` is an involution without fixed points that keeps the variable and flips the
polarity; a literal is determined by variable and polarity, and every variable has both. -/
theorem C01_negation (l : Lit) :
    l.neg.neg = l ∧ l.neg ≠ l ∧ l.neg.var = l.var ∧ l.neg.isNeg = !l.isNeg ∧
    (∀ m : Lit, m.var = l.var → m = l ∨ m = l.neg) ∧
    (∀ n, (Lit.pos n).var = Var.bool n ∧ (Lit.pos n).isNeg = false) := by
  refine ⟨Lit.neg_neg l, Lit.neg_ne l, Lit.var_neg l, Lit.isNeg_neg l, ?_, ?_⟩
  · intro m h
    exact Lit.eq_or_eq_neg_of_ord (by simpa [Lit.var] using h)
  · intro n; simp [Lit.var]

/-- C01: both comparison functions are the same strict total order, and equality of literals is
the equality it induces. -/
theorem C01_order (a b c : Lit) :
    (Lit.lt a b = true ↔ Lit.cmp a b < 0) ∧
    (Lit.cmp a b = 0 ↔ a = b) ∧ (Lit.cmp a b < 0 ↔ Lit.cmp b a > 0) ∧
    (Lit.lt a b = true → Lit.lt b c = true → Lit.lt a c = true) ∧
    Lit.lt a a = false ∧ (a ≠ b → Lit.lt a b = true ∨ Lit.lt b a = true) := by
  have hinj : a.index = b.index → a = b := Lit.index_inj
  simp only [Lit.lt, Lit.cmp, decide_eq_true_eq]
  refine ⟨by omega, ⟨fun h => hinj (by omega), fun h => by subst h; omega⟩, by omega, by omega,
    by simp, fun h => ?_⟩
  have : a.index ≠ b.index := fun e => h (hinj e)
  omega

/-- C01: nothing lies strictly between a variable and its negation, and the positive literal
comes first. -/
theorem C01_adjacent (n : Nat) (c : Lit) :
    Lit.lt (Lit.pos n) (Lit.pos n).neg = true ∧
    ¬ (Lit.lt (Lit.pos n) c = true ∧ Lit.lt c (Lit.pos n).neg = true) := by
  simp [Lit.lt, Lit.index, Lit.isNeg_neg]
  omega

/-- C01: on variables that fit into half of the `int` range, the 32-bit index and the difference
returned by `operator<=>` do not overflow, so the unbounded model agrees with the code. -/
theorem C01_no_overflow (a b : Lit) (ha : a.ord < 2 ^ 30) (hb : b.ord < 2 ^ 30) :
    (a.index : Int) < 2 ^ 31 ∧ -2 ^ 31 < Lit.cmp a b ∧ Lit.cmp a b < 2 ^ 31 := by
  simp only [Lit.cmp, Lit.index]
  split <;> split <;> omega

/-- C01: the order on `Variable` is a strict total order. -/
theorem C01_variable_order (a b c : Var) :
    a.lt a = false ∧ (a.lt b = true → b.lt c = true → a.lt c = true) ∧
    (a ≠ b → (a.lt b = true ↔ b.lt a = false)) := by
  refine ⟨Var.lt_irrefl a, Var.lt_trans, fun hne => ?_⟩
  rcases Var.lt_trichotomy a b with h | h | h
  · have : b.lt a = false := by
      by_contra hc
      have := Var.lt_trans h (by simpa using hc)
      simp [Var.lt_irrefl] at this
    simp [h, this]
  · exact absurd h hne
  · have : a.lt b = false := by
      by_contra hc
      have := Var.lt_trans h (by simpa using hc)
      simp [Var.lt_irrefl] at this
    simp [h, this]

example : Lit.lt (Lit.pos 3).neg (Lit.pos 4) = true ∧ (Lit.pos 3).neg.ord < 2 ^ 30 := by decide

#print axioms C01_negation
#print axioms C01_order
#print axioms C01_adjacent
#print axioms C01_no_overflow
#print axioms C01_variable_order

end Yaga
