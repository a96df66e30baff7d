/-
C19: rational arithmetic is exact.
-/
import Verif.Proofs.LongFractionMisc

namespace Yaga
open Spec

/-- C19, `operator+` and `operator+=`. For all canonical operands, in the word and in the GMP
representation, the computation has no undefined behaviour (the result is not `none`) and denotes
exactly the sum. -/
theorem C19_add_exact (a b : LF) (ha : Canonical a) (hb : Canonical b) :
    (∃ c, LF.add a b = some c ∧ Canonical c ∧ fval c = fval a + fval b) ∧
    (∃ c, LF.addA a b = some c ∧ Canonical c ∧ fval c = fval a + fval b) :=
  ⟨LF.add_exact ha hb, LF.addA_exact ha hb⟩

/-- C19, `operator-` and `operator-=`. -/
theorem C19_sub_exact (a b : LF) (ha : Canonical a) (hb : Canonical b) :
    (∃ c, LF.sub a b = some c ∧ Canonical c ∧ fval c = fval a - fval b) ∧
    (∃ c, LF.subA a b = some c ∧ Canonical c ∧ fval c = fval a - fval b) :=
  ⟨LF.sub_exact ha hb, LF.subA_exact ha hb⟩

/-- C19, `operator*` and `operator*=`. -/
theorem C19_mul_exact (a b : LF) (ha : Canonical a) (hb : Canonical b) :
    (∃ c, LF.mul a b = some c ∧ Canonical c ∧ fval c = fval a * fval b) ∧
    (∃ c, LF.mulA a b = some c ∧ Canonical c ∧ fval c = fval a * fval b) :=
  ⟨LF.mul_exact ha hb, LF.mulA_exact ha hb⟩

/-- C19, `operator/` and `operator/=` with a divisor other than zero. -/
theorem C19_div_exact (a b : LF) (ha : Canonical a) (hb : Canonical b) (h0 : fval b ≠ 0) :
    (∃ c, LF.div a b = some c ∧ Canonical c ∧ fval c = fval a / fval b) ∧
    (∃ c, LF.divA a b = some c ∧ Canonical c ∧ fval c = fval a / fval b) :=
  ⟨LF.div_exact ha hb h0, LF.divA_exact ha hb h0⟩

/-- C19, unary `operator-` and `negate`, including the least word. -/
theorem C19_neg_exact (a : LF) (ha : Canonical a) :
    (∃ c, LF.neg a = some c ∧ Canonical c ∧ fval c = -fval a) ∧
    Canonical a.negate ∧ fval a.negate = -fval a :=
  ⟨LF.neg_exact ha, LF.negate_exact ha⟩

/-- C19, `compare` (and with it `<`, `>`, `<=`, `>=`): the sign of the difference; `sign` and `==`. -/
theorem C19_compare_exact (a b : LF) (ha : Canonical a) (hb : Canonical b) :
    LF.compare a b = some (if fval a < fval b then -1 else if fval a > fval b then 1 else 0) ∧
    LF.sign a = (if fval a < 0 then -1 else if fval a > 0 then 1 else 0) ∧
    (LF.eq a b = true ↔ fval a = fval b) :=
  ⟨LF.compare_exact ha hb, LF.sign_exact ha, LF.eq_exact ha hb⟩

/-- C19, division by zero: a non-zero dividend never yields a value. -/
theorem C19_div_zero (a b : LF) (ha : Canonical a) (hb : Canonical b) (h0 : fval b = 0)
    (hn : fval a ≠ 0) : LF.div a b = none ∧ LF.divA a b = none := by
  have hz := (LF.isZero_exact hb).mpr h0
  unfold LF.isZero at hz
  rw [Bool.and_eq_true] at hz
  obtain ⟨hw, hz⟩ := hz
  have hb0 : b.num = 0 := of_decide_eq_true hz
  have hq : b.ensureMpq.q.n = 0 := by
    obtain ⟨v, l⟩ := LF.ensureMpq_val hb
    rw [h0] at v
    unfold Mpq.val at v
    rw [div_eq_zero_iff] at v
    rcases v with v | v
    · exact_mod_cast v
    · have := l.1; exact absurd v (by exact_mod_cast this.ne')
  have hfast : a.wv = true → LF.divFast a b = .ub ∨ LF.divFast a b = .ovf := by
    intro hwa
    have la := LF.canonical_low ha hwa
    have lb := LF.canonical_low hb hw
    have an0 : a.num ≠ 0 := fun h => hn (LF.fval_zero hwa h)
    have hc1 : LF.gcd (LF.absW a.num) (LF.absW b.num) = |a.num| := by
      rw [LF.absW_eq la.1 la.2.1, hb0, LF.gcd_eq (abs_nonneg _) (by decide)]
      rw [show LF.absW 0 = 0 by decide, Int.gcd_zero_right]
      simp
    have hp : 0 < |a.num| := abs_pos.mpr an0
    unfold LF.divFast
    simp only [hc1]
    by_cases c : |a.num| = 0 ∨ LF.gcd a.den b.den = 0
    · left; rw [if_pos c]
    · rw [if_neg c]
      have : (LF.absW b.num / |a.num| * (a.den / LF.gcd a.den b.den)) = 0 := by
        rw [hb0, show LF.absW 0 = 0 by decide, Int.zero_ediv, zero_mul]
      rw [this]
      cases hcw : LF.checkWord (LF.toUlword (LF.absW a.num / |a.num| * (b.den / LF.gcd a.den b.den))) with
      | ok x =>
        left
        rfl
      | ovf => right; rfl
      | ub => left; rfl
  have hfin : ∀ dst, a.wv = true → (match LF.divFast a b with
      | .ovf => if b.ensureMpq.q.n = 0 then none else LF.finish dst a b (· / ·) .ovf
      | r => LF.finish dst a b (· / ·) r) = none := by
    intro dst hwa
    rcases hfast hwa with h | h
    · rw [h]; rfl
    · rw [h]; simp only [if_pos hq]
  constructor
  · unfold LF.div
    rw [if_neg (by simp [hw, hb0])]
    rw [if_neg (by
      intro h
      rw [Bool.and_eq_true] at h
      exact hn (LF.fval_zero h.1 (of_decide_eq_true h.2)))]
    by_cases hwa : a.wv = true
    · rw [if_pos (by simp [hwa, hw]), if_neg (by
        rintro ⟨h1, -⟩
        exact hn (LF.fval_zero hwa (h1.trans hb0)))]
      exact hfin _ hwa
    · rw [if_neg (by simp [hwa]), if_pos hq]
  · unfold LF.divA
    by_cases hwa : a.wv = true
    · rw [if_pos (by simp [hwa, hw])]
      exact hfin _ hwa
    · rw [if_neg (by simp [hwa])]
      simp only [if_pos hq]

/-- Instances: operands at the limits of the word range. The sum and the product leave the word
representation, the difference comes back into it, and negating the least word leaves it. -/
example : LF.add (LF.ofWord 2147483647) (LF.ofWord 1) =
      some ⟨false, 0, 1, true, ⟨2147483648, 1⟩⟩ ∧
    (LF.add (LF.ofWord 2147483647) (LF.ofWord 1)).bind (fun a => LF.sub a (LF.ofWord 1)) =
      some ⟨true, 2147483647, 1, true, ⟨2147483647, 1⟩⟩ ∧
    LF.neg (LF.ofWord (-2147483648)) = some ⟨false, 0, 1, true, ⟨2147483648, 1⟩⟩ ∧
    LF.add (LF.word (-1) 6) (LF.word 2 3) = some (LF.word 1 2) := by
  decide +kernel

example : Canonical (LF.word (-2147483648) 4294967295) :=
  (LF.word_canonical (by unfold LF.Low; decide)).1

example : Canonical ⟨false, 0, 1, true, ⟨2147483648, 1⟩⟩ :=
  { valid := Or.inr rfl
    word := fun h => by cases h
    mpq := fun _ => ⟨by decide, by decide⟩
    same := fun h => by cases h
    big := fun _ => by unfold Fits; decide }

#print axioms C19_add_exact
#print axioms C19_sub_exact
#print axioms C19_mul_exact
#print axioms C19_div_exact
#print axioms C19_neg_exact
#print axioms C19_compare_exact
#print axioms C19_div_zero

end Yaga
