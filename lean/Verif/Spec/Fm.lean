/-
Vocabulary for the Fourier-Motzkin properties.
-/
import Verif.Model.Fm
import Verif.Spec.Linear

namespace Yaga.Spec

/-- What a constraint object says about a valuation: its inequality, or the negation of it if the
literal is negative. -/
def ConsTrue (s : LinStore) (c : LinCons) (σ : Nat → ℚ) : Prop :=
  (c.lit.isNeg = false ∧ LinTrue σ (s.terms c) c.pred c.rhs) ∨
  (c.lit.isNeg = true ∧ ¬ LinTrue σ (s.terms c) c.pred c.rhs)

/-- Value of a polynomial given by its terms and its constant. -/
def pval (σ : Nat → ℚ) (ts : List (Nat × ℚ)) (c : ℚ) : ℚ := lsum σ ts + c

/-- A list of terms is in normal form: no variable twice, no zero coefficient. -/
def NormalTerms (ts : List (Nat × ℚ)) : Prop := (ts.map (·.1)).Nodup ∧ ∀ p ∈ ts, p.2 ≠ 0

/-- The constraint `poly pred 0` is true under `σ`. -/
def FmTrue (σ : Nat → ℚ) (f : Fm) : Prop := Rel f.pred (pval σ f.poly.terms f.poly.const) 0

end Yaga.Spec
