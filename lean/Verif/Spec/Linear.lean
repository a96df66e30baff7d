/-
Vocabulary for the linear arithmetic properties.
-/
import Verif.Model.LinearConstraint

namespace Yaga.Spec

/-- Value of a linear combination, given as a list of (variable, coefficient). -/
def lsum (σ : Nat → ℚ) (ts : List (Nat × ℚ)) : ℚ := (ts.map fun p => p.2 * σ p.1).sum

/-- The comparison a predicate stands for. -/
def Rel : Pred → ℚ → ℚ → Prop
  | .eq, a, b => a = b
  | .lt, a, b => a < b
  | .leq, a, b => a ≤ b

/-- The linear constraint `ts pred rhs` is true under `σ`. -/
def LinTrue (σ : Nat → ℚ) (ts : List (Nat × ℚ)) (pred : Pred) (rhs : ℚ) : Prop :=
  Rel pred (lsum σ ts) rhs

/-- The repository states the solver can be in. -/
def LinReach (hv : Nat → Nat) (hc : ℚ → Nat) (s : LinStore) : Prop :=
  LinSteps hv hc LinStore.init s

/-- Truth of a literal that stands for a linear constraint, with the variable valuation `σ`. The
sum is written out; only the stored terms, predicate and right-hand side are looked up. -/
def LitMeans (s : LinStore) (l : Lit) (σ : Nat → ℚ) : Prop :=
  (l.isNeg = false ∧ LinTrue σ (s.terms (s.get l.ord)) (s.get l.ord).pred (s.get l.ord).rhs) ∨
  (l.isNeg = true ∧ ¬ LinTrue σ (s.terms (s.get l.ord)) (s.get l.ord).pred (s.get l.ord).rhs)

end Yaga.Spec
