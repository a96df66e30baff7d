/-
Specification: what the solver is asked to satisfy, and when an assignment of the solver's variables
belongs to an interpretation of the terms.
-/
import Verif.Model.Internalizer
import Verif.Spec.Term
import Verif.Spec.Linear
import Verif.Spec.Sat

namespace Yaga.Spec

/-- `m` and `r` are values of the Boolean and the rational variables that satisfy the asserted clauses, and
every Boolean variable that stands for a linear constraint has the truth value of the constraint. -/
def Models (st : IState) (m : Assignment) (r : Nat → ℚ) : Prop :=
  allTrue m st.clauses ∧
  ∀ k, st.store.terms (st.store.get k) ≠ [] →
    (m k = true ↔ LinTrue r (st.store.terms (st.store.get k)) (st.store.get k).pred (st.store.get k).rhs)

/-- The solver's values of the constants and function applications of the script are their values in `I`. -/
def Agree (I : Interp) (s : TermTable) (st : IState) (m : Assignment) (r : Nat → ℚ) : Prop :=
  (∀ p ∈ st.ratOrig s, r p.2 = denQ I s p.1) ∧
  (∀ p ∈ st.boolOrig s, (litTrue m p.2 ↔ denB I s p.1 = true))

/-- All assertions are true. -/
def Holds (I : Interp) (s : TermTable) (as : List Tm) : Prop := ∀ a ∈ as, denB I s a = true

/-- Terms the internalizer supports: no argument is the negation of a Boolean application or the constant
`false`; in debug builds, no equation between variables has an application as a side. -/
structure Supported (cfg : ICfg) (s : TermTable) : Prop where
  app : ∀ t, ∀ a ∈ s.args t, s.kind a = .app → a.isNeg = false
  ff : ∀ t, Tm.ff ∉ s.args t
  eq : cfg.dbg = true → ∀ t, s.kind t = .arithBinEq → ∀ a ∈ s.args t, s.kind a ≠ .app

end Yaga.Spec
