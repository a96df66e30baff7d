/-
Specification for C88: subterms and the order in which a traversal meets them.
-/
import Verif.Model.Terms

namespace Yaga.Spec

/-- `i` is the index of a subterm of `t` (a negated term counts as the term itself). -/
inductive Subterm (s : TermTable) (i : Nat) : Tm → Prop where
  | self {t : Tm} (h : t.index = i) : Subterm s i t
  | arg {t c : Tm} (hc : c ∈ s.args t) (h : Subterm s i c) : Subterm s i t

/-- If the terms with indices in `done` were visited before, then every term in the list is visited for the first time and
all its arguments were visited before. -/
def InOrder (s : TermTable) : List Nat → List Tm → Prop
  | _, [] => True
  | done, t :: ts => t.index ∉ done ∧ (∀ c ∈ s.args t, c.index ∈ done) ∧ InOrder s (done ++ [t.index]) ts

/-- A set of visited terms that contains the arguments of its terms. -/
def ArgsClosed (s : TermTable) (done : List Nat) : Prop := ∀ t : Tm, t.index ∈ done → ∀ c ∈ s.args t, c.index ∈ done

end Yaga.Spec
