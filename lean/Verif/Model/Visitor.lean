/-
`Visitor`, src/terms/Term_visitor.h, for an arbitrary configuration: instead of calling the configuration the model records
the terms for which it is called. `none` is a failed assertion (or the bound for the number of iterations).
-/
import Verif.Model.Internalizer

namespace Yaga

/-- `processed`, src/terms/Term_visitor.h:15, and the terms for which `config.visit` was called, in this order. -/
structure VisitState where
  processed : List Nat
  visited : List Tm
  deriving DecidableEq

namespace VisitState

/-- The loop of `visit(term_t)`, src/terms/Term_visitor.h:48-67. An element of the worklist is a term with `next_child`; the
head of the list is the back of the vector. -/
def loop (s : TermTable) : Nat → List (Tm × Nat) → VisitState → Option VisitState
  | _, [], st => some st
  | 0, _ :: _, _ => none
  | fuel + 1, (t, k) :: stk, st =>
    match (s.args t)[k]? with
    | some c =>
      if c.index ∈ st.processed then loop s fuel ((t, k + 1) :: stk) st
      else loop s fuel ((c, 0) :: (t, k + 1) :: stk) st
    | none =>
      if t.index ∈ st.processed then none
      else loop s fuel stk ⟨st.processed ++ [t.index], st.visited ++ [t]⟩

/-- `visit(term_t)`, src/terms/Term_visitor.h:37-68. -/
def visitTerm (s : TermTable) (t : Tm) (st : VisitState) : Option VisitState :=
  loop s (Internalizer.fuel s) [(t, 0)] st

/-- `visit(std::span<const term_t>)`, src/terms/Term_visitor.h:26-35. -/
def visitAll (s : TermTable) : List Tm → VisitState → Option VisitState
  | [], st => some st
  | t :: ts, st =>
    if t.index ∈ st.processed then visitAll s ts st else (visitTerm s t st).bind (visitAll s ts)

end VisitState
end Yaga
