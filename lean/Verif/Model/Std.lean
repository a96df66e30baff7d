/-
Models of the standard-library algorithms used by the code.
-/
import Mathlib.Data.List.Basic

namespace Yaga

/-- Insert an element before the first element that is not smaller. -/
def insertBy {α : Type} (lt : α → α → Bool) (x : α) : List α → List α
  | [] => [x]
  | y :: ys => if lt y x then y :: insertBy lt x ys else x :: y :: ys

/-- `std::sort` with comparison `lt`. The C++ algorithm is not stable; on elements that are
equivalent for `lt` but different its result is unspecified, and no theorem relies on their order.
(Every sorting function returns the same list when `lt` is a strict total order.) -/
def sortBy {α : Type} (lt : α → α → Bool) (xs : List α) : List α := xs.foldr (insertBy lt) []

/-- `v.erase(std::unique(v.begin(), v.end()), v.end())`: keep the first element of every run of
equal elements. Used at src/Restart.h:127, src/Solver.cpp:67 and
src/lra/Lra_conflict_analysis.cpp:157-158. -/
def uniq {α : Type} [DecidableEq α] : List α → List α
  | [] => []
  | [x] => [x]
  | x :: y :: rest => if x = y then uniq (y :: rest) else x :: uniq (y :: rest)

end Yaga
