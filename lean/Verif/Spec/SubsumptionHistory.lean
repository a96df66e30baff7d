/-
Histories of learned clauses in which everything is about known variables.
-/
import Verif.Model.SubsumptionChecked

namespace Yaga.Spec
open Yaga

/-- A history of one `check-sat`, starting with `n` Boolean variables: the number of variables does
not shrink, literals of clauses are about variables that exist at that time, and `Yaga::init` does
not occur. -/
def OneCheck : Nat → List SubsMem.Ev → Prop
  | _, [] => True
  | n, .resize k :: evs => n ≤ k ∧ OneCheck k evs
  | n, .learn c :: evs => (∀ l ∈ c, l.ord < n) ∧ OneCheck n evs
  | n, .reorder _ c :: evs => (∀ l ∈ c, l.ord < n) ∧ OneCheck n evs
  | n, .restart :: evs => OneCheck n evs
  | _, .init :: _ => False

end Yaga.Spec
