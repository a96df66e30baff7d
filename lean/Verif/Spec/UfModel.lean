/-
Specification: the interpretation given by the values of the variables and the function tables.
-/
import Verif.Model.UfHistory
import Verif.Spec.Term
import Verif.Spec.Cnf

namespace Yaga.Spec

/-- The values of `var_value_t` (src/terms/Term_types.h:29) and of terms are the same. -/
def ofVal : Yaga.Val → Val
  | .b x => .b x
  | .q x => .q x

/-- The same in the other direction. -/
def toVal : Val → Yaga.Val
  | .b x => .b x
  | .q x => .q x

/-- The interpretation that a state of the solver stands for: constants have the values of their variables on
the trail, functions have the values in their tables, and `dflt` where there is no entry. -/
def ufInterp {R : Type} (st : IState) (u : UF R) (dflt : Nat → ℚ) : Interp where
  constB i := match mapFind st.boolVars (Tm.positive i) with
    | some l => if l.isNeg then !u.trail.bools.value l.ord else u.trail.bools.value l.ord
    | none => false
  constQ i := match mapFind st.ratVars (Tm.positive i) with
    | some v => u.trail.rats.value v
    | none => 0
  fnB _ _ := false
  fnQ f args := match u.fnModel (Tm.positive f) (args.map toVal) with
    | some (.q x) => x
    | _ => dflt f

/-- The functions of the script take numbers and return numbers. -/
def RealFns (s : TermTable) : Prop :=
  ∀ t, s.kind t = .app → s.type t = .real ∧ ∀ a ∈ s.args t, s.type a = .real

end Yaga.Spec

namespace Yaga.UF

open Spec

variable {R : Type}

/-- Assigned constraints with assigned variables have their value. -/
def Consistent (u : UF R) : Prop :=
  ∀ k, (u.trail.level (Var.bool k)).isSome = true →
    u.ist.store.terms (u.ist.store.get k) ≠ [] →
    (∀ p ∈ u.ist.store.terms (u.ist.store.get k), (u.trail.level (Var.rat p.1)).isSome = true) →
    (u.trail.bools.value k = true ↔
      LinTrue u.trail.rats.value (u.ist.store.terms (u.ist.store.get k)) (u.ist.store.get k).pred
        (u.ist.store.get k).rhs)

/-- All rational variables are assigned. -/
def Full (st : IState) (u : UF R) : Prop := ∀ p ∈ st.ratVars, (u.trail.level (Var.rat p.2)).isSome = true

end Yaga.UF
