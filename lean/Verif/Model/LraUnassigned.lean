/-
Propagation of constraints that are not on the trail, src/lra/Linear_arithmetic.cpp:299-326. The option `prop_unassigned`
that enables it is not set by any logic (src/Yaga.cpp:25-29, 45-49).
-/
import Verif.Model.LraPlugin

namespace Yaga
namespace LA
variable {R : Type}

/-- The state in which `propagate(db, trail)` calls `propagate_unassigned`, src/lra/Linear_arithmetic.cpp:37-82. -/
def handled (o : LaOpts) (la : LA R) : LA R :=
  let r := la.takeAssigned
  let l1 := (r.2.filter la.relevant).foldl onAssigned r.1
  if o.propBounds then l1.propagateBounds else l1

/-- `occur[x]`, src/lra/Linear_arithmetic.h:112-118: every constraint is appended to the lists of its variables when it is
created, with a positive literal. The repository keeps its constraints in the order of their creation, so the list is
computed from it instead of stored. Linear search instead of a list per variable. -/
def occur (la : LA R) (x : Nat) : List LinCons :=
  la.store.set.filter fun e => (la.store.varsOf e).contains x

/-- Body of the inner loop, src/lra/Linear_arithmetic.cpp:318-322. -/
def tryImplied (la : LA R) (c : LinCons) : LA R :=
  let r := la.bnd.isImplied la.store la.models c
  if r.2 then
    { la with
      bnd := r.1
      trail := (la.trail.propagate ⟨.boolean, c.lit.ord⟩ none la.trail.decisionLevel).setValue
        ⟨.boolean, c.lit.ord⟩ (.b (!c.lit.isNeg)) }
  else { la with bnd := r.1 }

/-- Body of the outer loop, src/lra/Linear_arithmetic.cpp:314-324. -/
def tryBoth (la : LA R) (e : LinCons) : LA R :=
  if la.trail.bools.defined e.lit.ord then la else [e, e.neg].foldl tryImplied la

/-- `propagate_unassigned`, src/lra/Linear_arithmetic.cpp:299-326. The list of a level above 0 is never empty, so the empty
case is not reached. -/
def propagateUnassigned (la : LA R) : LA R :=
  if la.trail.decisionLevel = 0 then la
  else
    match (la.trail.assigned la.trail.decisionLevel).head? with
    | none => la
    | some a =>
      match a.var.type with
      | .boolean => la
      | .rational => (la.occur a.var.ord).foldl tryBoth la

end LA
end Yaga
