/-
The consistency checks of the arithmetic plugin, src/lra/Linear_arithmetic.cpp:547-645. They are meant for debugging;
no other function calls them.
-/
import Verif.Model.LraPlugin

namespace Yaga
namespace LA
variable {R : Type}

/-- The tables `ub` and `lb`, src/lra/Linear_arithmetic.cpp:550-557. The tables of reasons are not read. -/
structure BTab where
  ub : Nat → Option ℚ := fun _ => none
  lb : Nat → Option ℚ := fun _ => none

/-- Body of the first loop of `check_bounds_consistency`, src/lra/Linear_arithmetic.cpp:560-594. -/
def tabStep (la : LA R) (t : BTab) (c : LinCons) : BTab :=
  if c.isEmpty || !la.trail.bools.defined c.lit.ord then t
  else
    let d := if la.trail.bools.value c.lit.ord == !c.lit.isNeg then c else c.neg
    match la.store.terms d with
    | [] => t
    | p :: ps =>
      if !la.trail.rats.defined p.1 && (ps.all fun q => la.trail.rats.defined q.1) then
        let v := la.store.impliedValue la.trail.rats d / p.2
        let t1 : BTab :=
          if BState.impliesUpper d p.2 && ((t.ub p.1).all fun u => Decidable.decide (v < u)) then
            { t with ub := Function.update t.ub p.1 (some v) }
          else t
        if BState.impliesLower d p.2 && ((t1.lb p.1).all fun l => Decidable.decide (v > l)) then
          { t1 with lb := Function.update t1.lb p.1 (some v) }
        else t1
      else t

/-- `check_bounds_consistency`, src/lra/Linear_arithmetic.cpp:547-614; `false` if an assertion fails. The calls of
`lower_bound` and `upper_bound` remove obsolete bounds; the result has no other effect. -/
def boundsConsistent (la : LA R) : Bool :=
  let t := la.store.cons.foldl la.tabStep {}
  (List.range la.trail.rats.num).all fun x =>
    la.trail.rats.defined x ||
      let l := (la.bnd.vb x).lower la.store la.models
      let u := l.1.upper la.store la.models
      (l.2.all fun b => (t.lb x).all fun q => Decidable.decide (b.value ≥ q)) &&
        u.2.all fun b => (t.ub x).all fun q => Decidable.decide (b.value ≤ q)

/-- `check_watch_consistency`, src/lra/Linear_arithmetic.cpp:616-645; `false` if an assertion fails. -/
def watchConsistent (la : LA R) : Bool :=
  la.store.cons.all fun c => c.isEmpty ||
    let vs := la.store.varsOf c
    (!la.trail.rats.defined (vs.getD 0 0) || vs.all fun x => la.trail.rats.defined x) &&
    (!Nat.blt 1 c.size || !la.trail.rats.defined (vs.getD 1 0) || (vs.drop 2).all fun x => la.trail.rats.defined x) &&
    (vs.take 2).all fun x => (la.watched x).any fun w => w.1.lit.ord == c.lit.ord

end LA
end Yaga
