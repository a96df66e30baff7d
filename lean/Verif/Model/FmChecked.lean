/-
The conflict analysis of the arithmetic plugin with its assertions, src/lra/Lra_conflict_analysis.cpp, the loop
that calls it and the choice of values with its assertions (src/lra/Linear_arithmetic.cpp:395-545). `none` is a
failed assertion, a division by zero, an iterator at the end that is dereferenced, or `value()` of an empty
`std::optional`. Without them the functions are those of `Model/Fm` and `Model/LraPlugin`.
-/
import Verif.Model.LraPlugin

namespace Yaga

/-- `assert`. -/
def ensure (b : Bool) : Option Unit := if b then some () else none

namespace Fm

/-- `init(cons, pred, mult)`, src/lra/Lra_conflict_analysis.cpp:29-44, with the assertion in line 31. -/
def initWithC (s : LinStore) (c : LinCons) (p : Pred) (mult : ℚ) : Option Fm := do
  ensure (!c.isEmpty)
  return initWith s c p mult

/-- `init(cons)`, src/lra/Lra_conflict_analysis.cpp:6-27, with the assertions in lines 8 and 31. -/
def initC (s : LinStore) (c : LinCons) : Option Fm := do
  ensure (decide (c.pred ≠ .eq) || !c.lit.isNeg)
  initWithC s c (initPred c) (if initPred c ≠ c.pred then -1 else 1)

/-- `resolve`, src/lra/Lra_conflict_analysis.cpp:52-94, with the assertions in lines 54, 55, 60, 65, 66 and 89 and the
division in line 68. The iterators found are dereferenced. -/
def resolveC (f g : Fm) (x : Nat) : Option Fm := do
  ensure (!f.poly.terms.isEmpty)
  ensure (!g.poly.terms.isEmpty)
  let a ← f.poly.terms.find? fun t => t.1 == x
  let b ← g.poly.terms.find? fun t => t.1 == x
  ensure (b.1 == a.1)
  ensure (decide (b.2 ≠ 0))
  let r := resolve f g x
  ensure ((r.poly.terms.find? fun t => t.1 == x).isNone)
  return r

end Fm

namespace Bnd

mutual
/-- `Lra_conflict_analysis::eliminate`, src/lra/Lra_conflict_analysis.cpp:136-152. -/
def eliminateC (s : LinStore) (m : LModels) : Bnd → Option (Fm × List Lit)
  | mk _ _ c ds _ _ => do
    let f ← Fm.initC s c
    let r ← eliminateDepsC s m ds f
    return (r.1, c.lit.neg :: r.2)
/-- The loop over `bound.bounds()`, src/lra/Lra_conflict_analysis.cpp:144-150. -/
def eliminateDepsC (s : LinStore) (m : LModels) : List Bnd → Fm → Option (Fm × List Lit)
  | [], f => some (f, [])
  | d :: ds, f =>
    if m.rats.defined d.var then eliminateDepsC s m ds f
    else do
      let r ← eliminateC s m d
      let g ← f.resolveC r.1 d.var
      let r2 ← eliminateDepsC s m ds g
      return (r2.1, r.2 ++ r2.2)
end

end Bnd

namespace LA
variable {R : Type}

/-- `Fm_elimination::finish`, src/lra/Lra_conflict_analysis.cpp:112-134. The comparison in lines 120-124 takes the value of
the levels of all variables (simplification: also if there is only one variable). -/
def finishFmC (hv : Nat → Nat) (hc : ℚ → Nat) (la : LA R) (f : Fm) : Option (LA R × Option LinCons) := do
  ensure (f.poly.terms.all fun t => (la.level t.1).isSome)
  return la.finishFm hv hc f

/-- The assertions about a derived constraint, src/lra/Lra_conflict_analysis.cpp:189-190 and 237-238. -/
def derivedOk (la : LA R) : Option LinCons → Bool
  | none => true
  | some c => evalLit la.trail.bools c.lit == some false && la.store.evalOpt la.trail.rats c == some false

/-- `Bound_conflict_analysis::analyze`, src/lra/Lra_conflict_analysis.cpp:162-197, with the assertions in lines 177, 189,
190, 194 and 195. -/
def boundConflictC (hv : Nat → Nat) (hc : ℚ → Nat) (la : LA R) (x : Nat) : Option (LA R × Option Clause) :=
  let l := la.bnd.lower la.store la.models x
  let u := l.1.upper la.store la.models x
  let l0 := { la with bnd := u.1 }
  match l.2, u.2 with
  | some lb, some ub =>
    if lb.value < ub.value ∨ (lb.value = ub.value ∧ (lb.isStrict || ub.isStrict) = false) then
      some (l0, none)
    else do
      ensure (lb.var == ub.var)
      let e1 ← lb.eliminateC la.store la.models
      let e2 ← ub.eliminateC la.store la.models
      let g ← e1.1.resolveC e2.1 ub.var
      let f ← l0.finishFmC hv hc g
      ensure (f.1.derivedOk f.2)
      let cl := Lra.pushDerived (Lra.sortClause (e1.2 ++ e2.2)) f.2
      ensure (Nat.ble 2 cl.length)
      ensure (evalClause f.1.trail.bools cl == some false)
      return (f.1, some cl)
  | _, _ => some (l0, none)

/-- The rest of `Inequality_conflict_analysis::analyze`, src/lra/Lra_conflict_analysis.cpp:223-245, with the assertions
in lines 223, 224, 237, 238 and 244. -/
def ineqRestC (hv : Nat → Nat) (hc : ℚ → Nat) (l0 : LA R) (lb ub neq : Bnd) (mult : ℚ) :
    Option (LA R × Option Clause) := do
  ensure (lb.var == ub.var)
  ensure (neq.var == lb.var)
  let e1 ← lb.eliminateC l0.store l0.models
  let i1 ← Fm.initWithC l0.store neq.reason .lt mult
  let g1 ← e1.1.resolveC i1 neq.var
  let f1 ← l0.finishFmC hv hc g1
  ensure (f1.1.derivedOk f1.2)
  let e2 ← ub.eliminateC f1.1.store f1.1.models
  let i2 ← Fm.initWithC f1.1.store neq.reason .lt (-mult)
  let g2 ← e2.1.resolveC i2 neq.var
  let f2 ← f1.1.finishFmC hv hc g2
  ensure (f2.1.derivedOk f2.2)
  let cl := Lra.pushDerived (Lra.pushDerived (neq.reason.lit.neg :: e1.2) f1.2 ++ e2.2) f2.2
  ensure (evalClause f2.1.trail.bools cl == some false)
  return (f2.1, some (Lra.sortClause cl))

/-- `Inequality_conflict_analysis::analyze`, src/lra/Lra_conflict_analysis.cpp:199-246. -/
def ineqConflictC (hv : Nat → Nat) (hc : ℚ → Nat) (la : LA R) (x : Nat) : Option (LA R × Option Clause) :=
  let l := la.bnd.lower la.store la.models x
  let u := l.1.upper la.store la.models x
  match l.2, u.2 with
  | some lb, some ub =>
    if lb.value ≠ ub.value ∨ lb.reason.isStrict = true ∨ ub.reason.isStrict = true then
      some ({ la with bnd := u.1 }, none)
    else
      let n := (u.1.vb x).inequality la.store la.models lb.value
      let l0 := { la with bnd := u.1.put x n.1 }
      match n.2 with
      | none => some (l0, none)
      | some neq =>
        l0.ineqRestC hv hc lb ub neq (if ((la.store.coefsOf neq.reason).head?.getD 0) > 0 then 1 else -1)
  | _, _ => some ({ la with bnd := u.1 }, none)

/-- `check_bounds`, src/lra/Linear_arithmetic.cpp:259-271. -/
def checkBoundsC (hv : Nat → Nat) (hc : ℚ → Nat) (la : LA R) (x : Nat) : Option (LA R × Option Clause) := do
  let r ← la.boundConflictC hv hc x
  if r.2.isSome then return r else r.1.ineqConflictC hv hc x

/-- The loop of `finish`, src/lra/Linear_arithmetic.cpp:338-356. -/
def finishLoopC (hv : Nat → Nat) (hc : ℚ → Nat) (o : LaOpts) : List Nat → LA R → Option (LA R × List Clause)
  | [], la => some (la, [])
  | x :: xs, la => do
    let r ← la.checkBoundsC hv hc x
    match r.2 with
    | some cl =>
      if o.returnAll then do
        let q ← finishLoopC hv hc o xs r.1
        return (q.1, cl :: q.2)
      else return (r.1, [cl])
    | none =>
      if o.propRational then
        let d := r.1.effectivelyDecided x
        finishLoopC hv hc o xs (if d.2 then { d.1 with decided := d.1.decided ++ [x] } else d.1)
      else finishLoopC hv hc o xs r.1

/-- `finish`, src/lra/Linear_arithmetic.cpp:328-359. -/
def finishC (hv : Nat → Nat) (hc : ℚ → Nat) (o : LaOpts) (la : LA R) : Option (LA R × List Clause) :=
  let ch := la.bnd.changed
  finishLoopC hv hc o ch.2 { la with bnd := ch.1 }

/-- `propagate(db, trail)`, src/lra/Linear_arithmetic.cpp:37-88; the assertions before `finish` are recorded in `ok`, and
those are checked at the end. -/
def propagateC (hv : Nat → Nat) (hc : ℚ → Nat) (o : LaOpts) (la : LA R) : Option (LA R × List Clause) := do
  let r := la.takeAssigned
  let l1 := (r.2.filter la.relevant).foldl onAssigned r.1
  let l2 := if o.propBounds then l1.propagateBounds else l1
  let q ← l2.finishC hv hc o
  ensure q.1.ok
  return q

end LA

namespace VBounds

/-- The assertions of `find_integer` in lines 468-497 of src/lra/Linear_arithmetic.cpp; those of lines 468 and 469
hold because of the tests before them. -/
def findIntegerOk (s : LinStore) (m : LModels) (v : VBounds) : Bool :=
  let l := v.lower s m
  let u := l.1.upper s m
  match l.2, u.2 with
  | some lb, some ub =>
    if lb.value ≥ 0 then decide (ub.value ≥ 0)
    else if ub.value ≤ 0 then decide (lb.value ≤ 0)
    else decide (lb.value ≤ 0) && decide (ub.value ≥ 0)
  | _, _ => true

/-- The assertions met while a value is chosen: those of `find_integer`, and that there is a lower and an upper bound if
there is no integer, src/lra/Linear_arithmetic.cpp:518-528. -/
def chooseOk (s : LinStore) (m : LModels) (fuel : Nat) (cached : Option ℚ) (v : VBounds) : Bool :=
  let r := v.isAllowed s m (cached.getD 0)
  if r.2 then true
  else
    let f := findInteger s m fuel r.1
    findIntegerOk s m r.1 &&
      match f.2 with
      | some none =>
        let l := f.1.lower s m
        l.2.isSome && (l.1.upper s m).2.isSome
      | _ => true

end VBounds

namespace LA
variable {R : Type}

/-- `decide(db, trail, var)`, src/lra/Linear_arithmetic.cpp:506-545, with its assertions. The outer `none` is a failed
assertion; the inner one means that the search for a value did not end within `fuel` iterations. -/
def decideC (fuel : Nat) (la : LA R) (x : Nat) : Option (Option (LA R)) := do
  ensure ((la.bnd.vb x).chooseOk la.store la.models fuel (la.cached x))
  match la.decide fuel x with
  | none => return none
  | some la' =>
    ensure la'.ok
    return some la'

end LA
end Yaga
