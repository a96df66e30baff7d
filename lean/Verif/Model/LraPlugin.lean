/-
Model of the plugin `Linear_arithmetic` on the solver trail: watch lists, propagation, conflict
analysis with its effect on the trail, and decisions (src/lra/Linear_arithmetic.{h,cpp}).

`propagate_unassigned` and `occur` are in `Model/LraUnassigned`. They are used only with the option
`prop_unassigned`, which no logic sets (src/Yaga.cpp:25-29, 45-49); `occur` is also filled with
`prop_bounds`, but not read.
-/
import Verif.Model.Fm
import Verif.Model.LraDecide
import Verif.Model.BoolTheory

namespace Yaga

/-- `Linear_arithmetic::Options`, src/lra/Linear_arithmetic.h:34-54, without `prop_unassigned`. -/
structure LaOpts where
  propBounds : Bool
  returnAll : Bool
  propRational : Bool

/-- `Linear_arithmetic`, src/lra/Linear_arithmetic.h:193-220, together with the trail it works on and
the members of `Theory` (src/Theory.h:49-51; `curLevel = none` is the value -1). An element of a watch
list is `Watched_constraint` (lines 193-203): the constraint and `index`. `to_check` is empty between
calls and local to `finish`. `ok` is not in the code: it is false once an assertion that the model
evaluates has failed. -/
structure LA (R : Type) where
  trail : Trail R
  store : LinStore
  bnd : BState
  watched : Nat → List (LinCons × Nat)
  cached : Nat → Option ℚ
  curLevel : Option Nat
  nextIndex : Nat
  decided : List Nat
  ok : Bool

namespace LA
variable {R : Type}

/-- The plugin before the first variable is created. -/
def init : LA R :=
  ⟨Trail.init, LinStore.init, BState.init, fun _ => [], fun _ => none, some 0, 0, [], true⟩

/-- `relevant_models`, src/lra/Linear_arithmetic.h:140-143. -/
def models (la : LA R) : LModels := ⟨la.trail.bools, la.trail.rats⟩

/-- The part of the state that the model without watch lists describes (`Model/Fm.lean`). -/
def core (la : LA R) : Lra.St := ⟨la.store, la.models, la.bnd⟩

/-- `assert`. -/
def check (la : LA R) (b : Bool) : LA R := { la with ok := la.ok && b }

/-- Level of a rational variable, `trail.decision_level(var)`. -/
def level (la : LA R) (x : Nat) : Option Nat := la.trail.level ⟨.rational, x⟩

/-- `on_variable_resize`, src/lra/Linear_arithmetic.cpp:5-18, with the resized model of the trail
(src/Trail.cpp:6-18). The vectors indexed by rational variables are functions in this model. -/
def resize (la : LA R) (ty : VType) (n : Nat) : LA R :=
  match ty with
  | .boolean => { la with trail := la.trail.resize .boolean n, store := la.store.resize n }
  | .rational => { la with trail := la.trail.resize .rational n }

/-- `push_back` on the list of a variable. -/
def pushWatch (w : Nat → List (LinCons × Nat)) (x : Nat) (e : LinCons × Nat) :
    Nat → List (LinCons × Nat) := Function.update w x (w x ++ [e])

/-- `watch(cons)`, src/lra/Linear_arithmetic.cpp:90-99; the new `index` is
`min(2, cons.size() - 1)` (src/lra/Linear_arithmetic.h:199-202). -/
def addWatch (w : Nat → List (LinCons × Nat)) (s : LinStore) (c : LinCons) :
    Nat → List (LinCons × Nat) :=
  match s.varsOf c with
  | [] => w
  | [x] => pushWatch w x (c, min 2 (c.size - 1))
  | x :: y :: _ => pushWatch (pushWatch w x (c, min 2 (c.size - 1))) y (c, min 2 (c.size - 1))

/-- `constraint(trail, vars, coef, pred, rhs)`, src/lra/Linear_arithmetic.h:103-126, with
`watch(cons, model)` (src/lra/Linear_arithmetic.cpp:101-119). -/
def constraint (hv : Nat → Nat) (hc : ℚ → Nat) (la : LA R) (ts : List (Nat × ℚ)) (pred : Pred)
    (rhs : ℚ) : LA R × LinCons :=
  let r := Lra.constraint hv hc la.store la.models ts pred rhs
  if r.2.2.lit.ord ≥ la.trail.bools.num then
    ({ la with trail := la.trail.resize .boolean (r.2.2.lit.ord + 1), store := r.1,
               watched := addWatch la.watched r.1 r.2.2 }, r.2.2)
  else ({ la with store := r.1 }, r.2.2)

/-- The level computed by `propagate(trail, models, cons)`, src/lra/Linear_arithmetic.cpp:366-372. -/
def maxLevel (la : LA R) (c : LinCons) : Nat :=
  (la.store.varsOf c).foldl (fun l x => max l ((la.level x).getD 0)) 0

/-- `propagate(trail, models, cons)`, src/lra/Linear_arithmetic.cpp:361-378. -/
def propagateCons (la : LA R) (c : LinCons) : LA R :=
  let la := la.check ((evalLit la.trail.bools c.lit).isNone &&
    (la.store.varsOf c).all fun x => (la.level x).isSome)
  let t := la.trail.propagate ⟨.boolean, c.lit.ord⟩ none (la.maxLevel c)
  let b := xor c.lit.isNeg (la.store.eval la.trail.rats c)
  { la with trail := t.setValue ⟨.boolean, c.lit.ord⟩ (.b b) }

/-- `is_fully_assigned`, src/lra/Linear_arithmetic.cpp:252-257. -/
def isFull (la : LA R) (c : LinCons) : Bool :=
  c.isEmpty || (la.store.varsOf c).all fun x => la.trail.rats.defined x

/-- `is_unit`, src/lra/Linear_arithmetic.cpp:240-250. -/
def isUnit (la : LA R) (c : LinCons) : Bool :=
  match la.store.varsOf c with
  | [] => false
  | [x] => !la.trail.rats.defined x
  | x :: y :: _ => !la.trail.rats.defined x && la.trail.rats.defined y

/-- The assertions of `Bounds::update` (src/lra/Bounds.cpp:278, 279, 304) and of the constructor of the implied
value (src/lra/Variable_bounds.h:80-83): the literal of the constraint has a value, the first coefficient is not
zero, the first variable has no value and all others have one, and a constraint that implies neither an equality
nor a disequality nor a lower bound implies an upper bound. -/
def unitOk (la : LA R) (c : LinCons) : Bool :=
  la.trail.bools.defined c.lit.ord &&
    match la.store.terms c with
    | [] => false
    | p :: ps =>
      Decidable.decide (p.2 ≠ 0) && !la.trail.rats.defined p.1 && (ps.all fun q => la.trail.rats.defined q.1) &&
        let d := if evalLit la.trail.bools c.lit = some true then c else c.neg
        Decidable.decide (d.pred = .eq) || BState.impliesLower d p.2 || BState.impliesUpper d p.2

/-- `unit`, src/lra/Linear_arithmetic.cpp:273-276. -/
def unit (la : LA R) (c : LinCons) : LA R :=
  { la with bnd := la.bnd.update la.store la.models c }.check (la.unitOk c)

/-- The assertion at src/lra/Linear_arithmetic.cpp:61 and 205. -/
def checkValue (la : LA R) (c : LinCons) : LA R :=
  la.check (la.store.evalOpt la.trail.rats c == evalLit la.trail.bools c.lit)

/-- The loop at src/lra/Linear_arithmetic.cpp:157-177: cyclic search through the positions from 2 on,
beginning at `i`, for an unassigned variable. The result is the final `watch.index` and whether a
variable was found. `k` bounds the number of iterations. -/
def scan (m : PModel ℚ) (vs : List Nat) (stop : Nat) : Nat → Nat → Nat × Bool
  | 0, i => (i, false)
  | k + 1, i =>
    if m.defined (vs.getD i 0) = false then (i, true)
    else
      let j := if i + 1 = vs.length then 2 else i + 1
      if j = stop then (j, false) else scan m vs stop k j

/-- The first part of `replace_watch(model, watch, var)`, src/lra/Linear_arithmetic.cpp:140-148: the
assigned variable is moved to the second position. -/
def moveSecond (la : LA R) (c : LinCons) (x : Nat) : LA R :=
  let s := if (la.store.varsOf c).getD 1 0 ≠ x then la.store.swapTerms c 0 1 else la.store
  { la with store := s }.check ((s.varsOf c).getD 1 0 == x)

/-- `replace_watch(model, watch, var)`, src/lra/Linear_arithmetic.cpp:121-181. The result is the new
state, `watch.index`, and the return value. -/
def replaceOne (la : LA R) (c : LinCons) (i x : Nat) : LA R × Nat × Bool :=
  if c.size ≤ 1 then (la.check ((la.store.varsOf c).getD 0 0 == x), i, false)
  else if la.trail.rats.defined ((la.store.varsOf c).getD 0 0) &&
      la.trail.rats.defined ((la.store.varsOf c).getD 1 0) then
    (la.check ((la.store.varsOf c).all fun y => la.trail.rats.defined y), i, false)
  else
    let l1 := la.moveSecond c x
    if c.size > 2 then
      let l2 := l1.check (decide (2 ≤ i) && decide (i < c.size))
      let r := scan l2.trail.rats (l2.store.varsOf c) i c.size i
      if r.2 then
        let s := l2.store.swapTerms c 1 r.1
        let y := (s.varsOf c).getD 1 0
        ({ l2 with store := s, watched := pushWatch l2.watched y (c, r.1) }, r.1, y != x)
      else (l2, r.1, (l2.store.varsOf c).getD 1 0 != x)
    else (l1, i, (l1.store.varsOf c).getD 1 0 != x)

/-- What `replace_watch(trail, models, var)` does with a constraint that still watches the variable,
src/lra/Linear_arithmetic.cpp:199-223. -/
def onWatched (la : LA R) (c : LinCons) : LA R :=
  if la.trail.bools.defined c.lit.ord then
    if la.isFull c then la.checkValue c
    else (la.check (la.isUnit c)).unit c
  else if la.isFull c then la.propagateCons c
  else la.check (la.isUnit c)

/-- `std::swap(watchlist[i], watchlist.back())` and `pop_back()`,
src/lra/Linear_arithmetic.cpp:196-197. -/
def swapPop {α : Type} (l : List α) (i : Nat) : List α :=
  match l.getLast? with
  | none => l
  | some e => (l.set i e).dropLast

/-- The loop of `replace_watch(trail, models, var)`, src/lra/Linear_arithmetic.cpp:188-226. Every
iteration removes an element or advances `i`, so it ends after as many iterations as the list has
elements (the lists that grow belong to unassigned variables); `k` counts them. -/
def replaceLoop (x : Nat) : Nat → Nat → LA R → LA R
  | 0, _, la => la
  | k + 1, i, la =>
    match (la.watched x)[i]? with
    | none => la
    | some (c, idx) =>
      let r := la.replaceOne c idx x
      if r.2.2 then
        replaceLoop x k i { r.1 with
          watched := Function.update r.1.watched x (swapPop ((r.1.watched x).set i (c, r.2.1)) i) }
      else
        replaceLoop x k (i + 1) (onWatched { r.1 with
          watched := Function.update r.1.watched x ((r.1.watched x).set i (c, r.2.1)) } c)

/-- `replace_watch(trail, models, var)`, src/lra/Linear_arithmetic.cpp:183-227. -/
def replaceWatch (la : LA R) (x : Nat) : LA R :=
  replaceLoop x (la.watched x).length 0 (la.check (la.trail.rats.defined x))

/-- Body of the loop of `propagate(db, trail)`, src/lra/Linear_arithmetic.cpp:52-76, for a boolean
variable. -/
def onBool (la : LA R) (ord : Nat) : LA R :=
  let c := la.store.get ord
  let la := la.check (!c.isEmpty)
  if la.isFull c then la.checkValue c
  else if la.isUnit c then la.unit c
  else la

/-- Body of the loop of `propagate(db, trail)`, src/lra/Linear_arithmetic.cpp:52-76. -/
def onAssigned (la : LA R) (v : Var) : LA R :=
  match v.type with
  | .boolean => la.onBool v.ord
  | .rational => la.replaceWatch v.ord

/-- The elements of the current level's list that `assigned(trail)` skips, src/Theory.cpp:13. -/
def skip (la : LA R) : Nat :=
  if la.curLevel = some la.trail.decisionLevel then la.nextIndex else 0

/-- `assigned(trail)`, src/Theory.cpp:11-17. -/
def takeAssigned (la : LA R) : LA R × List Var :=
  ({ la with curLevel := some la.trail.decisionLevel,
             nextIndex := (la.trail.assigned la.trail.decisionLevel).length },
    ((la.trail.assigned la.trail.decisionLevel).drop la.skip).map (·.var))

/-- Whether `propagate` handles a variable, src/lra/Linear_arithmetic.cpp:45-46. -/
def relevant (la : LA R) (v : Var) : Bool :=
  match v.type with
  | .rational => true
  | .boolean => !(la.store.get v.ord).isEmpty

/-- Body of the loop of `propagate_bounds`, src/lra/Linear_arithmetic.cpp:280-296. -/
def deduceOne (la : LA R) (a : Asg R) : LA R :=
  match a.var.type with
  | .rational => la
  | .boolean =>
    let c := la.store.get a.var.ord
    if c.isEmpty then la
    else
      let c := if la.trail.bools.value a.var.ord then c else c.neg
      let la := la.check (la.trail.bools.value c.lit.ord == !c.lit.isNeg)
      { la with bnd := la.bnd.deduce la.store la.models c }

/-- `propagate_bounds`, src/lra/Linear_arithmetic.cpp:278-297. -/
def propagateBounds (la : LA R) : LA R :=
  (la.trail.assigned la.trail.decisionLevel).foldl deduceOne la

/-- `trail.decision_level(var).value()` of rational variables, used in the sort of
src/lra/Lra_conflict_analysis.cpp:120-124. -/
def sortLevel (la : LA R) (x : Nat) : Nat := (la.level x).getD 0

/-- `Fm_elimination::finish`, src/lra/Lra_conflict_analysis.cpp:112-134. -/
def finishFm (hv : Nat → Nat) (hc : ℚ → Nat) (la : LA R) (f : Fm) : LA R × Option LinCons :=
  if f.poly.terms.isEmpty then (la, none)
  else
    let r := la.constraint hv hc
      (sortBy (fun a b => decide (la.sortLevel a.1 > la.sortLevel b.1)) f.poly.terms)
      f.pred (-f.poly.const)
    if r.1.trail.bools.defined r.2.lit.ord then (r.1, some r.2)
    else (r.1.propagateCons r.2, some r.2)

/-- `Bound_conflict_analysis::analyze`, src/lra/Lra_conflict_analysis.cpp:162-197. -/
def boundConflict (hv : Nat → Nat) (hc : ℚ → Nat) (la : LA R) (x : Nat) : LA R × Option Clause :=
  let l := la.bnd.lower la.store la.models x
  let u := l.1.upper la.store la.models x
  let l0 := { la with bnd := u.1 }
  match l.2, u.2 with
  | some lb, some ub =>
    if lb.value < ub.value ∨ (lb.value = ub.value ∧ (lb.isStrict || ub.isStrict) = false) then
      (l0, none)
    else
      let e1 := lb.eliminate la.store la.models
      let e2 := ub.eliminate la.store la.models
      let f := l0.finishFm hv hc (e1.1.resolve e2.1 ub.var)
      (f.1, some (Lra.pushDerived (Lra.sortClause (e1.2 ++ e2.2)) f.2))
  | _, _ => (l0, none)

/-- `Inequality_conflict_analysis::analyze`, src/lra/Lra_conflict_analysis.cpp:199-246. -/
def ineqConflict (hv : Nat → Nat) (hc : ℚ → Nat) (la : LA R) (x : Nat) : LA R × Option Clause :=
  let l := la.bnd.lower la.store la.models x
  let u := l.1.upper la.store la.models x
  match l.2, u.2 with
  | some lb, some ub =>
    if lb.value ≠ ub.value ∨ lb.reason.isStrict = true ∨ ub.reason.isStrict = true then
      ({ la with bnd := u.1 }, none)
    else
      let n := (u.1.vb x).inequality la.store la.models lb.value
      let l0 := { la with bnd := u.1.put x n.1 }
      match n.2 with
      | none => (l0, none)
      | some neq =>
        let mult : ℚ :=
          if ((la.store.coefsOf neq.reason).head?.getD 0) > 0 then 1 else -1
        let e1 := lb.eliminate la.store la.models
        let f1 := l0.finishFm hv hc (e1.1.resolve (Fm.initWith la.store neq.reason .lt mult) neq.var)
        let e2 := ub.eliminate f1.1.store f1.1.models
        let f2 := f1.1.finishFm hv hc
          (e2.1.resolve (Fm.initWith f1.1.store neq.reason .lt (-mult)) neq.var)
        (f2.1, some (Lra.sortClause (Lra.pushDerived (Lra.pushDerived (neq.reason.lit.neg :: e1.2)
          f1.2 ++ e2.2) f2.2)))
  | _, _ => ({ la with bnd := u.1 }, none)

/-- `check_bounds`, src/lra/Linear_arithmetic.cpp:259-271. -/
def checkBounds (hv : Nat → Nat) (hc : ℚ → Nat) (la : LA R) (x : Nat) : LA R × Option Clause :=
  let r := la.boundConflict hv hc x
  if r.2.isSome then r else r.1.ineqConflict hv hc x

/-- `is_effectively_decided`, src/lra/Linear_arithmetic.cpp:20-35. -/
def effectivelyDecided (la : LA R) (x : Nat) : LA R × Bool :=
  if la.trail.rats.defined x then (la, false)
  else
    let l := la.bnd.lower la.store la.models x
    match l.2 with
    | none => ({ la with bnd := l.1 }, false)
    | some lb =>
      let u := l.1.upper la.store la.models x
      match u.2 with
      | none => ({ la with bnd := u.1 }, false)
      | some ub => ({ la with bnd := u.1 }, decide (lb.value = ub.value) && !lb.isStrict && !ub.isStrict)

/-- The state after `effectively_decided()`, which returns the list `decided` and clears it,
src/lra/Linear_arithmetic.h:186-191. -/
def takeDecided (la : LA R) : LA R := { la with decided := [] }

/-- The loop of `finish`, src/lra/Linear_arithmetic.cpp:338-356. The variables `changed()` returns are
distinct, so the set `checked` never holds one already. -/
def finishLoop (hv : Nat → Nat) (hc : ℚ → Nat) (o : LaOpts) : List Nat → LA R → LA R × List Clause
  | [], la => (la, [])
  | x :: xs, la =>
    let r := la.checkBounds hv hc x
    match r.2 with
    | some cl =>
      if o.returnAll then
        let q := finishLoop hv hc o xs r.1
        (q.1, cl :: q.2)
      else (r.1, [cl])
    | none =>
      if o.propRational then
        let d := r.1.effectivelyDecided x
        finishLoop hv hc o xs (if d.2 then { d.1 with decided := d.1.decided ++ [x] } else d.1)
      else finishLoop hv hc o xs r.1

/-- `finish`, src/lra/Linear_arithmetic.cpp:328-359. -/
def finish (hv : Nat → Nat) (hc : ℚ → Nat) (o : LaOpts) (la : LA R) : LA R × List Clause :=
  let ch := la.bnd.changed
  finishLoop hv hc o ch.2 { la with bnd := ch.1 }

/-- `propagate(db, trail)`, src/lra/Linear_arithmetic.cpp:37-88. -/
def propagate (hv : Nat → Nat) (hc : ℚ → Nat) (o : LaOpts) (la : LA R) : LA R × List Clause :=
  let r := la.takeAssigned
  let l1 := (r.2.filter la.relevant).foldl onAssigned r.1
  let l2 := if o.propBounds then l1.propagateBounds else l1
  l2.finish hv hc o

/-- `decide(db, trail, var)` for a rational variable, src/lra/Linear_arithmetic.cpp:506-545; `none` if
the search for a value did not end within `fuel` iterations. -/
def decide (fuel : Nat) (la : LA R) (x : Nat) : Option (LA R) :=
  let r := (la.bnd.vb x).chooseValue la.store la.models fuel (la.cached x)
  match r.2 with
  | none => none
  | some q =>
    let l1 := { la with bnd := la.bnd.put x r.1, cached := Function.update la.cached x (some q) }
    let a := (l1.bnd.vb x).isAllowed l1.store l1.models q
    let l2 := { l1 with bnd := l1.bnd.put x a.1 }.check a.2
    some { l2 with trail := (l2.trail.setValue ⟨.rational, x⟩ (.q q)).decide ⟨.rational, x⟩ }

/-- `on_before_backtrack`, src/Theory.cpp:5-9. -/
def onBeforeBacktrack (la : LA R) : LA R := { la with curLevel := none, nextIndex := 0 }

end LA
end Yaga
