/-
Model of `src/lra/Variable_bounds.h` and `src/lra/Bounds.{h,cpp}`.

Asking for a bound removes obsolete bounds, so the queries return the new state as well.
-/
import Verif.Model.LinearConstraint

namespace Yaga

/-- `Theory_models<Rational>`, src/lra/Variable_bounds.h:22-59. -/
structure LModels where
  bools : PModel Bool
  rats : PModel ℚ

/-- `Implied_value<Rational>`, src/lra/Variable_bounds.h:65-218: `bound_var`, `val`, `cons`, `deps`,
`cons_time`, `var_time`. -/
inductive Bnd where
  | mk (var : Nat) (value : ℚ) (reason : LinCons) (deps : List Bnd) (consTime varTime : Int)

namespace Bnd

/-- `var()`, src/lra/Variable_bounds.h:121. -/
def var : Bnd → Nat
  | mk x _ _ _ _ _ => x

/-- `value()`, src/lra/Variable_bounds.h:109. -/
def value : Bnd → ℚ
  | mk _ v _ _ _ _ => v

/-- `reason()`, src/lra/Variable_bounds.h:115. -/
def reason : Bnd → LinCons
  | mk _ _ c _ _ _ => c

/-- `bounds()`, src/lra/Variable_bounds.h:127. -/
def deps : Bnd → List Bnd
  | mk _ _ _ ds _ _ => ds

/-- `cons_time`, src/lra/Variable_bounds.h:198. -/
def consTime : Bnd → Int
  | mk _ _ _ _ t _ => t

/-- `var_time`, src/lra/Variable_bounds.h:200. -/
def varTime : Bnd → Int
  | mk _ _ _ _ _ t => t

/-- `is_strict`, src/lra/Variable_bounds.h:133-139. -/
def isStrict (b : Bnd) : Bool := b.reason.isStrict || b.deps.any fun d => d.reason.isStrict

/-- The constructors with `compute_timestamps`, src/lra/Variable_bounds.h:77-103 and 206-217. -/
def make (s : LinStore) (m : LModels) (x : Nat) (v : ℚ) (c : LinCons) (ds : List Bnd) : Bnd :=
  mk x v c ds (m.bools.ts c.lit.ord)
    ((s.varsOf c).foldl
      (fun t y => if y ≠ x ∧ m.rats.defined y = true then max t (m.rats.ts y) else t) 0)

/-- The part of `is_obsolete` that concerns the variables of the reason,
src/lra/Variable_bounds.h:161-174, for one variable `y`. -/
def varObsolete (m : LModels) (x : Nat) (ds : List Bnd) (vt : Int) (y : Nat) : Bool :=
  y != x && !(ds.any fun d => d.var == y) && (!m.rats.defined y || decide (m.rats.ts y > vt))

/-- The part of `is_obsolete` that concerns the literal of the reason,
src/lra/Variable_bounds.h:153-157. -/
def litObsolete (m : LModels) (c : LinCons) (ct : Int) : Bool :=
  evalLit m.bools c.lit != some true || decide (m.bools.ts c.lit.ord > ct)

mutual
/-- `is_obsolete`, src/lra/Variable_bounds.h:150-186. -/
def isObsolete (s : LinStore) (m : LModels) : Bnd → Bool
  | mk x _ c ds ct vt =>
    litObsolete m c ct || (s.varsOf c).any (varObsolete m x ds vt) || anyObsolete s m ds
/-- The last loop of `is_obsolete`, src/lra/Variable_bounds.h:177-183. -/
def anyObsolete (s : LinStore) (m : LModels) : List Bnd → Bool
  | [] => false
  | d :: ds => isObsolete s m d || anyObsolete s m ds
end

mutual
/-- `depends_on`, src/lra/Bounds.cpp:7-12. -/
def dependsOn (ord : Nat) : Bnd → Bool
  | mk _ _ _ ds _ _ => anyDependsOn ord ds
/-- The condition of `std::any_of` in `depends_on`, src/lra/Bounds.cpp:9-11. -/
def anyDependsOn (ord : Nat) : List Bnd → Bool
  | [] => false
  | d :: ds => (d.reason.lit.ord == ord || dependsOn ord d) || anyDependsOn ord ds
end

mutual
/-- The lambda `add` of `count_distinct_bounds`, src/lra/Bounds.h:129-135. -/
def reasonOrds : Bnd → List Nat
  | mk _ _ c ds _ _ => c.lit.ord :: listOrds ds
/-- The loops over lists of bounds in src/lra/Bounds.h:131-139. -/
def listOrds : List Bnd → List Nat
  | [] => []
  | d :: ds => reasonOrds d ++ listOrds ds
end

/-- `count_distinct_bounds`, src/lra/Bounds.h:125-144: sort, `std::unique`, count. -/
def countDistinct (ds : List Bnd) : Nat := (uniq (sortBy (fun a b => decide (a < b)) (listOrds ds))).length

/-- `Bound_comparer`, src/lra/Variable_bounds.h:226-261. -/
def isBetter (less : ℚ → ℚ → Bool) (l r : Bnd) : Bool :=
  if less l.value r.value then true
  else if l.value = r.value then
    (if l.isStrict && !r.isStrict then true else false)
  else false

/-- `std::less<Rational>` of `Upper_bound_comparer`, src/lra/Variable_bounds.h:275. -/
def ubLess (a b : ℚ) : Bool := decide (a < b)

/-- `std::greater<Rational>` of `Lower_bound_comparer`, src/lra/Variable_bounds.h:274. -/
def lbLess (a b : ℚ) : Bool := decide (b < a)

end Bnd

/-- `Variable_bounds<Rational>`, src/lra/Variable_bounds.h:437-443. The head of `ub` and `lb` is the
top of the stack (`back()`); `dis` is `disallowed` in order. -/
structure VBounds where
  ub : List Bnd
  lb : List Bnd
  dis : List Bnd

namespace VBounds

/-- Default constructed, src/lra/Variable_bounds.h:437-443. -/
def empty : VBounds := ⟨[], [], []⟩

/-- `remove_obsolete`, src/lra/Variable_bounds.h:450-456. -/
def popObs (s : LinStore) (m : LModels) : List Bnd → List Bnd
  | [] => []
  | b :: bs => if b.isObsolete s m then popObs s m bs else b :: bs

/-- `remove_all_obsolete`, src/lra/Variable_bounds.h:463-468. -/
def dropObs (s : LinStore) (m : LModels) (bs : List Bnd) : List Bnd :=
  bs.filter fun b => !b.isObsolete s m

/-- `upper_bound`, src/lra/Variable_bounds.h:282-294. -/
def upper (s : LinStore) (m : LModels) (v : VBounds) : VBounds × Option Bnd :=
  ({ v with ub := popObs s m v.ub }, (popObs s m v.ub).head?)

/-- `lower_bound`, src/lra/Variable_bounds.h:301-313. -/
def lower (s : LinStore) (m : LModels) (v : VBounds) : VBounds × Option Bnd :=
  ({ v with lb := popObs s m v.lb }, (popObs s m v.lb).head?)

/-- `inequality`, src/lra/Variable_bounds.h:321-334. -/
def inequality (s : LinStore) (m : LModels) (v : VBounds) (q : ℚ) : VBounds × Option Bnd :=
  ({ v with dis := dropObs s m v.dis }, (dropObs s m v.dis).find? fun b => decide (b.value = q))

/-- `add_inequality`, src/lra/Variable_bounds.h:342-353. -/
def addInequality (s : LinStore) (m : LModels) (v : VBounds) (b : Bnd) : VBounds × Bool :=
  let r := inequality s m v b.value
  if r.2.all fun n => n.reason.lit != b.reason.lit
  then ({ r.1 with dis := r.1.dis ++ [b] }, true)
  else (r.1, false)

/-- `add_upper_bound`, src/lra/Variable_bounds.h:361-371. -/
def addUpper (s : LinStore) (m : LModels) (v : VBounds) (b : Bnd) : VBounds × Bool :=
  let r := upper s m v
  if r.2.all fun t => Bnd.isBetter Bnd.ubLess b t
  then ({ r.1 with ub := b :: r.1.ub }, true)
  else (r.1, false)

/-- `add_lower_bound`, src/lra/Variable_bounds.h:379-389. -/
def addLower (s : LinStore) (m : LModels) (v : VBounds) (b : Bnd) : VBounds × Bool :=
  let r := lower s m v
  if r.2.all fun t => Bnd.isBetter Bnd.lbLess b t
  then ({ r.1 with lb := b :: r.1.lb }, true)
  else (r.1, false)

/-- `check_lower_bound`, src/lra/Variable_bounds.h:398-405. -/
def checkLower (s : LinStore) (m : LModels) (v : VBounds) (q : ℚ) : VBounds × Bool :=
  let r := lower s m v
  (r.1, r.2.all fun b => decide (b.value < q) || (decide (b.value = q) && !b.isStrict))

/-- `check_upper_bound`, src/lra/Variable_bounds.h:414-421. -/
def checkUpper (s : LinStore) (m : LModels) (v : VBounds) (q : ℚ) : VBounds × Bool :=
  let r := upper s m v
  (r.1, r.2.all fun b => decide (q < b.value) || (decide (b.value = q) && !b.isStrict))

/-- `is_allowed`, src/lra/Variable_bounds.h:431-435, with the short-circuit evaluation of `&&`. -/
def isAllowed (s : LinStore) (m : LModels) (v : VBounds) (q : ℚ) : VBounds × Bool :=
  let r := inequality s m v q
  if r.2.isSome then (r.1, false)
  else
    let r2 := checkLower s m r.1 q
    if r2.2 then checkUpper s m r2.1 q else (r2.1, false)

end VBounds

/-- `Bounds`, src/lra/Bounds.h:96-103; only the write buffer of the two buffers with updated variables
matters between the calls of `changed()`. -/
structure BState where
  vb : Nat → VBounds
  updated : List Nat

namespace BState

/-- No bounds. -/
def init : BState := ⟨fun _ => VBounds.empty, []⟩

/-- Replace the bounds of a variable. -/
def put (b : BState) (x : Nat) (v : VBounds) : BState := { b with vb := Function.update b.vb x v }

/-- `updated_write.push_back(var)` if the bound has changed, src/lra/Bounds.cpp:95-98, 171-174,
308-311. -/
def note (b : BState) (x : Nat) (changed : Bool) : BState :=
  if changed then { b with updated := b.updated ++ [x] } else b

/-- `changed`, src/lra/Bounds.cpp:314-323. -/
def changed (b : BState) : BState × List Nat :=
  ({ b with updated := [] }, uniq (sortBy (fun a b => decide (a < b)) b.updated))

/-- `bounds[x].upper_bound(models)`. -/
def upper (s : LinStore) (m : LModels) (b : BState) (x : Nat) : BState × Option Bnd :=
  let r := (b.vb x).upper s m
  (b.put x r.1, r.2)

/-- `bounds[x].lower_bound(models)`. -/
def lower (s : LinStore) (m : LModels) (b : BState) (x : Nat) : BState × Option Bnd :=
  let r := (b.vb x).lower s m
  (b.put x r.1, r.2)

/-- `bounds[x].add_upper_bound(models, value)` with the update of `updated_write`. -/
def addUpper (s : LinStore) (m : LModels) (b : BState) (x : Nat) (v : Bnd) : BState × Bool :=
  let r := (b.vb x).addUpper s m v
  (b.put x r.1, r.2)

/-- `bounds[x].add_lower_bound(models, value)`. -/
def addLower (s : LinStore) (m : LModels) (b : BState) (x : Nat) (v : Bnd) : BState × Bool :=
  let r := (b.vb x).addLower s m v
  (b.put x r.1, r.2)

/-- `bounds[x].add_inequality(models, value)`. -/
def addInequality (s : LinStore) (m : LModels) (b : BState) (x : Nat) (v : Bnd) : BState × Bool :=
  let r := (b.vb x).addInequality s m v
  (b.put x r.1, r.2)

/-- `Deduced_properties`, src/lra/Bounds.h:106-117. -/
structure Ded where
  bound : ℚ
  deps : List Bnd
  num : Nat
  var : Nat
  coef : ℚ

namespace Ded

/-- An assigned variable, src/lra/Bounds.cpp:39 and 120. -/
def assigned (d : Ded) (a q : ℚ) : Ded := { d with bound := d.bound - a * q }

/-- An unassigned variable, src/lra/Bounds.cpp:61-71 and 140-150. -/
def unassigned (d : Ded) (x : Nat) (a : ℚ) : Option Bnd → Ded
  | some b => { d with bound := d.bound - a * b.value, deps := d.deps ++ [b] }
  | none => { d with num := d.num + 1, var := x, coef := a }

end Ded

/-- Whether the constraint is of the form `... ≤ rhs` with positive coefficient or `... ≥ rhs` with
negative coefficient: the test in src/lra/Bounds.cpp:125-126, 161-162 and 223-224. -/
def upward (c : LinCons) (a : ℚ) : Bool :=
  (!c.lit.isNeg && decide (a > 0)) || (c.lit.isNeg && decide (a < 0))

/-- Loop of `deduce_from_inequality`, src/lra/Bounds.cpp:116-152. The second component is `none` if the
function returns because of a circular dependency. -/
def ineqLoop (s : LinStore) (m : LModels) (c : LinCons) :
    List (Nat × ℚ) → BState → Ded → BState × Option Ded
  | [], b, d => (b, some d)
  | p :: ts, b, d =>
    if m.rats.defined p.1 then ineqLoop s m c ts b (d.assigned p.2 (m.rats.value p.1))
    else
      let r := if upward c p.2 then lower s m b p.1 else upper s m b p.1
      if r.2.any fun t => t.dependsOn c.lit.ord then (r.1, none)
      else ineqLoop s m c ts r.1 (d.unassigned p.1 p.2 r.2)

/-- `deduce_from_inequality`, src/lra/Bounds.cpp:104-176. `threshold` is 1.0 (src/lra/Bounds.h:103), so
`max_deps` is the number of variables; the comparison in `float` is exact for fewer than `2^24`
variables. -/
def deduceIneq (s : LinStore) (m : LModels) (b : BState) (c : LinCons) : BState :=
  let r := ineqLoop s m c (s.terms c) b ⟨c.rhs, [], 0, 0, 0⟩
  match r.2 with
  | none => r.1
  | some d =>
    if Bnd.countDistinct d.deps ≤ (s.varsOf c).length ∧ d.num = 1 then
      let v := Bnd.make s m d.var (d.bound / d.coef) c d.deps
      let r2 := if upward c d.coef then addUpper s m r.1 d.var v else addLower s m r.1 d.var v
      r2.1.note d.var r2.2
    else r.1

/-- Loop of `deduce_from_equality`, src/lra/Bounds.cpp:33-74. -/
def eqLoop (s : LinStore) (m : LModels) (c : LinCons) :
    List (Nat × ℚ) → BState → Ded → Ded → BState × Option (Ded × Ded)
  | [], b, d0, d1 => (b, some (d0, d1))
  | p :: ts, b, d0, d1 =>
    if m.rats.defined p.1 then
      eqLoop s m c ts b (d0.assigned p.2 (m.rats.value p.1)) (d1.assigned p.2 (m.rats.value p.1))
    else
      let r := upper s m b p.1
      let r2 := lower s m r.1 p.1
      let b0 := if p.2 < 0 then r2.2 else r.2
      let b1 := if p.2 < 0 then r.2 else r2.2
      if (b0.any fun t => t.dependsOn c.lit.ord) || (b1.any fun t => t.dependsOn c.lit.ord) then
        (r2.1, none)
      else eqLoop s m c ts r2.1 (d0.unassigned p.1 p.2 b0) (d1.unassigned p.1 p.2 b1)

/-- Loop body in src/lra/Bounds.cpp:78-101; `first` is `i == 0`. -/
def eqFinish (s : LinStore) (m : LModels) (c : LinCons) (b : BState) (d : Ded) (first : Bool) :
    BState :=
  if Bnd.countDistinct d.deps ≤ (s.varsOf c).length ∧ d.num = 1 then
    let v := Bnd.make s m d.var (d.bound / d.coef) c d.deps
    let r := if (first && decide (d.coef > 0)) || (!first && decide (d.coef < 0))
      then addLower s m b d.var v else addUpper s m b d.var v
    r.1.note d.var r.2
  else b

/-- `deduce_from_equality`, src/lra/Bounds.cpp:21-102. -/
def deduceEq (s : LinStore) (m : LModels) (b : BState) (c : LinCons) : BState :=
  let r := eqLoop s m c (s.terms c) b ⟨c.rhs, [], 0, 0, 0⟩ ⟨c.rhs, [], 0, 0, 0⟩
  match r.2 with
  | none => r.1
  | some d => eqFinish s m c (eqFinish s m c r.1 d.1 true) d.2 false

/-- `deduce`, src/lra/Bounds.cpp:178-197. -/
def deduce (s : LinStore) (m : LModels) (b : BState) (c : LinCons) : BState :=
  if c.size ≤ 1 then b
  else if c.pred = .eq then (if c.lit.isNeg then b else deduceEq s m b c)
  else deduceIneq s m b c

/-- Loop of `is_implied`, src/lra/Bounds.cpp:214-239; `none` is `return false` at line 235. -/
def impliedLoop (s : LinStore) (m : LModels) (c : LinCons) :
    List (Nat × ℚ) → BState → ℚ → BState × Option ℚ
  | [], b, r => (b, some r)
  | p :: ts, b, r =>
    if m.rats.defined p.1 then impliedLoop s m c ts b (r - p.2 * m.rats.value p.1)
    else
      let q := if upward c p.2 then upper s m b p.1 else lower s m b p.1
      match q.2 with
      | none => (q.1, none)
      | some t => impliedLoop s m c ts q.1 (r - p.2 * t.value)

/-- `is_implied`, src/lra/Bounds.cpp:199-242. -/
def isImplied (s : LinStore) (m : LModels) (b : BState) (c : LinCons) : BState × Bool :=
  match evalLit m.bools c.lit with
  | some v => (b, v)
  | none =>
    let r := impliedLoop s m c (s.terms c) b c.rhs
    match r.2 with
    | none => (r.1, false)
    | some q => (r.1, if c.lit.isNeg then !c.pred.app 0 q else c.pred.app 0 q)

/-- `implies_lower_bound`, src/lra/Bounds.cpp:254-263; `a` is `cons.coef().front()`. -/
def impliesLower (c : LinCons) (a : ℚ) : Bool :=
  if c.pred = .eq then !c.lit.isNeg
  else (decide (a > 0) && c.lit.isNeg) || (decide (a < 0) && !c.lit.isNeg)

/-- `implies_upper_bound`, src/lra/Bounds.cpp:265-274. -/
def impliesUpper (c : LinCons) (a : ℚ) : Bool :=
  if c.pred = .eq then !c.lit.isNeg
  else (decide (a < 0) && c.lit.isNeg) || (decide (a > 0) && !c.lit.isNeg)

/-- `update`, src/lra/Bounds.cpp:276-312. -/
def update (s : LinStore) (m : LModels) (b : BState) (c0 : LinCons) : BState :=
  let p := (s.terms c0).head?.getD (0, 1)
  let value := s.impliedValue m.rats c0 / p.2
  let c := if evalLit m.bools c0.lit = some true then c0 else c0.neg
  let v := Bnd.make s m p.1 value c []
  if c.pred = .eq ∧ c.lit.isNeg = false then
    let r := addLower s m b p.1 v
    let r2 := addUpper s m r.1 p.1 v
    r2.1.note p.1 (r.2 || r2.2)
  else if c.pred = .eq ∧ c.lit.isNeg = true then
    (addInequality s m b p.1 v).1.note p.1 true
  else if impliesLower c p.2 then
    let r := addLower s m b p.1 v
    r.1.note p.1 r.2
  else
    let r := addUpper s m b p.1 v
    r.1.note p.1 r.2

end BState

end Yaga
