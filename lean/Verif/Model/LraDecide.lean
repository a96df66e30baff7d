/-
Choice of a value for a rational variable.

Cites: src/lra/Linear_arithmetic.cpp:396-545. Rational numbers are modelled by ℚ, see DESIGN.md.
-/
import Verif.Model.Bounds
import Mathlib.Data.Rat.Floor

namespace Yaga
namespace VBounds

/-- The loop of `check_around_zero`, src/lra/Linear_arithmetic.cpp:399-412: try `value`, `-value`,
`value + 1`, `-(value + 1)`, ... for `n` values. -/
def around (s : LinStore) (m : LModels) : Nat → ℚ → VBounds → VBounds × Option ℚ
  | 0, _, v => (v, none)
  | n + 1, value, v =>
    let r := v.isAllowed s m value
    if r.2 then (r.1, some value)
    else
      let r2 := r.1.isAllowed s m (-value)
      if r2.2 then (r2.1, some (-value)) else around s m n (value + 1) r2.1

/-- `check_around_zero`, src/lra/Linear_arithmetic.cpp:398-412. The loop condition is
`value <= length`, so there are `⌊length⌋ + 1` iterations, or none if `length` is negative. -/
def aroundZero (s : LinStore) (m : LModels) (length : ℚ) (v : VBounds) : VBounds × Option ℚ :=
  around s m (⌊length⌋ + 1).toNat 0 v

/-- The loops that try `value`, `value + step`, `value + 2 * step`, ...,
src/lra/Linear_arithmetic.cpp:445-448, 461-464, 475-482, 487-494, for `n` values. -/
def walk (s : LinStore) (m : LModels) (step : ℚ) : Nat → ℚ → VBounds → VBounds × Option ℚ
  | 0, _, v => (v, none)
  | n + 1, value, v =>
    let r := v.isAllowed s m value
    if r.2 then (r.1, some value) else walk s m step n (value + step) r.1

/-- `find_integer`, src/lra/Linear_arithmetic.cpp:396-504. The outer `Option` of the result is `none` if a
loop without a bound did not end within `fuel` iterations; the inner one is the result of the function. -/
def findInteger (s : LinStore) (m : LModels) (fuel : Nat) (v : VBounds) :
    VBounds × Option (Option ℚ) :=
  let l := v.lower s m
  let u := l.1.upper s m
  match l.2, u.2 with
  | none, none =>
    let r := around s m fuel 0 u.1
    (r.1, r.2.map some)
  | none, some ub =>
    let floorUb : ℚ := ⌊ub.value⌋
    let r := aroundZero s m floorUb u.1
    match r.2 with
    | some q => (r.1, some (some q))
    | none =>
      let r2 := walk s m (-1) fuel (if floorUb > 0 then -floorUb else floorUb) r.1
      (r2.1, r2.2.map some)
  | some lb, none =>
    let ceilLb : ℚ := ⌈lb.value⌉
    let r := aroundZero s m (-ceilLb) u.1
    match r.2 with
    | some q => (r.1, some (some q))
    | none =>
      let r2 := walk s m 1 fuel (if ceilLb < 0 then -ceilLb else ceilLb) r.1
      (r2.1, r2.2.map some)
  | some lb, some ub =>
    if lb.value ≥ 0 then
      let r := walk s m 1 (⌊ub.value⌋ - ⌈lb.value⌉ + 1).toNat ⌈lb.value⌉ u.1
      (r.1, some r.2)
    else if ub.value ≤ 0 then
      let r := walk s m (-1) (⌊ub.value⌋ - ⌈lb.value⌉ + 1).toNat ⌊ub.value⌋ u.1
      (r.1, some r.2)
    else
      let r := aroundZero s m (if ub.value > -lb.value then ub.value else -lb.value) u.1
      (r.1, some r.2)

/-- The loop that halves the distance to the lower bound, src/lra/Linear_arithmetic.cpp:531-535. -/
def halve (s : LinStore) (m : LModels) (lb : ℚ) : Nat → ℚ → VBounds → VBounds × Option ℚ
  | 0, _, v => (v, none)
  | n + 1, value, v =>
    let r := v.isAllowed s m value
    if r.2 then (r.1, some value) else halve s m lb n ((value + lb) / 2) r.1

/-- The value chosen by `decide`, src/lra/Linear_arithmetic.cpp:506-539; `cached` is the cached value, if
there is one. `none` if a loop did not end within `fuel` iterations, or if a bound that is dereferenced
does not exist. -/
def chooseValue (s : LinStore) (m : LModels) (fuel : Nat) (cached : Option ℚ) (v : VBounds) :
    VBounds × Option ℚ :=
  let value := cached.getD 0
  let r := v.isAllowed s m value
  if r.2 then (r.1, some value)
  else
    let f := findInteger s m fuel r.1
    match f.2 with
    | none => (f.1, none)
    | some (some q) => (f.1, some q)
    | some none =>
      let l := f.1.lower s m
      let u := l.1.upper s m
      match l.2, u.2 with
      | some lb, some ub => halve s m lb.value fuel ub.value u.1
      | _, _ => (u.1, none)

end VBounds
end Yaga
