/-
The integer operations on `Long_fraction` objects, src/lra/Long_fraction.h and src/lra/Long_fraction.cpp.
-/
import Verif.Model.LongFraction
import Verif.Model.Std

namespace Yaga
namespace LF

/-- The loop of `gcd`, src/lra/Long_fraction.h:550-555, for signed words. `none`: `INT_MIN % -1` is undefined
behaviour, or the fuel is used up. -/
def gcdLoopW : Nat → Int → Int → Option Int
  | 0, _, _ => none
  | fuel + 1, a, b =>
    if a = wmin ∧ b = -1 then none
    else
      let r := Int.tmod a b
      if r = 0 then some b else gcdLoopW fuel b r

/-- `gcd<word>`, src/lra/Long_fraction.h:542-556. -/
def gcdW (a b : Int) : Option Int :=
  if a = 0 then some b
  else if b = 0 then some a
  else if b > a then gcdLoopW (a.natAbs + 1) b a
  else gcdLoopW (b.natAbs + 1) a b

/-- `lcm<word>`, src/lra/Long_fraction.h:558-566. `none`: undefined behaviour in `gcd` or in the division. -/
def lcmW (a b : Int) : Option LF :=
  if a = 0 then some (ofWord 0)
  else if b = 0 then some (ofWord 0)
  else
    (gcdW a b).bind fun g =>
      if b > a then
        match i32 (Int.tdiv b g) with
        | .ok q => mul (ofWord q) (ofWord a)
        | _ => none
      else
        match i32 (Int.tdiv a g) with
        | .ok q => mul (ofWord q) (ofWord b)
        | _ => none

/-- `gcd` of objects, src/lra/Long_fraction.cpp:110-120. `none`: the assertion fails or the behaviour is
undefined. -/
def gcdLF (a b : LF) : Option LF :=
  if !(a.isInteger && b.isInteger) then none
  else if a.wv && b.wv then (gcdW a.num b.num).map ofWord
  else some (ofMpz (Int.gcd a.ensureMpq.q.n b.ensureMpq.q.n))

/-- `lcm` of objects, src/lra/Long_fraction.cpp:122-132. -/
def lcmLF (a b : LF) : Option LF :=
  if !(a.isInteger && b.isInteger) then none
  else if a.wv && b.wv then lcmW a.num b.num
  else some (ofMpz (Int.lcm a.ensureMpq.q.n b.ensureMpq.q.n))

/-- `get_den`, src/lra/Long_fraction.h:241-249. -/
def getDen (a : LF) : LF :=
  if a.wv && decide (a.den ≤ wmax) then ofUword a.den else ofMpz a.ensureMpq.q.d

/-- `get_num`, src/lra/Long_fraction.h:255-262. -/
def getNum (a : LF) : LF := if a.wv then ofWord a.num else ofMpz a.q.n

/-- `fastrat_fdiv_q`, src/lra/Long_fraction.cpp:142-162. `none`: the assertion fails, a division by zero, or
`quo` overflows. -/
def fdivQ (n d : LF) : Option LF :=
  if !(n.isInteger && d.isInteger) then none
  else if n.wv && d.wv && decide (n.num ≠ wmin) then
    if d.num = 0 then none
    else
      let quo := Int.tdiv n.num d.num
      match i32 (if Int.tmod n.num d.num ≠ 0 ∧ ((n.num < 0 ∧ d.num ≥ 0) ∨ (d.num < 0 ∧ n.num ≥ 0)) then quo - 1
        else quo) with
      | .ok q => some (ofWord q)
      | _ => none
  else if d.ensureMpq.q.n = 0 then none
  else some (ofMpz (Int.fdiv n.ensureMpq.q.n d.ensureMpq.q.n))

/-- `fastrat_round_to_int`, src/lra/Long_fraction.cpp:134-137. -/
def roundToInt (n : LF) : Option LF :=
  (make 1 2).bind fun h => (add n h).bind fun res => fdivQ res.getNum res.getDen

/-- `divexact`, src/lra/Long_fraction.cpp:165-187. `none`: an assertion fails, the quotient of words overflows, or the
division that GMP requires to be exact is not. -/
def divExact (n d : LF) : Option LF :=
  if eq d (ofWord 0) then none
  else if !(n.isInteger && d.isInteger) then none
  else if n.wv && d.wv then
    if d.num = 0 then none
    else
      match i32 (Int.tdiv n.num d.num) with
      | .ok q => some (ofWord q)
      | _ => none
  else if d.ensureMpq.q.n ∣ n.ensureMpq.q.n then some (ofMpz (Int.tdiv n.ensureMpq.q.n d.ensureMpq.q.n))
  else none

/-- `abs`, src/lra/Long_fraction.h:1069-1075. -/
def absLF (x : LF) : Option LF := if x.sign ≥ 0 then some x.copy else neg x

/-- `cmpabs`, src/lra/Long_fraction.h:569-576. -/
def cmpAbs (a b : LF) : Option Int :=
  (if a.sign = -1 then neg a else some a).bind fun a =>
    (if b.sign = -1 then neg b else some b).bind fun b => compare a b

/-- `operator<`, src/lra/Long_fraction.h:270. Simplification: undefined behaviour of `compare` is `false` here; C19 shows
that there is none. -/
def ltLF (a b : LF) : Bool :=
  match compare a b with
  | some i => decide (i < 0)
  | none => false

/-- The elements that `std::unique` keeps after `x`, src/lra/Long_fraction.cpp:203. -/
def uniqAfter : LF → List LF → List LF
  | _, [] => []
  | x, y :: rest => if eq x y then uniqAfter x rest else y :: uniqAfter y rest

/-- `std::unique` with `operator==`, src/lra/Long_fraction.cpp:203-204. -/
def uniqLF : List LF → List LF
  | [] => []
  | x :: rest => x :: uniqAfter x rest

/-- The loop of `get_multiplicand`, src/lra/Long_fraction.cpp:200-234; the list is reversed so that its head is the last
element of the vector. The first argument bounds the number of iterations (every one removes two elements). -/
def multLoop : Nat → List LF → LF → Option LF
  | 0, _, _ => none
  | fuel + 1, dens, mult =>
    match (uniqLF (sortBy ltLF dens)).reverse with
    | [] => some mult
    | [d] => mulA mult d
    | d1 :: d2 :: rest =>
      (lcmLF d1 d2).bind fun m =>
        (mulA mult m).bind fun mult =>
          (rest.reverse.mapM fun d => (div m d).map getDen).bind fun ns =>
            multLoop fuel (ns.filter fun n => !eq n (ofWord 1)) mult

/-- `get_multiplicand`, src/lra/Long_fraction.cpp:190-239. -/
def getMultiplicand (reals : List LF) : Option LF :=
  let dens := (reals.filter fun r => !r.isInteger).map getDen
  multLoop (dens.length + 1) dens (ofWord 1)

end LF
end Yaga
