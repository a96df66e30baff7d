/-
Model of `src/lra/Long_fraction.h` and `src/lra/Long_fraction.cpp`: rationals stored as a pair of
machine words and, when they do not fit, as a GMP rational.

Machine arithmetic is explicit. Signed operations whose result does not fit give undefined behaviour
(`R.ub`), unsigned operations wrap, conversions to signed types wrap (two's complement). `goto
overflow` is `R.ovf`. GMP is modelled by its contract: `mpq_add` etc. return the canonical form of the
exact result.
-/
import Mathlib.Data.Rat.Defs
import Mathlib.Algebra.Order.Field.Rat
import Mathlib.Data.Rat.Floor

namespace Yaga

/-- Outcome of a computation on machine words: a value, `goto overflow`, or undefined behaviour
(also `abort()`, src/lra/Long_fraction.h:614-615). -/
inductive R (α : Type) where
  | ok (a : α)
  | ovf
  | ub
  deriving DecidableEq

namespace R

/-- Sequencing. -/
def bind {α β : Type} : R α → (α → R β) → R β
  | ok a, f => f a
  | ovf, _ => ovf
  | ub, _ => ub

end R

instance : Monad R where
  pure := R.ok
  bind := R.bind

namespace LF

/-- `WORD_MIN`, src/lra/Long_fraction.h:32. -/
def wmin : Int := -2147483648
/-- `WORD_MAX`, src/lra/Long_fraction.h:33. -/
def wmax : Int := 2147483647
/-- `UWORD_MAX`, src/lra/Long_fraction.h:34. -/
def uwmax : Int := 4294967295
/-- `LWORD_MIN`, src/lra/Long_fraction.h:35. -/
def lmin : Int := -9223372036854775808
/-- `LWORD_MAX`, src/lra/Long_fraction.h:36. -/
def lmax : Int := 9223372036854775807

/-- Conversion to `word` (modulo 2^32). -/
def toWord (x : Int) : Int := Int.bmod x 4294967296
/-- Conversion to `uword`. -/
def toUword (x : Int) : Int := x % 4294967296
/-- Conversion to `lword` (modulo 2^64). -/
def toLword (x : Int) : Int := Int.bmod x 18446744073709551616
/-- Conversion to `ulword`; arithmetic of this type. -/
def toUlword (x : Int) : Int := x % 18446744073709551616

/-- Result of a signed 64-bit operation. -/
def i64 (x : Int) : R Int := if lmin ≤ x ∧ x ≤ lmax then .ok x else .ub

/-- Result of a signed 32-bit operation. -/
def i32 (x : Int) : R Int := if wmin ≤ x ∧ x ≤ wmax then .ok x else .ub

/-- `absVal(word)`, src/lra/Long_fraction.h:69-73. -/
def absW (x : Int) : Int := if x < 0 then toUword (-toUword x) else toUword x

/-- `absVal(lword)`, src/lra/Long_fraction.h:75-79. -/
def absL (x : Int) : Int := if x < 0 then toUlword (-toUlword x) else toUlword x

/-- The loop of `gcd`, src/lra/Long_fraction.h:554-559; `none` if the fuel is used up. -/
def gcdLoop : Nat → Int → Int → Option Int
  | 0, _, _ => none
  | fuel + 1, a, b =>
    let r := Int.tmod a b
    if r = 0 then some b else gcdLoop fuel b r

/-- `gcd<integer>`, src/lra/Long_fraction.h:546-560. Every iteration decreases the absolute value of
`b`. (`a % b` with `b = -1` and the least `a` is undefined for signed types and does not occur for
unsigned ones.) -/
def gcd (a b : Int) : Int :=
  if a = 0 then b
  else if b = 0 then a
  else if b > a then (gcdLoop (a.natAbs + 1) b a).getD 0
  else (gcdLoop (b.natAbs + 1) a b).getD 0

/-- `CHECK_WORD`, src/lra/Long_fraction.h:584-591; the value is converted to `lword` first. -/
def checkWord (v : Int) : R Int :=
  let tmp := toLword v
  if tmp < wmin ∨ tmp > wmax then .ovf else .ok tmp

/-- `CHECK_SUM_OVERFLOWS_LWORD`, src/lra/Long_fraction.h:594-602. -/
def checkSum (s1 s2 : Int) : R Int :=
  if s1 > 0 ∧ s2 > lmax - s1 then .ovf
  else if s1 < 0 ∧ s2 < lmin - s1 then .ovf
  else i64 (s1 + s2)

/-- `CHECK_SUB_OVERFLOWS_LWORD`, src/lra/Long_fraction.h:604-612. -/
def checkSub (s1 s2 : Int) : R Int :=
  if s1 ≥ 0 ∧ s2 < s1 - lmax then .ovf
  else if s1 < 0 ∧ s2 > (s1 + 1) + lmax then .ovf
  else i64 (s1 - s2)

/-- `CHECK_UWORD`, src/lra/Long_fraction.h:614-624; `abort()` for values below 1. -/
def checkUword (v : Int) : R Int :=
  if v < 1 then .ub
  else
    let tmp := toUlword v
    if tmp > uwmax then .ovf else .ok tmp

end LF

/-- `mpq_t`: numerator and denominator. -/
structure Mpq where
  n : Int
  d : Int
  deriving DecidableEq

namespace Mpq

/-- The number it denotes. -/
def val (p : Mpq) : ℚ := (p.n : ℚ) / (p.d : ℚ)

/-- Canonical form: the result of all GMP functions on rationals. -/
def ofRat (q : ℚ) : Mpq := ⟨q.num, q.den⟩

end Mpq

/-- An object of class `Long_fraction`, src/lra/Long_fraction.h:92-95: `wv` and `mv` are the bits 0
and 2 of `state`. Allocation of memory (bit 1, the pool) is not modelled. -/
structure LF where
  wv : Bool
  num : Int
  den : Int
  mv : Bool
  q : Mpq
  deriving DecidableEq

namespace LF

/-- An object with a word part only: `num`, `den` and `setOnlyWordPartValid`,
src/lra/Long_fraction.h:113-123. -/
def word (n d : Int) : LF := ⟨true, n, d, false, ⟨0, 1⟩⟩

/-- `Long_fraction(word)`, src/lra/Long_fraction.h:135. -/
def ofWord (n : Int) : LF := word n 1

/-- `ensure_mpq_valid`, src/lra/Long_fraction.h:168-178. -/
def ensureMpq (a : LF) : LF := if a.mv then a else { a with q := ⟨a.num, a.den⟩, mv := true }

/-- `fitsWord`, src/lra/Long_fraction.h:191-195. -/
def fitsWord (a : LF) : Bool :=
  decide (wmin ≤ a.q.n) && decide (a.q.n ≤ wmax) && decide (0 ≤ a.q.d) && decide (a.q.d ≤ uwmax)

/-- `try_fit_word`, src/lra/Long_fraction.h:201-209. -/
def tryFit (a : LF) : LF :=
  if a.fitsWord then { a with num := a.q.n, den := a.q.d, wv := true } else a

/-- An object whose value was written by GMP: `state = MPQ_ALLOCATED_AND_VALID; try_fit_word()`. The
old word part stays in place. -/
def ofMpq (dst : LF) (p : Mpq) : LF := tryFit { dst with wv := false, mv := true, q := p }

/-- `setOnlyWordPartValid` after `num` and `den` were written. -/
def setWord (dst : LF) (n d : Int) : LF := { dst with num := n, den := d, wv := true, mv := false }

/-- Common end of the arithmetic functions: the word result, or after the label `overflow` the GMP
operation `f` on the two operands. `none` is undefined behaviour. -/
def finish (dst a b : LF) (f : ℚ → ℚ → ℚ) : R (Int × Int) → Option LF
  | .ok (n, d) => some (dst.setWord n d)
  | .ovf => some (dst.ofMpq (.ofRat (f a.ensureMpq.q.val b.ensureMpq.q.val)))
  | .ub => none

/-- End of `addition` and `substraction`, src/lra/Long_fraction.h:698-709 and 766-777; `common` is a
`uword`. -/
def reduceW (n d : Int) : R (Int × Int) := do
  let common := toUword (gcd (absL n) d)
  if common ≠ 1 then
    if common = 0 then .ub   -- division by zero
    else do
      let zn ← checkWord (Int.tdiv n common)
      let zd ← checkUword (d / common)
      pure (zn, zd)
  else do
    let zn ← checkWord n
    let zd ← checkUword d
    pure (zn, zd)

/-- Fast path of `addition`, src/lra/Long_fraction.h:662-714. -/
def addFast (a b : LF) : R (Int × Int) :=
  if b.num = 0 then .ok (a.num, a.den)
  else if a.num = 0 then .ok (b.num, b.den)
  else if a.den = b.den ∧ b.num > wmin ∧ a.num = -b.num then .ok (0, 1)
  else if b.den = 1 then do
    let m ← i64 (b.num * a.den)
    let t ← i64 (a.num + m)
    let n ← checkWord t
    pure (n, a.den)
  else if a.den = 1 then do
    let m ← i64 (a.num * b.den)
    let t ← i64 (b.num + m)
    let n ← checkWord t
    pure (n, b.den)
  else do
    let common := gcd a.den b.den
    let n1 ← i64 (a.num * (if common ≠ 1 then b.den / common else b.den))
    let n2 ← i64 (b.num * (if common ≠ 1 then a.den / common else a.den))
    let n ← checkSum n1 n2
    let d := toUlword (a.den * (b.den / common))
    reduceW n d

/-- `addition`, src/lra/Long_fraction.h:662-722, and `operator+`, lines 327-335, which calls it with
a new object. -/
def add (a b : LF) : Option LF :=
  finish (ofWord 0) a b (· + ·) (if a.wv && b.wv then addFast a b else .ovf)

/-- Fast path of `substraction`, src/lra/Long_fraction.h:724-778. -/
def subFast (a b : LF) : R (Int × Int) :=
  if b.num = 0 then .ok (a.num, a.den)
  else if a.num = 0 then do
    let n ← checkWord (-b.num)
    pure (n, b.den)
  else if a.den = b.den ∧ a.num = b.num then .ok (0, 1)
  else if b.den = 1 then do
    let m ← i64 (b.num * a.den)
    let t ← i64 (a.num - m)
    let n ← checkWord t
    pure (n, a.den)
  else if a.den = 1 then do
    let m ← i64 (a.num * b.den)
    let t ← i64 (m - b.num)
    let n ← checkWord t
    pure (n, b.den)
  else do
    let common := gcd a.den b.den
    if common ≠ 1 then do
      let n1 ← i64 (a.num * (b.den / common))
      let n2 ← i64 (b.num * (a.den / common))
      let n ← i64 (n1 - n2)
      let d := toUlword (a.den * (b.den / common))
      reduceW n d
    else do
      let n1 ← i64 (a.num * b.den)
      let n2 ← i64 (b.num * a.den)
      let n ← checkSub n1 n2
      let d := toUlword (a.den * b.den)
      reduceW n d

/-- `substraction`, src/lra/Long_fraction.h:724-790, and `operator-`, lines 336-344. -/
def sub (a b : LF) : Option LF :=
  finish (ofWord 0) a b (· - ·) (if a.wv && b.wv then subFast a b else .ovf)

/-- Fast path of `multiplication`, src/lra/Long_fraction.h:808-832. -/
def mulFast (a b : LF) : R (Int × Int) := do
  let common1 := gcd (absW a.num) b.den
  let common2 := gcd a.den (absW b.num)
  let k1 := if common1 > 1 then Int.tdiv a.num common1 else a.num
  let k4 := if common1 > 1 then b.den / common1 else b.den
  let k2 := if common2 > 1 then Int.tdiv b.num common2 else b.num
  let k3 := if common2 > 1 then a.den / common2 else a.den
  let m ← i64 (k1 * k2)
  let zn ← checkWord m
  let zd ← checkUword (toUlword (k3 * k4))
  pure (zn, zd)

/-- Assignment `dst = a`, src/lra/Long_fraction.h:465-480. -/
def assign (dst a : LF) : LF :=
  if a.wv then dst.setWord a.num a.den else { dst with wv := false, mv := true, q := a.q }

/-- `multiplication`, src/lra/Long_fraction.h:792-841, and `operator*`, lines 345-353. -/
def mul (a b : LF) : Option LF :=
  let dst := ofWord 0
  if (a.wv && decide (a.num = 0)) || (b.wv && decide (b.num = 0)) then some (dst.setWord 0 1)
  else if a.wv && decide (a.num = 1) && decide (a.den = 1) then some (dst.assign b)
  else if b.wv && decide (b.num = 1) && decide (b.den = 1) then some (dst.assign a)
  else finish dst a b (· * ·) (if a.wv && b.wv then mulFast a b else .ovf)

/-- Sign of a product or quotient, src/lra/Long_fraction.h:866-874, 982-989, 1014-1021. -/
def flip (an bn zn : Int) : Int :=
  if (bn < 0 ∧ an ≥ 0) ∨ (bn > 0 ∧ an ≤ 0) then -zn else zn

/-- Fast path of `division`, src/lra/Long_fraction.h:859-880, and of `divisionAssign`, lines
1007-1027. The divisor of the first quotients is
`gcd` of the absolute values; division by zero is undefined. -/
def divFast (a b : LF) : R (Int × Int) := do
  let common1 := gcd (absW a.num) (absW b.num)
  let common2 := gcd a.den b.den
  if common1 = 0 ∨ common2 = 0 then .ub
  else do
    let zn ← checkWord (toUlword ((absW a.num / common1) * (b.den / common2)))
    let zd ← checkUword (toUlword ((absW b.num / common1) * (a.den / common2)))
    pure (flip a.num b.num zn, zd)

/-- `division`, src/lra/Long_fraction.h:843-889, and `operator/`, lines 354-362. GMP aborts on a
division by zero. -/
def div (a b : LF) : Option LF :=
  let dst := ofWord 0
  if b.wv && decide (b.num = 1) && decide (b.den = 1) then some (dst.assign a)
  else if a.wv && decide (a.num = 0) then some (ofWord 0)
  else if a.wv && b.wv then
    if a.num = b.num ∧ a.den = b.den then some (dst.setWord 1 1)
    else
      match divFast a b with
      | .ovf => if b.ensureMpq.q.n = 0 then none else finish dst a b (· / ·) .ovf
      | r => finish dst a b (· / ·) r
  else if b.ensureMpq.q.n = 0 then none
  else finish dst a b (· / ·) .ovf

/-- End of `additionAssign`, src/lra/Long_fraction.h:915-926, and of `substractionAssign`, lines
948-959. `common` is an `lword` in the first (`toC = toLword`) and a `uword` in the second. -/
def reduceA (toC : Int → Int) (n d : Int) : R (Int × Int) := do
  let common := toC (gcd (absL n) d)
  if common > 1 then do
    let q ← i64 (Int.tdiv n common)
    let zn ← checkWord q
    let zd ← checkUword (d / common)
    pure (zn, zd)
  else do
    let zn ← checkWord n
    let zd ← checkUword d
    pure (zn, zd)

/-- Fast path of `additionAssign`, src/lra/Long_fraction.h:903-930, for `b.num ≠ 0`. -/
def addAFast (a b : LF) : R (Int × Int) :=
  if b.den = 1 then do
    let m ← i64 (b.num * a.den)
    let t ← i64 (a.num + m)
    let n ← checkWord t
    pure (n, a.den)
  else if a.num = 0 then .ok (b.num, b.den)
  else do
    let c1 ← i64 (a.num * b.den)
    let c2 ← i64 (b.num * a.den)
    let n ← checkSum c1 c2
    let d := toUlword (a.den * b.den)
    reduceA toLword n d

/-- `additionAssign`, src/lra/Long_fraction.h:900-939, `operator+=`: the new value of `a`. -/
def addA (a b : LF) : Option LF :=
  if b.wv && decide (b.num = 0) then some a
  else finish a a b (· + ·) (if b.wv && a.wv then addAFast a b else .ovf)

/-- Fast path of `substractionAssign`, src/lra/Long_fraction.h:942-962. -/
def subAFast (a b : LF) : R (Int × Int) := do
  let common := gcd a.den b.den
  let m1 ← i64 (a.num * (b.den / common))
  let n1 ← checkWord m1
  let m2 ← i64 (b.num * (a.den / common))
  let n2 ← checkWord m2
  let n ← i64 (n1 - n2)
  let d := toUlword (a.den * (b.den / common))
  reduceA toUword n d

/-- `substractionAssign`, src/lra/Long_fraction.h:941-970, `operator-=`. -/
def subA (a b : LF) : Option LF :=
  finish a a b (· - ·) (if a.wv && b.wv then subAFast a b else .ovf)

/-- Fast path of `multiplicationAssign`, src/lra/Long_fraction.h:973-999. -/
def mulAFast (a b : LF) : R (Int × Int) := do
  let common1 := gcd (absW a.num) b.den
  let common2 := gcd a.den (absW b.num)
  let x := if common1 > 1 then absW a.num / common1 else absW a.num
  let y := if common2 > 1 then absW b.num / common2 else absW b.num
  let m ← i64 (x * y)
  let zn ← checkWord m
  let x' := if common2 > 1 then a.den / common2 else a.den
  let y' := if common1 > 1 then b.den / common1 else b.den
  let zd ← checkUword (toUlword (x' * y'))
  pure (flip a.num b.num zn, zd)

/-- `multiplicationAssign`, src/lra/Long_fraction.h:972-1003, `operator*=`. -/
def mulA (a b : LF) : Option LF :=
  finish a a b (· * ·) (if a.wv && b.wv then mulAFast a b else .ovf)

/-- `divisionAssign`, src/lra/Long_fraction.h:1005-1035, `operator/=`. -/
def divA (a b : LF) : Option LF :=
  match (if a.wv && b.wv then divFast a b else .ovf) with
  | .ovf => if b.ensureMpq.q.n = 0 then none else finish a a b (· / ·) .ovf
  | r => finish a a b (· / ·) r

/-- `Long_fraction(word n, uword d)`, src/lra/Long_fraction.h:645-660. In `n / common` the numerator
is converted to `uword`. `none`: the assertion `d > 0` fails. -/
def make (n d : Int) : Option LF :=
  if d ≤ 0 then none
  else if n = 0 then some (word 0 1)
  else
    let common := gcd (absW n) d
    if common > 1 then some (word (toWord (toUword n / common)) (d / common))
    else some (word n d)

/-- Unary `operator-`, src/lra/Long_fraction.h:491-503. -/
def neg (a : LF) : Option LF :=
  if a.wv && decide (a.num > wmin) then make (-a.num) a.den
  else some ((ofWord 0).ofMpq ⟨-a.ensureMpq.q.n, a.ensureMpq.q.d⟩)

/-- `negate`, src/lra/Long_fraction.h:505-517: the new value of the object. -/
def negate (a : LF) : LF :=
  if a.wv && decide (a.num > wmin) then { a with num := -a.num, mv := false }
  else a.ofMpq ⟨-a.ensureMpq.q.n, a.ensureMpq.q.d⟩

/-- `compare(lword, lword)`, src/lra/Long_fraction.h:223-227. -/
def cmpL (a b : Int) : Int := if a < b then -1 else if a > b then 1 else 0

/-- `compare`, src/lra/Long_fraction.h:519-530; `mpq_cmp` returns the sign of the difference. -/
def compare (a b : LF) : Option Int :=
  if a.wv && b.wv then
    if b.den = a.den then some (cmpL a.num b.num)
    else
      match i64 (a.num * b.den), i64 (b.num * a.den) with
      | .ok x, .ok y => some (cmpL x y)
      | _, _ => none
  else
    let x := a.ensureMpq.q.val
    let y := b.ensureMpq.q.val
    some (if x < y then -1 else if x > y then 1 else 0)

/-- `operator==`, src/lra/Long_fraction.h:482-489; `mpq_equal` compares the parts. -/
def eq (a b : LF) : Bool :=
  if a.wv && b.wv then decide (a.num = b.num) && decide (a.den = b.den)
  else decide (a.ensureMpq.q = b.ensureMpq.q)

/-- `sign`, src/lra/Long_fraction.h:532-544. -/
def sign (a : LF) : Int :=
  if a.wv then if a.num < 0 then -1 else if a.num > 0 then 1 else 0
  else if a.q.n < 0 then -1 else if a.q.n > 0 then 1 else 0

/-- `isZero`, src/lra/Long_fraction.h:397-400. -/
def isZero (a : LF) : Bool := a.wv && decide (a.num = 0)

/-- `isOne`, src/lra/Long_fraction.h:402-405. -/
def isOne (a : LF) : Bool := a.wv && decide (a.num = 1) && decide (a.den = 1)

/-- `getHashValue`, src/lra/Long_fraction.h:279-296; `limbs` gives the limbs that the loops visit (none
for a negative number, because `_mp_size` is negative then). -/
def hash (limbs : Int → List Nat) (a : LF) : Int :=
  if a.wv then toUword (37 * toUword a.num + 13 * toUword a.den)
  else
    let h (l : List Nat) : Nat :=
      l.foldl (fun h x => ((h * 16777619 % 4294967296) ^^^ (x % 4294967296)) % 4294967296) 2166136261
    toUword (h (limbs a.q.n) + h (limbs a.q.d))

/-- Copy constructor, src/lra/Long_fraction.h:444-456. -/
def copy (a : LF) : LF := if a.wv then word a.num a.den else ⟨false, 0, 1, true, a.q⟩

/-- `Long_fraction(const char*)`, src/lra/Long_fraction.cpp:35-44: `mpq_set_str` and
`mpq_canonicalize` produce the canonical form of the rational that the string denotes. -/
def ofString (r : ℚ) : LF :=
  let a := (ofWord 0).ofMpq (.ofRat r)
  if a.wv then word a.num a.den else a

/-- `isInteger`, src/lra/Long_fraction.h:298-305. -/
def isInteger (a : LF) : Bool :=
  if a.wv then decide (a.den = 1)
  else decide (0 ≤ a.q.d) && decide (a.q.d ≤ uwmax) && decide (a.q.d = 1)

/-- `Long_fraction(mpz_t)`, src/lra/Long_fraction.cpp:46-57. -/
def ofMpz (z : Int) : LF :=
  if wmin ≤ z ∧ z ≤ wmax then word z 1 else ⟨false, 0, 1, true, ⟨z, 1⟩⟩

/-- `Long_fraction(uint32_t)`, src/lra/Long_fraction.cpp:59-69. -/
def ofUword (x : Int) : LF := if x > wmax then ⟨false, 0, 1, true, ⟨x, 1⟩⟩ else word x 1

/-- `ceil`, src/lra/Long_fraction.h:306-320. -/
def ceil (a : LF) : Option LF :=
  if a.isInteger then some a.copy
  else if a.wv then
    let ret := toWord (absW a.num / a.den)
    match i32 (if a.num < 0 then -ret else ret + 1) with
    | .ok r => some (ofWord r)
    | _ => none
  else some (ofMpz (⌈a.q.val⌉))

/-- `floor`, src/lra/Long_fraction.h:321-325. -/
def floor (a : LF) : Option LF :=
  if a.isInteger then some a.copy
  else
    match a.ceil with
    | some c => sub c (ofWord 1)
    | none => none

/-- `inverse`, src/lra/Long_fraction.h:1042-1067. `mpq_inv` aborts on zero. -/
def inverse (a : LF) : Option LF :=
  let fast : R (Int × Int) :=
    if a.wv then
      if a.num = 0 then .ub   -- assert(num != 0)
      else if a.num > 0 then do
        let zn ← checkWord a.den
        let zd ← checkUword a.num
        pure (zn, zd)
      else do
        let zn ← checkWord (-a.den)
        let zd ← checkUword (-a.num)
        pure (zn, zd)
    else if a.q.n = 0 then .ub
    else .ovf
  finish (ofWord 0) a a (fun x _ => x⁻¹) fast

/-- `inv`, src/lra/Long_fraction.h:421-427: it reads the word part in any state. `-den` is unsigned;
`-num` is undefined for the least word. -/
def inv (a : LF) : Option LF :=
  if a.sign ≥ 0 then make (toWord a.den) (toUword a.num)
  else
    match i32 (-a.num) with
    | .ok m => make (toWord (toUword (-a.den))) (toUword m)
    | _ => none

/-- `operator%`, src/lra/Long_fraction.h:408-419. -/
def mod (a d : LF) : Option LF :=
  if !(a.isInteger && d.isInteger) then none
  else if a.wv && d.wv then
    if d.num = 0 ∨ (a.num = wmin ∧ d.num = -1) then none
    else
      let w := absW (Int.tmod a.num d.num)
      some (ofWord (toWord (if d.num > 0 then w else toUword (-w))))
  else do
    let r ← div a d
    let r ← floor r
    let m ← mul r d
    sub a m

end LF
end Yaga
