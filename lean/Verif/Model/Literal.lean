/-
Model of `src/Variable.h`, `src/Literal.h`, `src/Literal_map.h` and `src/Clause.h`.
-/
import Mathlib.Data.Int.Basic
import Mathlib.Tactic.DeriveFintype

namespace Yaga

/-- `Variable::Type`, src/Variable.h:11-14. -/
inductive VType where
  | boolean
  | rational
  deriving DecidableEq, Repr

/-- Numeric value of the enumerators, src/Variable.h:12-13. -/
def VType.toNat : VType → Nat
  | .boolean => 0
  | .rational => 1

/-- `Variable`, src/Variable.h:9-65. Simplification: the ordinal (`int`) is a natural number;
the uninitialised default-constructed object (line 17) is not modelled. -/
structure Var where
  type : VType
  ord : Nat
  deriving DecidableEq, Repr

/-- The boolean variable with ordinal `n`. -/
abbrev Var.bool (n : Nat) : Var := ⟨.boolean, n⟩
/-- The rational variable with ordinal `n`. -/
abbrev Var.rat (n : Nat) : Var := ⟨.rational, n⟩

/-- `Variable::operator<=>` used as `<`, src/Variable.h:50-53: lexicographic on `(type, ord)`. -/
def Var.lt (a b : Var) : Bool :=
  decide (a.type.toNat < b.type.toNat) || (a.type.toNat == b.type.toNat && decide (a.ord < b.ord))

/-- `Literal`, src/Literal.h:16-96. The member `value` is `ordinal + 1`, negative for a negated
variable (line 89), hence never 0 for an object built by the constructor at line 31.
Simplification: unbounded integer instead of `int`. -/
structure Lit where
  value : Int
  ne : value ≠ 0
  deriving DecidableEq, Repr

namespace Lit

/-- `Literal(int var_ord)`, src/Literal.h:31-32. -/
def pos (ord : Nat) : Lit := ⟨(ord : Int) + 1, by omega⟩

/-- `operator~`, src/Literal.h:64-69 (and `negate`, line 73). -/
def neg (l : Lit) : Lit := ⟨-l.value, by have := l.ne; omega⟩

/-- Ordinal of `var()`: `abs(value) - 1`, src/Literal.h:79. -/
def ord (l : Lit) : Nat := l.value.natAbs - 1

/-- `var()`, src/Literal.h:79. -/
def var (l : Lit) : Var := ⟨.boolean, l.ord⟩

/-- `is_negation`, src/Literal.h:85. -/
def isNeg (l : Lit) : Bool := decide (l.value < 0)

/-- `index`, src/Literal.h:95; the same expression is `Literal_comparer::idx` (line 140) and
`Literal_map::index` (src/Literal_map.h:107-110). -/
def index (l : Lit) : Nat := l.ord * 2 + (if l.isNeg then 1 else 0)

/-- `operator<=>`, src/Literal.h:55-58: difference of the indices. -/
def cmp (a b : Lit) : Int := (a.index : Int) - (b.index : Int)

/-- `Literal_comparer::operator()`, src/Literal.h:137. -/
def lt (a b : Lit) : Bool := decide (a.index < b.index)

/-- The literal of variable `ord` that is true when the variable has value `b`:
`b ? Literal{ord} : ~Literal{ord}`, e.g. src/bool/Bool_theory.cpp:134-136. -/
def ofVal (ord : Nat) (b : Bool) : Lit := if b then pos ord else (pos ord).neg

end Lit

/-- `Clause`, src/Clause.h: a vector of literals. -/
abbrev Clause := List Lit

end Yaga
