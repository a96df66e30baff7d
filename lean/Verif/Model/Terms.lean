/-
Model of the term table with hash-consing: `src/terms/Term_types.h`, `src/terms/Terms.{h,cpp}` and
`src/terms/Term_hash_table.{h,cpp}`. The tables of names (src/terms/Terms.h:150-154) are not part of it.
-/
import Mathlib.Data.Rat.Defs
import Mathlib.Algebra.Order.Field.Rat

namespace Yaga

/-- `term_t`, src/terms/Term_types.h:24-29. Simplification: an unbounded natural number instead of
`int32_t`; the value -1 (`Undef`) only occurs as the variable of a constant monomial and is modelled
there. -/
structure Tm where
  x : Nat
  deriving DecidableEq, Repr

namespace Tm

/-- `index_of`, src/terms/Terms.h:82. -/
def index (t : Tm) : Nat := t.x / 2

/-- `is_negated`, src/terms/Terms.h:88. -/
def isNeg (t : Tm) : Bool := decide (t.x % 2 = 1)

/-- `opposite_term`, src/terms/Terms.h:94: `x ^ 1`. -/
def opp (t : Tm) : Tm := if t.x % 2 = 0 then ⟨t.x + 1⟩ else ⟨t.x - 1⟩

/-- `positive_term(int32_t)`, src/terms/Terms.h:100. -/
def positive (i : Nat) : Tm := ⟨i * 2⟩

/-- `positive_term(term_t)`, src/terms/Terms.h:106. -/
def pos (t : Tm) : Tm := positive t.index

/-- `operator<=>` of `term_t` used as `<`, src/terms/Term_types.h:28. -/
def lt (a b : Tm) : Bool := decide (a.x < b.x)

/-- `true_term`, src/terms/Term_types.h:43. -/
def tt : Tm := ⟨2⟩

/-- `false_term`, src/terms/Term_types.h:44. -/
def ff : Tm := ⟨3⟩

/-- `zero_term`, src/terms/Term_types.h:45. -/
def zero : Tm := ⟨4⟩

end Tm

/-- `types`, src/terms/Term_types.h:34-39. -/
inductive Ty where
  | null
  | bool
  | real
  deriving DecidableEq, Repr

/-- `Kind`, src/terms/Term_types.h:53-87, without the enumerators that no function creates
(`UNUSED_TERM`, `EQ_TERM`, `DISTINCT_TERM`, `XOR_TERM`). -/
inductive Kind where
  | reserved
  | constant
  | arithConst
  | uninterpreted
  | ite
  | app
  | or
  | arithEq
  | arithGe
  | arithBinEq
  | product
  | poly
  deriving DecidableEq, Repr

/-- `term_descriptor_t` and its subclasses, src/terms/Terms.h:22-74; `none` is `nullptr`. -/
inductive Descr where
  | none
  | comp (args : List Tm)
  | rat (q : ℚ)
  | const (index : Nat)
  deriving DecidableEq

/-- `Term_table::Term`, src/terms/Terms.h:133-137. -/
structure TEntry where
  kind : Kind
  type : Ty
  descr : Descr
  deriving DecidableEq

/-- `inner_table` and `known_terms`, src/terms/Terms.h:144-148. The entries of the hash set
(`Term_hash_table::Entry`, src/terms/Term_hash_table.h:59-62) are listed in the order of insertion. -/
structure TermTable where
  terms : List TEntry
  known : List (Nat × Tm)
  deriving DecidableEq

/-- The hash functions, src/terms/Terms.cpp:7-29. No theorem depends on what they compute. -/
structure TermHash where
  comp : Kind → List Tm → Nat
  const : Ty → Nat → Nat
  rat : ℚ → Nat

namespace TermTable

/-- `inner_table[index_of(t)]`. -/
def entry (s : TermTable) (t : Tm) : Option TEntry := s.terms[t.index]?

/-- `get_kind`, src/terms/Terms.cpp:62. Simplification: `reserved` out of range. -/
def kind (s : TermTable) (t : Tm) : Kind := ((s.entry t).map TEntry.kind).getD .reserved

/-- `get_type`, src/terms/Terms.cpp:64. Simplification: `null` out of range. -/
def type (s : TermTable) (t : Tm) : Ty := ((s.entry t).map TEntry.type).getD .null

/-- `get_descriptor`, src/terms/Terms.cpp:66. -/
def descr (s : TermTable) (t : Tm) : Descr := ((s.entry t).map TEntry.descr).getD .none

/-- The arguments in the descriptor of a composite term (`composite_term_descriptor_t::args`,
src/terms/Terms.h:42). -/
def allArgs (s : TermTable) (t : Tm) : List Tm :=
  match s.descr t with
  | .comp as => as
  | _ => []

/-- `get_args`, src/terms/Terms.cpp:307-328: the function symbol of an application is left out. -/
def args (s : TermTable) (t : Tm) : List Tm :=
  if s.kind t = .app then (s.allArgs t).drop 1 else s.allArgs t

/-- `get_fnc_symbol`, src/terms/Terms.cpp:297-305. -/
def fncSymbol (s : TermTable) (t : Tm) : Tm := (s.allArgs t).headD Tm.tt

/-- `arithmetic_constant_value`, src/terms/Terms.cpp:242-247. -/
def constValue (s : TermTable) (t : Tm) : ℚ :=
  match s.descr t with
  | .rat q => q
  | _ => 0

/-- `is_arithmetic_constant`, src/terms/Terms.cpp:237-240. -/
def isArithConst (s : TermTable) (t : Tm) : Bool := decide (s.kind t = .arithConst)

/-- `var_of_product`, src/terms/Terms.cpp:274-280. -/
def varOfProduct (s : TermTable) (t : Tm) : Tm := (s.allArgs t).getD 1 Tm.tt

/-- `coeff_of_product`, src/terms/Terms.cpp:282-288. -/
def coeffOfProduct (s : TermTable) (t : Tm) : ℚ := s.constValue ((s.allArgs t).getD 0 Tm.tt)

/-- `push_back` to `inner_table`; the handle is the positive term with the new index,
src/terms/Terms.cpp:68-98. -/
def construct (s : TermTable) (e : TEntry) : TermTable × Tm :=
  ({ s with terms := s.terms ++ [e] }, Tm.positive s.terms.length)

/-- `get_composite_term`, `get_rational_term` and `get_constant_term`,
src/terms/Term_hash_table.cpp:9-46, with `KeyEqual`, lines 48-107. The three functions differ in the
descriptor only: kind and type are compared first, and then the contents of the descriptors. -/
def get (s : TermTable) (hash : Nat) (e : TEntry) : TermTable × Tm :=
  match s.known.find? (fun k => k.1 == hash && decide (s.entry k.2 = some e)) with
  | some k => (s, k.2)
  | none =>
    let r := s.construct e
    ({ r.1 with known := r.1.known ++ [(hash, r.2)] }, r.2)

variable (H : TermHash)

/-- A composite term: the proxies of `Term_table`, src/terms/Terms.cpp:126-194, with
`get_composite_term`. -/
def composite (s : TermTable) (k : Kind) (ty : Ty) (as : List Tm) : TermTable × Tm :=
  s.get (H.comp k as) ⟨k, ty, .comp as⟩

/-- `constant_term`, src/terms/Terms.cpp:114-118. -/
def constantTerm (s : TermTable) (ty : Ty) (i : Nat) : TermTable × Tm :=
  s.get (H.const ty i) ⟨.constant, ty, .const i⟩

/-- `arithmetic_constant`, src/terms/Terms.cpp:120-124. -/
def arithConstant (s : TermTable) (q : ℚ) : TermTable × Tm :=
  s.get (H.rat q) ⟨.arithConst, .real, .rat q⟩

/-- `or_term`, src/terms/Terms.cpp:126-130. -/
def orTerm (s : TermTable) (as : List Tm) : TermTable × Tm := s.composite H .or .bool as

/-- `arithmetic_product`, src/terms/Terms.cpp:132-141. -/
def arithProduct (s : TermTable) (c : ℚ) (x : Tm) : TermTable × Tm :=
  let r := s.arithConstant H c
  r.1.composite H .product .real [r.2, x]

/-- `arithmetic_polynomial`, src/terms/Terms.cpp:143-148. -/
def arithPoly (s : TermTable) (as : List Tm) : TermTable × Tm := s.composite H .poly .real as

/-- `arithmetic_geq_zero`, src/terms/Terms.cpp:150-156. -/
def geqZero (s : TermTable) (t : Tm) : TermTable × Tm := s.composite H .arithGe .bool [t]

/-- `arithmetic_eq_zero`, src/terms/Terms.cpp:158-164. -/
def eqZero (s : TermTable) (t : Tm) : TermTable × Tm := s.composite H .arithEq .bool [t]

/-- `arithmetic_binary_eq`, src/terms/Terms.cpp:166-175. -/
def binEq (s : TermTable) (a b : Tm) : TermTable × Tm := s.composite H .arithBinEq .bool [a, b]

/-- `arithmetic_ite`, src/terms/Terms.cpp:177-185. -/
def arithIte (s : TermTable) (c t e : Tm) : TermTable × Tm := s.composite H .ite .real [c, t, e]

/-- `app_term`, src/terms/Terms.cpp:187-190; the first argument is the function symbol. -/
def appTerm (s : TermTable) (ty : Ty) (as : List Tm) : TermTable × Tm := s.composite H .app ty as

/-- `new_uninterpreted_constant`, src/terms/Terms.cpp:196-200: always a new term, not entered into the
hash table. -/
def fresh (s : TermTable) (ty : Ty) : TermTable × Tm := s.construct ⟨.uninterpreted, ty, .none⟩

/-- `Term_table()` with `add_primitive_terms`, src/terms/Terms.cpp:31-34 and 100-112. -/
def init : TermTable :=
  let s0 : TermTable := ⟨[⟨.reserved, .null, .none⟩], []⟩
  let s1 := (s0.constantTerm H .bool 0).1
  (s1.arithConstant H 0).1

end TermTable

/-- The constructions offered by `Term_table`, src/terms/Terms.h:214-302. -/
inductive TermOp where
  | or (as : List Tm)
  | constant (ty : Ty) (i : Nat)
  | rational (q : ℚ)
  | product (c : ℚ) (x : Tm)
  | poly (as : List Tm)
  | geqZero (t : Tm)
  | eqZero (t : Tm)
  | binEq (a b : Tm)
  | ite (c t e : Tm)
  | app (ty : Ty) (as : List Tm)
  | fresh (ty : Ty)
  deriving DecidableEq

/-- Effect and result of a construction. -/
def TermOp.run (H : TermHash) (s : TermTable) : TermOp → TermTable × Tm
  | .or as => s.orTerm H as
  | .constant ty i => s.constantTerm H ty i
  | .rational q => s.arithConstant H q
  | .product c x => s.arithProduct H c x
  | .poly as => s.arithPoly H as
  | .geqZero t => s.geqZero H t
  | .eqZero t => s.eqZero H t
  | .binEq a b => s.binEq H a b
  | .ite c t e => s.arithIte H c t e
  | .app ty as => s.appTerm H ty as
  | .fresh ty => s.fresh ty

/-- The table after a sequence of constructions. -/
def TermTable.after (H : TermHash) (s : TermTable) (ops : List TermOp) : TermTable :=
  ops.foldl (fun s op => (op.run H s).1) s

end Yaga
