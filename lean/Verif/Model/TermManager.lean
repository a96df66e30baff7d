/-
Model of `src/terms/Term_manager.cpp`: construction of terms with simplification.

Functions return the new table with the term. `none` is a failed assertion, an exception or undefined
behaviour. Assertions about the types of arguments are preconditions of the theorems.
-/
import Verif.Model.ArithPoly
import Verif.Model.Std

namespace Yaga
namespace TermTable

variable (H : TermHash)

/-! ### Boolean terms -/

/-- The loop of `mk_or`, src/terms/Term_manager.cpp:321-330. `acc` is the part of the span written so far
(`args[0 .. simplified_args_count)`), `none` is `return true_term`. -/
def orLoop : List Tm → Tm → List Tm → Option (List Tm × Tm)
  | [], prev, acc => some (acc, prev)
  | c :: cs, prev, acc =>
    if prev ≠ c then
      if c = prev.opp then none else orLoop cs c (acc ++ [c])
    else orLoop cs prev acc

/-- `mk_or`, src/terms/Term_manager.cpp:312-334. -/
def mkOr (s : TermTable) (args : List Tm) : TermTable × Tm :=
  match sortBy Tm.lt args with
  | [] => (s, Tm.ff)
  | first :: rest =>
    if first = Tm.tt then (s, Tm.tt)
    else
      match orLoop rest first (if first = Tm.ff then [] else [first]) with
      | none => (s, Tm.tt)
      | some (acc, prev) => if acc.length ≤ 1 then (s, prev) else s.orTerm H acc

/-- `mk_and`, src/terms/Term_manager.cpp:336-343. -/
def mkAnd (s : TermTable) (args : List Tm) : TermTable × Tm :=
  let r := s.mkOr H (args.map Tm.opp)
  (r.1, r.2.opp)

/-- `mk_binary_or`, src/terms/Term_manager.cpp:345-357. -/
def mkBinaryOr (s : TermTable) (x y : Tm) : TermTable × Tm :=
  if x = y then (s, x)
  else if x = Tm.tt then (s, x)
  else if y = Tm.tt then (s, y)
  else if x = Tm.ff then (s, y)
  else if y = Tm.ff then (s, x)
  else if x.opp = y then (s, Tm.tt)
  else s.orTerm H (if Tm.lt y x then [y, x] else [x, y])

/-- `mk_binary_and`, src/terms/Term_manager.cpp:359-362. -/
def mkBinaryAnd (s : TermTable) (x y : Tm) : TermTable × Tm :=
  let r := s.mkBinaryOr H x.opp y.opp
  (r.1, r.2.opp)

/-- `mk_implies`, src/terms/Term_manager.cpp:364-366. -/
def mkImplies (s : TermTable) (x y : Tm) : TermTable × Tm := s.mkBinaryOr H x.opp y

/-- `mk_iff`, src/terms/Term_manager.cpp:368-372. (The order in which the two arguments of
`mk_binary_and` are evaluated is unspecified; it only affects the numbering of new terms.) -/
def mkIff (s : TermTable) (a b : Tm) : TermTable × Tm :=
  let r := s.mkImplies H a b
  let r2 := r.1.mkImplies H b a
  r2.1.mkBinaryAnd H r.2 r2.2

/-- `mk_xor`, src/terms/Term_manager.cpp:374-378. -/
def mkXor (s : TermTable) (a b : Tm) : TermTable × Tm :=
  let r := s.mkBinaryOr H a b
  let r2 := r.1.mkBinaryAnd H a b
  r2.1.mkBinaryAnd H r.2 r2.2.opp

/-- The end of `mk_bool_ite`, src/terms/Term_manager.cpp:737-743, after the simplifications. -/
def mkBoolIteGeneral (s : TermTable) (c t e : Tm) : TermTable × Tm :=
  let c' := if c.isNeg then c.opp else c
  let t' := if c.isNeg then e else t
  let e' := if c.isNeg then t else e
  let r := s.mkImplies H c' t'
  let r2 := r.1.mkImplies H c'.opp e'
  r2.1.mkBinaryAnd H r.2 r2.2

/-- `mk_bool_ite`, src/terms/Term_manager.cpp:719-745. -/
def mkBoolIte (s : TermTable) (c t e : Tm) : TermTable × Tm :=
  if t = e then (s, t)
  else if c = Tm.tt then (s, t)
  else if c = Tm.ff then (s, e)
  else if t = e.opp then s.mkIff H c t
  else if c = t then s.mkBinaryOr H t e
  else if c = e then s.mkBinaryAnd H e t
  else if c = t.opp then s.mkBinaryAnd H t e
  else if c = e.opp then s.mkBinaryOr H e t
  else if t = Tm.tt then s.mkBinaryOr H c e
  else if t = Tm.ff then s.mkBinaryAnd H c.opp e
  else if e = Tm.ff then s.mkBinaryAnd H c t
  else if e = Tm.tt then s.mkBinaryOr H c.opp t
  else s.mkBoolIteGeneral H c t e

/-! ### Arithmetic terms -/

/-- `term_to_poly`, src/terms/Term_manager.cpp:529-561. The recursion for the monomials of a polynomial
is bounded by `fuel`; it has depth 2 because the children of a polynomial are monomials. `none` is the
failed assertion at line 559. -/
def termToPoly (s : TermTable) : Nat → Tm → Option APoly
  | 0, _ => none
  | fuel + 1, t =>
    match s.kind t with
    | .arithConst => some (if t ≠ Tm.zero then [(none, s.constValue t)] else [])
    | .uninterpreted | .ite | .app => some [(some t, 1)]
    | .product => some [(some (s.varOfProduct t), s.coeffOfProduct t)]
    | .poly => (s.allArgs t).foldl
        (fun acc c => acc.bind fun p => (termToPoly s fuel c).map fun q => APoly.merge p q 1) (some [])
    | _ => none

/-- `term_to_poly` with enough fuel. -/
def toPoly (s : TermTable) (t : Tm) : Option APoly := s.termToPoly 2 t

/-- The lambda `monomial_to_term` of `poly_to_term`, src/terms/Term_manager.cpp:568-579. -/
def monoToTerm (s : TermTable) (m : Option Tm × ℚ) : TermTable × Tm :=
  match m.1 with
  | none => s.arithConstant H m.2
  | some x => if m.2 = 1 then (s, x) else s.arithProduct H m.2 x

/-- The loop of `poly_to_term`, src/terms/Term_manager.cpp:587-592. -/
def monosToTerms (s : TermTable) : APoly → TermTable × List Tm
  | [] => (s, [])
  | m :: ms =>
    let r := s.monoToTerm H m
    let r2 := monosToTerms r.1 ms
    (r2.1, r.2 :: r2.2)

/-- `poly_to_term`, src/terms/Term_manager.cpp:563-594. -/
def polyToTerm (s : TermTable) (p : APoly) : TermTable × Tm :=
  match p with
  | [] => (s, Tm.zero)
  | [m] => s.monoToTerm H m
  | ms =>
    let r := s.monosToTerms H ms
    r.1.arithPoly H r.2

/-- `mk_arithmetic_plus`, src/terms/Term_manager.cpp:596-604. -/
def mkPlus (s : TermTable) (args : List Tm) : Option (TermTable × Tm) :=
  (args.foldl (fun acc c => acc.bind fun p => (s.toPoly c).map fun q => APoly.merge p q 1)
    (some [])).map fun p => s.polyToTerm H p

/-- `mk_arithmetic_minus`, src/terms/Term_manager.cpp:513-520. -/
def mkMinus (s : TermTable) (a b : Tm) : Option (TermTable × Tm) :=
  (s.toPoly a).bind fun p => (s.toPoly b).map fun q => s.polyToTerm H (APoly.merge p q (-1))

/-- `mk_unary_minus`, src/terms/Term_manager.cpp:522-527. -/
def mkUnaryMinus (s : TermTable) (t : Tm) : Option (TermTable × Tm) :=
  (s.toPoly t).map fun p => s.polyToTerm H (APoly.negate p)

/-- The product of a constant different from 0 and 1 and a term that is not constant,
src/terms/Term_manager.cpp:639-663. -/
def timesConst (s : TermTable) (val : ℚ) (t : Tm) : Option (TermTable × Tm) :=
  match s.kind t with
  | .uninterpreted | .ite | .app => some (s.arithProduct H val t)
  | .product => some (s.arithProduct H (s.coeffOfProduct t * val) (s.varOfProduct t))
  | .poly => (s.toPoly t).map fun p => s.polyToTerm H (APoly.multiplyBy p val)
  | _ => none

/-- `mk_arithmetic_times`, src/terms/Term_manager.cpp:606-664. `none`: more than two arguments (assert at
line 616) or two arguments that are not constant (assert at line 619). -/
def mkTimes (s : TermTable) (args : List Tm) : Option (TermTable × Tm) :=
  match args with
  | [] => some (s.arithConstant H 1)
  | [t] => some (s, t)
  | [a, b] =>
    let consts := [a, b].filter fun t => s.isArithConst t
    let rest := [a, b].filter fun t => !s.isArithConst t
    let val := consts.foldl (fun v t => v * s.constValue t) 1
    match rest with
    | [] => if val = 0 then some (s, Tm.zero) else some (s.arithConstant H val)
    | [t] =>
      if val = 0 then some (s, Tm.zero)
      else if val = 1 then some (s, t)
      else s.timesConst H val t
    | _ => none
  | _ => none

/-- `mk_divides`, src/terms/Term_manager.cpp:666-677. `none`: the divisor is not constant or it is 0.
Simplification: the value of `inv()` (line 674) is the exact inverse; C23 shows for which numbers it is. -/
def mkDivides (s : TermTable) (a b : Tm) : Option (TermTable × Tm) :=
  if s.isArithConst b = false ∨ s.constValue b = 0 then none
  else if s.isArithConst a then some (s.arithConstant H (s.constValue a / s.constValue b))
  else
    let r := s.arithConstant H (1 / s.constValue b)
    r.1.mkTimes H [a, r.2]

/-- `is_var_like`, src/terms/Term_manager.cpp:413-418. -/
def isVarLike (s : TermTable) (t : Tm) : Bool :=
  decide (s.kind t = .uninterpreted) || decide (s.kind t = .ite) || decide (s.kind t = .app)

/-- `direct_arithmetic_binary_equality`, src/terms/Term_manager.cpp:473-482. -/
def directEq (s : TermTable) (a b : Tm) : TermTable × Tm :=
  if !s.isVarLike a || (s.isVarLike b && Tm.lt b a) then s.binEq H b a else s.binEq H a b

/-- `mk_arithmetic_eq`, src/terms/Term_manager.cpp:420-471, for the polynomial `p` of the difference.
`none`: `p` has no monomial (the assertion at line 429 fails, and line 451 reads `*p.begin()`). -/
def eqOfPoly (s : TermTable) (p : APoly) : Option (TermTable × Tm) :=
  match p with
  | [] => none
  | [m] =>
    match m.1 with
    | none => some (s, Tm.ff)
    | some x => some (s.eqZero H x)
  | [m1, m2] =>
    match m1.1, m2.1 with
    | none, some y =>
      let r := s.arithConstant H (-m1.2 / m2.2)
      some (r.1.directEq H y r.2)
    | some x, some y =>
      if m1.2 + m2.2 = 0 then some (s.directEq H x y)
      else
        let r := s.polyToTerm H p
        some (r.1.eqZero H r.2)
    | _, none => none
  | _ =>
    let r := s.polyToTerm H p
    some (r.1.eqZero H r.2)

/-- `mk_arithmetic_eq`, src/terms/Term_manager.cpp:420-471. -/
def mkArithEq (s : TermTable) (a b : Tm) : Option (TermTable × Tm) :=
  if a = b then some (s, Tm.tt)
  else (s.toPoly a).bind fun p => (s.toPoly b).bind fun q => s.eqOfPoly H (APoly.merge p q (-1))

/-- `mk_arithmetic_geq`, src/terms/Term_manager.cpp:499-508. -/
def mkGeq (s : TermTable) (a b : Tm) : Option (TermTable × Tm) :=
  (s.mkMinus H a b).map fun r =>
    if r.1.isArithConst r.2 then (r.1, if r.1.constValue r.2 ≥ 0 then Tm.tt else Tm.ff)
    else r.1.geqZero H r.2

/-- `mk_arithmetic_leq`, src/terms/Term_manager.cpp:484-487. -/
def mkLeq (s : TermTable) (a b : Tm) : Option (TermTable × Tm) := s.mkGeq H b a

/-- `mk_arithmetic_lt`, src/terms/Term_manager.cpp:489-492. -/
def mkLt (s : TermTable) (a b : Tm) : Option (TermTable × Tm) :=
  (s.mkGeq H a b).map fun r => (r.1, r.2.opp)

/-- `mk_arithmetic_gt`, src/terms/Term_manager.cpp:494-497. -/
def mkGt (s : TermTable) (a b : Tm) : Option (TermTable × Tm) := s.mkLt H b a

/-- `mk_arithmetic_ite`, src/terms/Term_manager.cpp:747-760. -/
def mkArithIte (s : TermTable) (c t e : Tm) : TermTable × Tm :=
  if c = Tm.tt then (s, t)
  else if c = Tm.ff then (s, e)
  else if t = e then (s, t)
  else if c.isNeg then s.arithIte H c.opp e t
  else s.arithIte H c t e

/-! ### Both -/

/-- `mk_ite`, src/terms/Term_manager.cpp:679-696. -/
def mkIte (s : TermTable) (c t e : Tm) : Option (TermTable × Tm) :=
  if s.type e ≠ s.type t then none
  else
    match s.type t with
    | .bool => some (s.mkBoolIte H c t e)
    | .real => some (s.mkArithIte H c t e)
    | .null => none

/-- `mk_binary_eq`, src/terms/Term_manager.cpp:295-310. -/
def mkBinaryEq (s : TermTable) (a b : Tm) : Option (TermTable × Tm) :=
  if s.type a ≠ s.type b then none
  else
    match s.type a with
    | .real => s.mkArithEq H a b
    | .bool => some (s.mkIff H a b)
    | .null => none

/-- The inner loop of `distinct`, src/terms/Term_manager.cpp:243-247: `a` against the later arguments. -/
def distinctFrom (s : TermTable) (a : Tm) : List Tm → Option (TermTable × List Tm)
  | [] => some (s, [])
  | b :: bs =>
    (s.mkBinaryEq H a b).bind fun r =>
      (distinctFrom r.1 a bs).map fun r2 => (r2.1, r.2.opp :: r2.2)

/-- The outer loop of `distinct`, src/terms/Term_manager.cpp:241-248. -/
def distinctPairs (s : TermTable) : List Tm → Option (TermTable × List Tm)
  | [] => some (s, [])
  | a :: as =>
    (s.distinctFrom H a as).bind fun r =>
      (distinctPairs r.1 as).map fun r2 => (r2.1, r.2 ++ r2.2)

/-- `distinct`, src/terms/Term_manager.cpp:238-250. -/
def mkDistinct (s : TermTable) (args : List Tm) : Option (TermTable × Tm) :=
  (s.distinctPairs H args).map fun r => r.1.mkAnd H r.2

/-- `mk_app`, src/terms/Term_manager.cpp:265-279: `f` is the term of the function symbol. -/
def mkApp (s : TermTable) (ty : Ty) (f : Tm) (args : List Tm) : TermTable × Tm :=
  s.appTerm H ty (f :: args)

end TermTable
end Yaga
