/-
The term table and the term manager once more, with their assertions, accesses and casts: `none` is a failed assertion, an
index out of range, a null descriptor, a descriptor read as an object of another class, or an exception.

The assertions of `Arithmetic_polynomial.h:140, 184` hold by construction (the variables are compared just before; a term is
only added to an empty polynomial) and are left out. The assertions `proxy.hash == entry.hash` of `KeyEqual`
(src/terms/Term_hash_table.cpp:51, 73, 93) say that `std::unordered_set` compares only elements with the same hash; the
search is modelled like this.
-/
import Verif.Model.TermHistory

namespace Yaga
namespace TermTable

variable (H : TermHash)

/-- `assert`. -/
def need (b : Bool) : Option Unit := if b then some () else none

/-! ### The table -/

/-- `get_kind`, src/terms/Terms.cpp:62. -/
def kindC (s : TermTable) (t : Tm) : Option Kind := (s.entry t).map TEntry.kind

/-- `get_type`, src/terms/Terms.cpp:64. -/
def typeC (s : TermTable) (t : Tm) : Option Ty := (s.entry t).map TEntry.type

/-- `KeyEqual`, src/terms/Term_hash_table.cpp:48-107, for the three kinds of proxies. The descriptor of the entry is
cast to the class that belongs to the proxy once kind and type agree. -/
def keyEqualC (s : TermTable) (e : TEntry) (t : Tm) : Option Bool :=
  match s.entry t with
  | none => none
  | some f =>
    if f.kind ≠ e.kind then some false
    else if f.type ≠ e.type then some false
    else
      match e.descr, f.descr with
      | .comp as, .comp bs => some (if bs.length ≠ as.length then false else decide (bs = as))
      | .rat p, .rat q => some (decide (q = p))
      | .const i, .const j => some (decide (j = i))
      | _, _ => none

/-- `terms.find(proxy)`, src/terms/Term_hash_table.cpp:11, 24, 37. -/
def findC (s : TermTable) (hash : Nat) (e : TEntry) : List (Nat × Tm) → Option (Option Tm)
  | [] => some none
  | k :: ks =>
    if k.1 = hash then (s.keyEqualC e k.2).bind fun b => if b then some (some k.2) else findC s hash e ks
    else findC s hash e ks

/-- `get_composite_term`, `get_rational_term` and `get_constant_term`, src/terms/Term_hash_table.cpp:9-46, with the
assertion that the new entry is inserted (lines 18, 31, 44; entries are compared with lines 109-113). -/
def getC (s : TermTable) (hash : Nat) (e : TEntry) : Option (TermTable × Tm) :=
  (s.findC hash e s.known).bind fun
    | some t => some (s, t)
    | none =>
      let r := s.construct e
      (need (!r.1.known.contains (hash, r.2))).bind fun _ =>
        some ({ r.1 with known := r.1.known ++ [(hash, r.2)] }, r.2)

/-- A composite term, src/terms/Terms.cpp:126-194. -/
def compositeC (s : TermTable) (k : Kind) (ty : Ty) (as : List Tm) : Option (TermTable × Tm) :=
  s.getC (H.comp k as) ⟨k, ty, .comp as⟩

/-- `arithmetic_constant`, src/terms/Terms.cpp:120-124. -/
def arithConstantC (s : TermTable) (q : ℚ) : Option (TermTable × Tm) := s.getC (H.rat q) ⟨.arithConst, .real, .rat q⟩

/-- `Term_table()` with `add_primitive_terms`, src/terms/Terms.cpp:31-34 and 100-112. -/
def initC : Option TermTable :=
  (getC ⟨[⟨.reserved, .null, .none⟩], []⟩ (H.const .bool 0) ⟨.constant, .bool, .const 0⟩).bind fun r =>
    (need (decide (r.2 = Tm.tt))).bind fun _ => (r.1.arithConstantC H 0).bind fun r2 =>
      (need (decide (r2.2 = Tm.zero))).bind fun _ => some r2.1

/-- `or_term`, src/terms/Terms.cpp:126-130. -/
def orTermC (s : TermTable) (as : List Tm) : Option (TermTable × Tm) := s.compositeC H .or .bool as

/-- `arithmetic_product`, src/terms/Terms.cpp:132-141. -/
def arithProductC (s : TermTable) (c : ℚ) (x : Tm) : Option (TermTable × Tm) :=
  (s.kindC x).bind fun k => (s.typeC x).bind fun ty =>
    (need (decide (k = .uninterpreted) || (decide (k = .ite) || decide (k = .app)) && decide (ty = .real))).bind fun _ =>
      (s.arithConstantC H c).bind fun r => r.1.compositeC H .product .real [r.2, x]

/-- `arithmetic_polynomial`, src/terms/Terms.cpp:143-148. -/
def arithPolyC (s : TermTable) (as : List Tm) : Option (TermTable × Tm) :=
  (need (decide (2 ≤ as.length))).bind fun _ => s.compositeC H .poly .real as

/-- `arithmetic_geq_zero`, src/terms/Terms.cpp:150-156. -/
def geqZeroC (s : TermTable) (t : Tm) : Option (TermTable × Tm) :=
  (s.typeC t).bind fun ty => (need (decide (ty = .real))).bind fun _ => s.compositeC H .arithGe .bool [t]

/-- `arithmetic_eq_zero`, src/terms/Terms.cpp:158-164. -/
def eqZeroC (s : TermTable) (t : Tm) : Option (TermTable × Tm) :=
  (s.typeC t).bind fun ty => (need (decide (ty = .real))).bind fun _ => s.compositeC H .arithEq .bool [t]

/-- `arithmetic_binary_eq`, src/terms/Terms.cpp:166-175. -/
def binEqC (s : TermTable) (a b : Tm) : Option (TermTable × Tm) :=
  (s.typeC a).bind fun ta => (s.typeC b).bind fun tb => (s.kindC a).bind fun ka => (s.kindC b).bind fun kb =>
    (need (decide (ta = .real) && decide (tb = .real) &&
      (decide (ka = .uninterpreted) || decide (ka = .ite) || decide (ka = .app)) &&
      (decide (kb ≠ .product) && decide (kb ≠ .poly)))).bind fun _ => s.compositeC H .arithBinEq .bool [a, b]

/-- `arithmetic_ite`, src/terms/Terms.cpp:177-185. -/
def arithIteC (s : TermTable) (c t e : Tm) : Option (TermTable × Tm) :=
  (s.typeC c).bind fun tc => (s.typeC t).bind fun tt => (s.typeC e).bind fun te =>
    (need (decide (tc = .bool) && decide (tt = .real) && decide (te = .real))).bind fun _ =>
      s.compositeC H .ite .real [c, t, e]

/-- `arithmetic_constant_value`, src/terms/Terms.cpp:242-247. -/
def constValueC (s : TermTable) (t : Tm) : Option ℚ :=
  (s.kindC t).bind fun k => (need (decide (k = .arithConst))).bind fun _ =>
    match s.descr t with
    | .rat q => some q
    | _ => none

/-- The descriptor of a term of kind `k` cast to `composite_term_descriptor_t`, src/terms/Terms.cpp:276-277, 284-285,
292-293. -/
def argsC (s : TermTable) (k : Kind) (t : Tm) : Option (List Tm) :=
  (s.kindC t).bind fun k' => (need (decide (k' = k))).bind fun _ =>
    match s.descr t with
    | .comp as => some as
    | _ => none

/-- `var_of_product`, src/terms/Terms.cpp:274-280. -/
def varOfProductC (s : TermTable) (t : Tm) : Option Tm :=
  (s.argsC .product t).bind fun as => (need (decide (as.length = 2))).bind fun _ => as[1]?

/-- `coeff_of_product`, src/terms/Terms.cpp:282-288. -/
def coeffOfProductC (s : TermTable) (t : Tm) : Option ℚ :=
  (s.argsC .product t).bind fun as => (need (decide (as.length = 2))).bind fun _ => as[0]?.bind fun c => s.constValueC c

/-! ### Boolean terms -/

/-- The loop of `mk_or`, src/terms/Term_manager.cpp:321-330, with the assertion at line 326. -/
def orLoopC : List Tm → Tm → List Tm → Option (Option (List Tm × Tm))
  | [], prev, acc => some (some (acc, prev))
  | c :: cs, prev, acc =>
    if prev ≠ c then
      if c = prev.opp then some none
      else (need (decide (c ≠ Tm.tt) && decide (c ≠ Tm.ff))).bind fun _ => orLoopC cs c (acc ++ [c])
    else orLoopC cs prev acc

/-- `mk_or`, src/terms/Term_manager.cpp:312-334. -/
def mkOrC (s : TermTable) (args : List Tm) : Option (TermTable × Tm) :=
  match sortBy Tm.lt args with
  | [] => some (s, Tm.ff)
  | first :: rest =>
    if first = Tm.tt then some (s, Tm.tt)
    else
      (orLoopC rest first (if first = Tm.ff then [] else [first])).bind fun
        | none => some (s, Tm.tt)
        | some p => if p.1.length ≤ 1 then some (s, p.2) else s.orTermC H p.1

/-- `mk_and`, src/terms/Term_manager.cpp:336-343. -/
def mkAndC (s : TermTable) (args : List Tm) : Option (TermTable × Tm) :=
  (s.mkOrC H (args.map Tm.opp)).map fun r => (r.1, r.2.opp)

/-- `mk_binary_or`, src/terms/Term_manager.cpp:345-357. -/
def mkBinaryOrC (s : TermTable) (x y : Tm) : Option (TermTable × Tm) :=
  if x = y then some (s, x)
  else if x = Tm.tt then some (s, x)
  else if y = Tm.tt then some (s, y)
  else if x = Tm.ff then some (s, y)
  else if y = Tm.ff then some (s, x)
  else if x.opp = y then some (s, Tm.tt)
  else s.orTermC H (if Tm.lt y x then [y, x] else [x, y])

/-- `mk_binary_and`, src/terms/Term_manager.cpp:359-362. -/
def mkBinaryAndC (s : TermTable) (x y : Tm) : Option (TermTable × Tm) :=
  (s.mkBinaryOrC H x.opp y.opp).map fun r => (r.1, r.2.opp)

/-- `mk_implies`, src/terms/Term_manager.cpp:364-366. -/
def mkImpliesC (s : TermTable) (x y : Tm) : Option (TermTable × Tm) := s.mkBinaryOrC H x.opp y

/-- `mk_iff`, src/terms/Term_manager.cpp:368-372. -/
def mkIffC (s : TermTable) (a b : Tm) : Option (TermTable × Tm) :=
  (s.mkImpliesC H a b).bind fun r => (r.1.mkImpliesC H b a).bind fun r2 => r2.1.mkBinaryAndC H r.2 r2.2

/-- `mk_xor`, src/terms/Term_manager.cpp:374-378. -/
def mkXorC (s : TermTable) (a b : Tm) : Option (TermTable × Tm) :=
  (s.mkBinaryOrC H a b).bind fun r => (r.1.mkBinaryAndC H a b).bind fun r2 => r2.1.mkBinaryAndC H r.2 r2.2.opp

/-- The end of `mk_bool_ite`, src/terms/Term_manager.cpp:737-743. -/
def mkBoolIteGeneralC (s : TermTable) (c t e : Tm) : Option (TermTable × Tm) :=
  let c' := if c.isNeg then c.opp else c
  let t' := if c.isNeg then e else t
  let e' := if c.isNeg then t else e
  (s.mkImpliesC H c' t').bind fun r => (r.1.mkImpliesC H c'.opp e').bind fun r2 => r2.1.mkBinaryAndC H r.2 r2.2

/-- `mk_bool_ite`, src/terms/Term_manager.cpp:719-745. -/
def mkBoolIteC (s : TermTable) (c t e : Tm) : Option (TermTable × Tm) :=
  if t = e then some (s, t)
  else if c = Tm.tt then some (s, t)
  else if c = Tm.ff then some (s, e)
  else if t = e.opp then s.mkIffC H c t
  else if c = t then s.mkBinaryOrC H t e
  else if c = e then s.mkBinaryAndC H e t
  else if c = t.opp then s.mkBinaryAndC H t e
  else if c = e.opp then s.mkBinaryOrC H e t
  else if t = Tm.tt then s.mkBinaryOrC H c e
  else if t = Tm.ff then s.mkBinaryAndC H c.opp e
  else if e = Tm.ff then s.mkBinaryAndC H c t
  else if e = Tm.tt then s.mkBinaryOrC H c.opp t
  else s.mkBoolIteGeneralC H c t e

/-! ### Arithmetic terms -/

/-- `term_to_poly`, src/terms/Term_manager.cpp:529-561. -/
def termToPolyC (s : TermTable) : Nat → Tm → Option APoly
  | 0, _ => none
  | fuel + 1, t =>
    (s.kindC t).bind fun
      | .arithConst => if t ≠ Tm.zero then (s.constValueC t).map fun q => [(none, q)] else some []
      | .uninterpreted | .ite | .app => some [(some t, 1)]
      | .product => (s.varOfProductC t).bind fun x => (s.coeffOfProductC t).map fun q => [(some x, q)]
      | .poly => (s.argsC .poly t).bind fun as => as.foldl
          (fun acc c => acc.bind fun p => (termToPolyC s fuel c).map fun q => APoly.merge p q 1) (some [])
      | _ => none

/-- `term_to_poly` with enough fuel. -/
def toPolyC (s : TermTable) (t : Tm) : Option APoly := s.termToPolyC 2 t

/-- The lambda `monomial_to_term`, src/terms/Term_manager.cpp:568-579. -/
def monoToTermC (s : TermTable) (m : Option Tm × ℚ) : Option (TermTable × Tm) :=
  (need (decide (m.2 ≠ 0))).bind fun _ =>
    match m.1 with
    | none => s.arithConstantC H m.2
    | some x => if m.2 = 1 then some (s, x) else s.arithProductC H m.2 x

/-- The loop of `poly_to_term`, src/terms/Term_manager.cpp:587-592. -/
def monosToTermsC (s : TermTable) : APoly → Option (TermTable × List Tm)
  | [] => some (s, [])
  | m :: ms => (s.monoToTermC H m).bind fun r => (monosToTermsC r.1 ms).map fun r2 => (r2.1, r.2 :: r2.2)

/-- `poly_to_term`, src/terms/Term_manager.cpp:563-594. -/
def polyToTermC (s : TermTable) (p : APoly) : Option (TermTable × Tm) :=
  match p with
  | [] => some (s, Tm.zero)
  | [m] => s.monoToTermC H m
  | ms => (s.monosToTermsC H ms).bind fun r => r.1.arithPolyC H r.2

/-- `mk_arithmetic_plus`, src/terms/Term_manager.cpp:596-604. -/
def mkPlusC (s : TermTable) (args : List Tm) : Option (TermTable × Tm) :=
  (args.foldl (fun acc c => acc.bind fun p => (s.toPolyC c).map fun q => APoly.merge p q 1)
    (some [])).bind fun p => s.polyToTermC H p

/-- `mk_arithmetic_minus`, src/terms/Term_manager.cpp:513-520. -/
def mkMinusC (s : TermTable) (a b : Tm) : Option (TermTable × Tm) :=
  (s.toPolyC a).bind fun p => (s.toPolyC b).bind fun q => s.polyToTermC H (APoly.merge p q (-1))

/-- `mk_unary_minus`, src/terms/Term_manager.cpp:522-527. -/
def mkUnaryMinusC (s : TermTable) (t : Tm) : Option (TermTable × Tm) :=
  (s.toPolyC t).bind fun p => s.polyToTermC H (APoly.negate p)

/-- The product of a constant and a term that is not constant, src/terms/Term_manager.cpp:639-663. -/
def timesConstC (s : TermTable) (val : ℚ) (t : Tm) : Option (TermTable × Tm) :=
  (s.kindC t).bind fun
    | .uninterpreted | .ite | .app =>
      (s.typeC t).bind fun ty => (need (decide (ty = .real))).bind fun _ => s.arithProductC H val t
    | .product => (s.varOfProductC t).bind fun x => (s.coeffOfProductC t).bind fun q => s.arithProductC H (q * val) x
    | .poly => (s.toPolyC t).bind fun p => s.polyToTermC H (APoly.multiplyBy p val)
    | _ => none

/-- The values of the constants multiplied, src/terms/Term_manager.cpp:622-627. -/
def timesValueC (s : TermTable) (consts : List Tm) : Option ℚ :=
  consts.foldl (fun acc t => acc.bind fun v => (s.constValueC t).map fun q => v * q) (some 1)

/-- `mk_arithmetic_times`, src/terms/Term_manager.cpp:606-664. -/
def mkTimesC (s : TermTable) (args : List Tm) : Option (TermTable × Tm) :=
  match args with
  | [] => s.arithConstantC H 1
  | [t] => some (s, t)
  | [a, b] =>
    (s.kindC a).bind fun _ => (s.kindC b).bind fun _ =>
    let consts := [a, b].filter fun t => s.isArithConst t
    let rest := [a, b].filter fun t => !s.isArithConst t
    (need (decide (rest.length ≤ 1))).bind fun _ => (s.timesValueC consts).bind fun val =>
    if val = 0 then some (s, Tm.zero)
    else
      match rest with
      | [] => s.arithConstantC H val
      | t :: _ => if val = 1 then some (s, t) else s.timesConstC H val t
  | _ => none

/-- `mk_divides`, src/terms/Term_manager.cpp:666-677; division by 0 fails. -/
def mkDividesC (s : TermTable) (a b : Tm) : Option (TermTable × Tm) :=
  (s.kindC b).bind fun kb => (need (decide (kb = .arithConst))).bind fun _ => (s.constValueC b).bind fun v =>
    (need (decide (v ≠ 0))).bind fun _ => (s.kindC a).bind fun ka =>
    if ka = .arithConst then (s.constValueC a).bind fun u => s.arithConstantC H (u / v)
    else (s.arithConstantC H (1 / v)).bind fun r => r.1.mkTimesC H [a, r.2]

/-- `is_var_like`, src/terms/Term_manager.cpp:413-418, with the assertion at line 416. -/
def isVarLikeC (s : TermTable) (t : Tm) : Option Bool :=
  (s.kindC t).bind fun k => (s.typeC t).bind fun ty => (need (decide (k ≠ .ite) || decide (ty = .real))).bind fun _ =>
    some (decide (k = .uninterpreted) || decide (k = .ite) || decide (k = .app))

/-- `direct_arithmetic_binary_equality`, src/terms/Term_manager.cpp:473-482. -/
def directEqC (s : TermTable) (a b : Tm) : Option (TermTable × Tm) :=
  (need (decide (a ≠ b))).bind fun _ => (s.isVarLikeC a).bind fun va => (s.isVarLikeC b).bind fun vb =>
    (need (va || vb)).bind fun _ => if !va || (vb && Tm.lt b a) then s.binEqC H b a else s.binEqC H a b

/-- `mk_arithmetic_eq`, src/terms/Term_manager.cpp:420-471, for the polynomial `p` of the difference. -/
def eqOfPolyC (s : TermTable) (p : APoly) : Option (TermTable × Tm) :=
  match p with
  | [] => none
  | [m] =>
    match m.1 with
    | none => (need (decide (m.2 ≠ 0))).bind fun _ => some (s, Tm.ff)
    | some x => s.eqZeroC H x
  | [m1, m2] =>
    match m1.1, m2.1 with
    | none, some y =>
      (need (decide (m1.2 ≠ 0) && decide (m2.2 ≠ 0))).bind fun _ =>
        (s.arithConstantC H (-m1.2 / m2.2)).bind fun r => r.1.directEqC H y r.2
    | some x, some y =>
      if m1.2 + m2.2 = 0 then s.directEqC H x y
      else (s.polyToTermC H p).bind fun r => r.1.eqZeroC H r.2
    | _, none => none
  | _ => (s.polyToTermC H p).bind fun r => r.1.eqZeroC H r.2

/-- `mk_arithmetic_eq`, src/terms/Term_manager.cpp:420-471. -/
def mkArithEqC (s : TermTable) (a b : Tm) : Option (TermTable × Tm) :=
  if a = b then some (s, Tm.tt)
  else (s.toPolyC a).bind fun p => (s.toPolyC b).bind fun q => s.eqOfPolyC H (APoly.merge p q (-1))

/-- `mk_arithmetic_geq`, src/terms/Term_manager.cpp:499-508. -/
def mkGeqC (s : TermTable) (a b : Tm) : Option (TermTable × Tm) :=
  (s.mkMinusC H a b).bind fun r => (r.1.kindC r.2).bind fun k =>
    if k = .arithConst then (r.1.constValueC r.2).map fun q => (r.1, if q ≥ 0 then Tm.tt else Tm.ff)
    else r.1.geqZeroC H r.2

/-- `mk_arithmetic_lt`, src/terms/Term_manager.cpp:489-492. -/
def mkLtC (s : TermTable) (a b : Tm) : Option (TermTable × Tm) := (s.mkGeqC H a b).map fun r => (r.1, r.2.opp)

/-- `mk_arithmetic_ite`, src/terms/Term_manager.cpp:747-760. -/
def mkArithIteC (s : TermTable) (c t e : Tm) : Option (TermTable × Tm) :=
  if c = Tm.tt then some (s, t)
  else if c = Tm.ff then some (s, e)
  else if t = e then some (s, t)
  else if c.isNeg then s.arithIteC H c.opp e t
  else s.arithIteC H c t e

/-! ### Both -/

/-- `mk_ite`, src/terms/Term_manager.cpp:679-696. -/
def mkIteC (s : TermTable) (c t e : Tm) : Option (TermTable × Tm) :=
  (s.typeC c).bind fun tc => (need (decide (tc = .bool))).bind fun _ => (s.typeC t).bind fun tt =>
    (s.typeC e).bind fun te =>
    if te ≠ tt then none
    else
      match tt with
      | .bool => s.mkBoolIteC H c t e
      | .real => s.mkArithIteC H c t e
      | .null => none

/-- `mk_binary_eq`, src/terms/Term_manager.cpp:295-310. -/
def mkBinaryEqC (s : TermTable) (a b : Tm) : Option (TermTable × Tm) :=
  (s.typeC a).bind fun ta => (s.typeC b).bind fun tb =>
    if ta ≠ tb then none
    else
      match ta with
      | .real => s.mkArithEqC H a b
      | .bool => s.mkIffC H a b
      | .null => none

/-- The inner loop of `distinct`, src/terms/Term_manager.cpp:243-247. -/
def distinctFromC (s : TermTable) (a : Tm) : List Tm → Option (TermTable × List Tm)
  | [] => some (s, [])
  | b :: bs =>
    (s.mkBinaryEqC H a b).bind fun r =>
      (distinctFromC r.1 a bs).map fun r2 => (r2.1, r.2.opp :: r2.2)

/-- The outer loop of `distinct`, src/terms/Term_manager.cpp:241-248. -/
def distinctPairsC (s : TermTable) : List Tm → Option (TermTable × List Tm)
  | [] => some (s, [])
  | a :: as =>
    (s.distinctFromC H a as).bind fun r =>
      (distinctPairsC r.1 as).map fun r2 => (r2.1, r.2 ++ r2.2)

/-- `distinct`, src/terms/Term_manager.cpp:238-250. -/
def mkDistinctC (s : TermTable) (args : List Tm) : Option (TermTable × Tm) :=
  (s.distinctPairsC H args).bind fun r => r.1.mkAndC H r.2

/-- `mk_app`, src/terms/Term_manager.cpp:265-279. -/
def mkAppC (s : TermTable) (f : Tm) (args : List Tm) : Option (TermTable × Tm) :=
  (s.typeC f).bind fun ty => s.compositeC H .app ty (f :: args)

end TermTable

/-- Effect and result of a function of the term manager, with everything that can fail. -/
def MgrOp.runC (H : TermHash) (s : TermTable) : MgrOp → Option (TermTable × Tm)
  | .fresh ty => some (s.fresh ty)
  | .rational q => s.arithConstantC H q
  | .or as => s.mkOrC H as
  | .and as => s.mkAndC H as
  | .implies a b => s.mkImpliesC H a b
  | .xor a b => s.mkXorC H a b
  | .ite c t e => s.mkIteC H c t e
  | .eq a b => s.mkBinaryEqC H a b
  | .distinct as => s.mkDistinctC H as
  | .plus as => s.mkPlusC H as
  | .minus a b => s.mkMinusC H a b
  | .neg a => s.mkUnaryMinusC H a
  | .times as => s.mkTimesC H as
  | .divides a b => s.mkDividesC H a b
  | .geq a b => s.mkGeqC H a b
  | .leq a b => s.mkGeqC H b a
  | .lt a b => s.mkLtC H a b
  | .gt a b => s.mkLtC H b a
  | .app f as => s.mkAppC H f as

end Yaga
