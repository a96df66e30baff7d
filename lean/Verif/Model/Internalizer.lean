/-
Model of the translation of terms to clauses and linear constraints: `Internalizer_config` and
`Solver_wrapper::check` in `src/parser/Solver_wrapper.{h,cpp}`, `Visitor` in `src/terms/Term_visitor.h`
and the functions of `src/Yaga.{h,cpp}` they call.

`none` is an exception, undefined behaviour, or a failed assertion of a debug build.
-/
import Verif.Model.LinearPolynomial
import Verif.Model.Terms

namespace Yaga

/-- Parameters: the hash functions of the constraint repository and whether `assert` is compiled in
(`NDEBUG` not defined). -/
structure ICfg where
  hv : Nat → Nat
  hc : ℚ → Nat
  dbg : Bool

/-- What the internalizer and the solver objects it changes remember: `internal_rational_vars`,
`internal_bool_vars` (src/parser/Solver_wrapper.h:45-49), the constraint repository, the numbers of
variables of the trail, the asserted clauses, the function applications registered with the UF plugin
(src/Yaga.cpp:101-107) and `Visitor::processed` (src/terms/Term_visitor.h:15). The order of the lists is
the order of insertion. -/
structure IState where
  ratVars : List (Tm × Nat)
  boolVars : List (Tm × Lit)
  store : LinStore
  numBool : Nat
  numRat : Nat
  clauses : List Clause
  apps : List (Var × Tm)
  processed : List Nat

/-- The state before the first `check`. -/
def IState.init : IState := ⟨[], [], LinStore.init, 0, 0, [], [], []⟩

/-- `find` in an `unordered_map`. -/
def mapFind {β : Type} (m : List (Tm × β)) (k : Tm) : Option β :=
  (m.find? fun p => decide (p.1 = k)).map (·.2)

/-- `insert` to an `unordered_map`: an existing entry is kept. -/
def mapInsert {β : Type} (m : List (Tm × β)) (k : Tm) (v : β) : List (Tm × β) :=
  if (mapFind m k).isSome then m else m ++ [(k, v)]

namespace Internalizer

/-- `assert`. -/
def asserts (cfg : ICfg) (b : Bool) : Option Unit := if cfg.dbg && !b then none else some ()

/-- The loop for an `ARITH_POLY` in `internalize_poly`, src/parser/Solver_wrapper.cpp:144-162. `none`:
`at` throws (`internal_rational_var`, src/parser/Solver_wrapper.h:52-56) or the argument is not a
monomial. -/
def polyArgs (s : TermTable) (st : IState) : List Tm → UPoly → Option UPoly
  | [], p => some p
  | a :: as, p =>
    match s.kind a with
    | .arithConst => polyArgs s st as ⟨p.terms, s.constValue a⟩
    | .uninterpreted | .ite | .app =>
      match mapFind st.ratVars a with
      | some v => polyArgs s st as ⟨p.terms ++ [(v, 1)], p.const⟩
      | none => none
    | .product =>
      match mapFind st.ratVars (s.varOfProduct a) with
      | some v => polyArgs s st as ⟨p.terms ++ [(v, s.coeffOfProduct a)], p.const⟩
      | none => none
    | _ => none

/-- `internalize_poly`, src/parser/Solver_wrapper.cpp:121-166. -/
def poly (s : TermTable) (st : IState) (t : Tm) : Option UPoly :=
  match s.kind t with
  | .arithConst => some ⟨[], s.constValue t⟩
  | .uninterpreted | .ite | .app => (mapFind st.ratVars t).map fun v => ⟨[(v, 1)], 0⟩
  | .product =>
    (mapFind st.ratVars (s.varOfProduct t)).map fun v => ⟨[(v, s.coeffOfProduct t)], 0⟩
  | .poly => polyArgs s st (s.args t) ⟨[], 0⟩
  | _ => none

/-- `Yaga::make(Variable::boolean)`, src/Yaga.cpp:94-99; the LRA plugin resizes its vector of constraints
(src/lra/Linear_arithmetic.cpp:14-17). -/
def newBool (st : IState) : IState × Nat :=
  ({ st with numBool := st.numBool + 1, store := st.store.resize (st.numBool + 1) }, st.numBool)

/-- `Yaga::make(Variable::rational)`, src/Yaga.cpp:94-99. -/
def newRat (st : IState) : IState × Nat := ({ st with numRat := st.numRat + 1 }, st.numRat)

/-- `Yaga::linear_constraint`, src/Yaga.h:174-193, with `Linear_arithmetic::constraint`,
src/lra/Linear_arithmetic.h:104-125. `none`: a variable is out of range (exception), or a new constraint
has no variables (`watch` reads `vars()[0]`, src/lra/Linear_arithmetic.cpp:92-94). Simplifications: the
logic has the LRA plugin; the lists `watched` and `occur` are left out; `watch` exchanges elements of a
constraint only for assigned variables (src/lra/Linear_arithmetic.cpp:108-116), and C24 shows that this
does not change what the constraint means. -/
def linearConstraint (cfg : ICfg) (st : IState) (ts : List (Nat × ℚ)) (pred : Pred) (rhs : ℚ) :
    Option (IState × Lit) :=
  if ts.any (fun p => decide (st.numRat ≤ p.1)) then none
  else
    let r := st.store.make cfg.hv cfg.hc ts pred rhs
    if st.numBool ≤ r.2.lit.ord then
      if r.2.isEmpty then none
      else some ({ st with store := r.1.resize (r.2.lit.ord + 1), numBool := r.2.lit.ord + 1 }, r.2.lit)
    else some ({ st with store := r.1 }, r.2.lit)

/-- `Yaga::assert_clause`, src/Yaga.h:205. -/
def assertClause (st : IState) (c : Clause) : IState := { st with clauses := st.clauses ++ [c] }

/-- `ARITH_GE_ATOM`, src/parser/Solver_wrapper.cpp:172-191. -/
def visitGe (cfg : ICfg) (s : TermTable) (st : IState) (t : Tm) : Option IState := do
  let p ← (s.args t)[0]?
  asserts cfg (decide (p ≠ Tm.zero))
  let ip ← poly s st p
  let ip := if t.isNeg then ip else ip.negate
  let r ← linearConstraint cfg st ip.terms (if t.isNeg then .lt else .leq) (-ip.const)
  let lit := if t.isNeg then r.2.neg else r.2
  asserts cfg (mapFind r.1.boolVars t.pos).isNone
  some { r.1 with boolVars := mapInsert r.1.boolVars t.pos lit }

/-- `ARITH_EQ_ATOM`, src/parser/Solver_wrapper.cpp:192-201. -/
def visitEq (cfg : ICfg) (s : TermTable) (st : IState) (t : Tm) : Option IState := do
  let p ← (s.args t)[0]?
  let ip ← poly s st p
  let r ← linearConstraint cfg st ip.terms .eq (-ip.const)
  asserts cfg (!r.2.isNeg)
  asserts cfg (mapFind r.1.boolVars t.pos).isNone
  some { r.1 with boolVars := mapInsert r.1.boolVars t.pos r.2 }

/-- The polynomial of an `ARITH_BINEQ_ATOM`, src/parser/Solver_wrapper.cpp:208-217. -/
def binEqPoly (s : TermTable) (st : IState) (lhs rhs : Tm) : Option UPoly :=
  if s.isArithConst rhs then
    (mapFind st.ratVars lhs).map fun v => ⟨[(v, 1)], -s.constValue rhs⟩
  else
    (mapFind st.ratVars lhs).bind fun v => (mapFind st.ratVars rhs).map fun w => ⟨[(v, 1), (w, -1)], 0⟩

/-- `ARITH_BINEQ_ATOM`, src/parser/Solver_wrapper.cpp:202-224. -/
def visitBinEq (cfg : ICfg) (s : TermTable) (st : IState) (t : Tm) : Option IState := do
  let lhs ← (s.args t)[0]?
  let rhs ← (s.args t)[1]?
  asserts cfg (decide (s.kind lhs = .uninterpreted) || decide (s.kind lhs = .ite))
  asserts cfg (decide (s.kind rhs = .uninterpreted) || decide (s.kind rhs = .ite) || s.isArithConst rhs)
  let ip ← binEqPoly s st lhs rhs
  let r ← linearConstraint cfg st ip.terms .eq (-ip.const)
  asserts cfg (!r.2.isNeg)
  asserts cfg (mapFind r.1.boolVars t.pos).isNone
  some { r.1 with boolVars := mapInsert r.1.boolVars t.pos r.2 }

/-- `APP_TERM`, src/parser/Solver_wrapper.cpp:225-249, with `make_function_application`,
src/Yaga.cpp:101-107. `none`: the type is neither real nor Boolean (uninitialised `var_type`). -/
def visitApp (cfg : ICfg) (s : TermTable) (st : IState) (t : Tm) : Option IState :=
  match s.type t with
  | .real => do
    let r := newRat st
    asserts cfg (mapFind r.1.ratVars t).isNone
    some { r.1 with ratVars := mapInsert r.1.ratVars t r.2, apps := r.1.apps ++ [(Var.rat r.2, t)] }
  | .bool => do
    let r := newBool st
    asserts cfg (mapFind r.1.boolVars t).isNone
    some { r.1 with
      boolVars := mapInsert r.1.boolVars t (Lit.pos r.2), apps := r.1.apps ++ [(Var.bool r.2, t)] }
  | .null => none

/-- `UNINTERPRETED_TERM`, src/parser/Solver_wrapper.cpp:250-262. -/
def visitConst (cfg : ICfg) (s : TermTable) (st : IState) (t : Tm) : Option IState :=
  match s.type t with
  | .bool => do
    let r := newBool st
    asserts cfg (mapFind r.1.boolVars t.pos).isNone
    some { r.1 with boolVars := mapInsert r.1.boolVars t.pos (Lit.pos r.2) }
  | .real => do
    let r := newRat st
    asserts cfg (mapFind r.1.ratVars t).isNone
    some { r.1 with ratVars := mapInsert r.1.ratVars t r.2 }
  | .null => some st

/-- The literals of the arguments of a disjunction, src/parser/Solver_wrapper.cpp:275-285. -/
def orLits (st : IState) : List Tm → Option (List Lit)
  | [] => some []
  | a :: as =>
    match mapFind st.boolVars a.pos, orLits st as with
    | some l, some ls => some ((if a.isNeg then l.neg else l) :: ls)
    | _, _ => none

/-- `OR_TERM`, src/parser/Solver_wrapper.cpp:263-295. -/
def visitOr (cfg : ICfg) (s : TermTable) (st : IState) (t : Tm) : Option IState := do
  let args := s.args t
  asserts cfg (decide (2 ≤ args.length))
  asserts cfg (args.all fun a => decide (s.type a = .bool))
  asserts cfg (mapFind st.boolVars t.pos).isNone
  let r := newBool st
  let lit := Lit.pos r.2
  let st := { r.1 with boolVars := mapInsert r.1.boolVars t.pos lit }
  let ls ← orLits st args
  let st := ls.foldl (fun st l => assertClause st [lit, l.neg]) st
  some (assertClause st (ls ++ [lit.neg]))

/-- `ITE_TERM`, src/parser/Solver_wrapper.cpp:296-324. -/
def visitIte (cfg : ICfg) (s : TermTable) (st : IState) (t : Tm) : Option IState := do
  asserts cfg (decide (s.type t = .real))
  if s.type t = .real then
    let c ← (s.args t)[0]?
    let a ← (s.args t)[1]?
    let b ← (s.args t)[2]?
    let r := newRat st
    asserts cfg (mapFind r.1.ratVars t).isNone
    let st := { r.1 with ratVars := mapInsert r.1.ratVars t r.2 }
    let tp ← poly s st a
    let fp ← poly s st b
    let tp := tp.subtractVar r.2
    let fp := fp.subtractVar r.2
    let rt ← linearConstraint cfg st tp.terms .eq (-tp.const)
    let rf ← linearConstraint cfg rt.1 fp.terms .eq (-fp.const)
    asserts cfg (!c.isNeg)
    let l ← mapFind rf.1.boolVars c
    some (assertClause (assertClause rf.1 [l, rf.2]) [l.neg, rt.2])
  else some st

/-- `Internalizer_config::visit`, src/parser/Solver_wrapper.cpp:168-342. -/
def visit (cfg : ICfg) (s : TermTable) (st : IState) (t : Tm) : Option IState :=
  match s.kind t with
  | .arithGe => visitGe cfg s st t
  | .arithEq => visitEq cfg s st t
  | .arithBinEq => visitBinEq cfg s st t
  | .app => visitApp cfg s st t
  | .uninterpreted => visitConst cfg s st t
  | .or => visitOr cfg s st t
  | .ite => visitIte cfg s st t
  | .constant => if t ≠ Tm.tt then none else some st
  | .arithConst | .product | .poly => some st
  | .reserved => none

/-- The loop of `Visitor::visit(term_t)`, src/terms/Term_visitor.h:45-66. The worklist is a list whose
head is the back of the vector; an element is a term with `next_child`. `none` without an exception: the
bound `fuel` for the number of iterations is reached. -/
def loop (cfg : ICfg) (s : TermTable) : Nat → List (Tm × Nat) → IState → Option IState
  | _, [], st => some st
  | 0, _ :: _, _ => none
  | fuel + 1, (t, k) :: stk, st =>
    match (s.args t)[k]? with
    | some c =>
      if c.index ∈ st.processed then loop cfg s fuel ((t, k + 1) :: stk) st
      else loop cfg s fuel ((c, 0) :: (t, k + 1) :: stk) st
    | none => do
      asserts cfg (decide (t.index ∉ st.processed))
      let st ← visit cfg s st t
      loop cfg s fuel stk { st with processed := st.processed ++ [t.index] }

/-- A bound for the number of iterations (C44_total shows that it suffices). -/
def fuel (s : TermTable) : Nat :=
  ((List.range s.terms.length).map fun i => (s.args (Tm.positive i)).length + 2).sum

/-- `Visitor::visit(std::span<const term_t>)`, src/terms/Term_visitor.h:26-35. -/
def roots (cfg : ICfg) (s : TermTable) : List Tm → IState → Option IState
  | [], st => some st
  | t :: ts, st =>
    if t.index ∈ st.processed then roots cfg s ts st
    else (loop cfg s (fuel s) [(t, 0)] st).bind (roots cfg s ts)

/-- The loop that adds the assertions, src/parser/Solver_wrapper.cpp:36-47. `none`: there is no literal for
the term. -/
def units : List Tm → IState → Option IState
  | [], st => some st
  | a :: as, st =>
    if a = Tm.tt then units as st
    else
      match mapFind st.boolVars a.pos with
      | some l => units as (assertClause st [if a.isNeg then l.neg else l])
      | none => none

/-- `Solver_wrapper::check` up to the call of the solver, src/parser/Solver_wrapper.cpp:23-47, with
`Yaga::init`, src/Yaga.cpp:63-67. The inner `none` is the answer `UNSAT` at line 27. -/
def check (cfg : ICfg) (s : TermTable) (st : IState) (as : List Tm) : Option (Option IState) :=
  if as.any (fun t => decide (t = Tm.ff)) then some none
  else
    ((roots cfg s as { st with clauses := [] }).bind (units as)).map some

end Internalizer

/-- The rational part of `variables`, src/parser/Solver_wrapper.cpp:59-65: the constants and function
applications of the script. -/
def IState.ratOrig (st : IState) (s : TermTable) : List (Tm × Nat) :=
  st.ratVars.filter fun p => decide (s.kind p.1 = .uninterpreted) || decide (s.kind p.1 = .app)

/-- The Boolean part of `variables`, src/parser/Solver_wrapper.cpp:52-58. Simplification: the literal
instead of its variable; the literals of these terms are positive. -/
def IState.boolOrig (st : IState) (s : TermTable) : List (Tm × Lit) :=
  st.boolVars.filter fun p => decide (s.kind p.1 = .uninterpreted) || decide (s.kind p.1 = .app)

end Yaga
