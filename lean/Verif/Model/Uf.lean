/-
Model of the plugin for uninterpreted functions, `src/uf/Uninterpreted_functions.{h,cpp}`.

`none` is an exception, undefined behaviour, or a failed assertion of a debug build.
-/
import Verif.Model.Internalizer
import Verif.Model.TrailHistory
import Verif.Model.LraPlugin

namespace Yaga

/-- `Assignment_watchlist`, src/uf/Uninterpreted_functions.h:84-127. -/
structure WList where
  watch : List Var
  term : Tm
  deriving DecidableEq

/-- An entry of `functions`: function symbol, argument values and `Function_application`,
src/uf/Uninterpreted_functions.h:74-80, 134. -/
structure FApp where
  fn : Tm
  args : List Val
  value : Val
  term : Tm
  level : Nat
  deriving DecidableEq

/-- State of the plugin and of the objects it uses: `rational_vars`, `bool_vars` and the constraints (in
`ist`), the trail, `watchlists` and `functions`; `lraWatch` is `watched` of the plugin for linear arithmetic,
which `linear_constraint` changes. Simplification: the map of maps `functions` is one list of entries; an entry
is found by its symbol and argument values. -/
structure UF (R : Type) where
  ist : IState
  trail : Trail R
  watch : List WList
  fns : List FApp
  lraWatch : Nat → List (LinCons × Nat)

namespace UF
variable {R : Type}

/-- The exchange of two elements in `on_assign`, src/uf/Uninterpreted_functions.cpp:28-30. -/
def swapHead (l : List Var) (i : Nat) : List Var :=
  match l[i]?, l[0]? with
  | some x, some y => (l.set i y).set 0 x
  | _, _ => l

/-- The loop of `on_assign`, src/uf/Uninterpreted_functions.cpp:25-32, for the indices below `n`. -/
def onAssign (tr : Trail R) : Nat → List Var → List Var
  | 0, l => l
  | i + 1, l =>
    onAssign tr i
      (match l[i]? with
       | some x => if (tr.level x).isSome then l else swapHead l i
       | none => l)

/-- `all_assigned`, src/uf/Uninterpreted_functions.cpp:6-8. -/
def allAssigned (tr : Trail R) (l : List Var) : Bool :=
  match l[0]? with
  | some x => (tr.level x).isSome
  | none => false

/-- `term_to_var`, src/uf/Uninterpreted_functions.cpp:65-88. -/
def termToVar (s : TermTable) (st : IState) (t : Tm) : Option Var :=
  match s.type t with
  | .real => (mapFind st.ratVars t).map Var.rat
  | .bool => (mapFind st.boolVars t).map Lit.var
  | .null => none

/-- `vars_to_watch`, src/uf/Uninterpreted_functions.cpp:90-117. The first argument bounds the depth of the
recursion; the index of the term is enough. -/
def varsToWatch (s : TermTable) (st : IState) : Nat → Tm → List Var
  | 0, _ => []
  | n + 1, t =>
    match s.kind t with
    | .arithConst | .constant => []
    | .product | .poly => (s.args t).flatMap (varsToWatch s st n)
    | _ => (termToVar s st t).toList

/-- `register_application_term`, src/uf/Uninterpreted_functions.cpp:119-133. -/
def watchFor (s : TermTable) (st : IState) (v : Var) (t : Tm) : WList :=
  ⟨v :: (s.args t).flatMap (fun a => varsToWatch s st (a.index + 1) a), t⟩

/-- `on_before_backtrack`, src/uf/Uninterpreted_functions.cpp:139-151. -/
def onBeforeBacktrack (u : UF R) (lvl : Nat) : UF R :=
  { u with fns := u.fns.filter fun e => !decide (e.level > lvl) }

/-- The `ARITH_POLY` case of `evaluate`, src/uf/Uninterpreted_functions.cpp:200-215: sum of the values and
maximum of the levels, starting with `acc`. -/
def evalSum (ev : Tm → Option (Val × Nat)) : List Tm → ℚ × Nat → Option (ℚ × Nat)
  | [], acc => some acc
  | a :: as, acc =>
    match ev a with
    | some (.q x, l) => evalSum ev as (acc.1 + x, max acc.2 l)
    | _ => none

/-- `evaluate`, src/uf/Uninterpreted_functions.cpp:153-223: the value of a term and the largest decision
level of its variables. The first argument bounds the depth of the recursion. `none`: a variable is not
assigned (`value()` throws), or the term is not supported (exception). -/
def evaluate (s : TermTable) (st : IState) (tr : Trail R) : Nat → Tm → Option (Val × Nat)
  | 0, _ => none
  | n + 1, t =>
    match termToVar s st t with
    | some v => (tr.level v).map fun l => (tr.valueOf v, l)
    | none =>
      match s.kind t with
      | .arithConst => some (.q (s.constValue t), 0)
      | .constant => some (.b (decide (t = Tm.tt)), 0)
      | .product =>
        match s.args t with
        | a :: b :: _ =>
          match evaluate s st tr n a, evaluate s st tr n b with
          | some (.q x, l), some (.q y, m) => some (.q (x * y), max l m)
          | _, _ => none
        | _ => none
      | .poly => (evalSum (evaluate s st tr n) (s.args t) (0, 0)).map fun r => (.q r.1, r.2)
      | _ => none

/-- `evaluate` with a sufficient bound. -/
def eval (s : TermTable) (u : UF R) (t : Tm) : Option (Val × Nat) :=
  evaluate s u.ist u.trail (t.index + 1) t

/-- The loop for an `ARITH_POLY` in `term_to_poly`, src/uf/Uninterpreted_functions.cpp:245-261. -/
def toPolyArgs (s : TermTable) (st : IState) : List Tm → UPoly → Option UPoly
  | [], p => some p
  | a :: as, p =>
    match termToVar s st a with
    | some v => toPolyArgs s st as ⟨p.terms ++ [(v.ord, 1)], p.const⟩
    | none =>
      match s.kind a with
      | .arithConst => toPolyArgs s st as ⟨p.terms, s.constValue a⟩
      | .product =>
        match termToVar s st (s.varOfProduct a) with
        | some v => toPolyArgs s st as ⟨p.terms ++ [(v.ord, s.coeffOfProduct a)], p.const⟩
        | none => none
      | _ => none

/-- `term_to_poly`, src/uf/Uninterpreted_functions.cpp:225-268. -/
def toPoly (s : TermTable) (st : IState) (t : Tm) : Option UPoly :=
  match termToVar s st t with
  | some v => some ⟨[(v.ord, 1)], 0⟩
  | none =>
    match s.kind t with
    | .arithConst => some ⟨[], s.constValue t⟩
    | .product =>
      (termToVar s st (s.varOfProduct t)).map fun v => ⟨[(v.ord, s.coeffOfProduct t)], 0⟩
    | .poly => toPolyArgs s st (s.args t) ⟨[], 0⟩
    | _ => none

/-- What `linear_constraint` reads and changes in the plugin for linear arithmetic: trail, constraints and
watch lists. The other members are not used. -/
def lra (u : UF R) : LA R :=
  { (LA.init : LA R) with trail := u.trail, store := u.ist.store, watched := u.lraWatch }

/-- `Yaga::linear_constraint`, src/Yaga.h:174-193, with `Linear_arithmetic::constraint`,
src/lra/Linear_arithmetic.h:104-125: a new constraint adds a Boolean variable to the trail (`add_variable`,
src/lra/Linear_arithmetic.cpp:384-394). `none`: a variable is out of range (exception), or a new constraint
has no variables (`watch` reads `vars()[0]`, src/lra/Linear_arithmetic.cpp:92-94). -/
def linear (cfg : ICfg) (u : UF R) (ts : List (Nat × ℚ)) (pred : Pred) (rhs : ℚ) : Option (UF R × Lit) :=
  if ts.any (fun p => decide (u.ist.numRat ≤ p.1)) then none
  else
    let r := u.lra.constraint cfg.hv cfg.hc ts pred rhs
    if decide (u.trail.bools.num ≤ r.2.lit.ord) && r.2.isEmpty then none
    else some ({ u with ist := { u.ist with store := r.1.store, numBool := r.1.trail.bools.num }
                        trail := r.1.trail, lraWatch := r.1.watched }, r.2.lit)

/-- `solver->linear_constraint`, src/uf/Uninterpreted_functions.cpp:285. -/
def constraint (cfg : ICfg) (u : UF R) (p : UPoly) : Option (UF R × Lit) :=
  linear cfg u p.terms .eq (-p.const)

/-- `assert_equality`, src/uf/Uninterpreted_functions.cpp:270-315; `c` is `result_clause`. -/
def assertEquality (cfg : ICfg) (s : TermTable) (u : UF R) (t t' : Tm) (c : Clause) (makeEqual : Bool) :
    Option (UF R × Clause) := do
  Internalizer.asserts cfg (decide (s.type t = s.type t'))
  if s.type t = .real then
    let p ← toPoly s u.ist t
    let p' ← toPoly s u.ist t'
    let p := p.sub p'
    if p.terms = [] then
      Internalizer.asserts cfg (decide (p.const = 0))
      some (u, c)
    else
      let p := p.sort fun v => (u.trail.level (Var.rat v)).map Int.ofNat
      let r ← constraint cfg u p
      Internalizer.asserts cfg (!r.2.isNeg)
      let lit := if makeEqual then r.2 else r.2.neg
      let areEqual := !makeEqual
      let u := r.1
      if u.trail.isDefined lit.var then some (u, c ++ [lit])
      else
        let e ← eval s u t
        let e' ← eval s u t'
        Internalizer.asserts cfg (areEqual == decide (e.1 = e'.1))
        some ({ u with trail := (u.trail.propagate lit.var none (max e.2 e'.2)).setValue lit.var (.b areEqual) },
          c ++ [lit])
  else some (u, c)

/-- The loop over the arguments in `add_function_value`, src/uf/Uninterpreted_functions.cpp:357-360. -/
def assertArgs (cfg : ICfg) (s : TermTable) : List Tm → List Tm → UF R → Clause → Option (UF R × Clause)
  | [], _, u, c => some (u, c)
  | _ :: _, [], _, _ => none
  | a :: as, b :: bs, u, c => do
    let r ← assertEquality cfg s u a b c false
    assertArgs cfg s as bs r.1 r.2

/-- The values of the arguments and the largest level, src/uf/Uninterpreted_functions.cpp:321-327. -/
def evalArgs (s : TermTable) (u : UF R) : List Tm → Option (List Val × Nat)
  | [] => some ([], 0)
  | a :: as =>
    match eval s u a, evalArgs s u as with
    | some e, some r => some (e.1 :: r.1, max e.2 r.2)
    | _, _ => none

/-- The entry of `functions` for a symbol and argument values. -/
def lookup (fns : List FApp) (f : Tm) (args : List Val) : Option FApp :=
  fns.find? fun e => decide (e.fn = f) && decide (e.args = args)

/-- `add_function_value`, src/uf/Uninterpreted_functions.cpp:318-366. -/
def addFunctionValue (cfg : ICfg) (s : TermTable) (u : UF R) (t : Tm) : Option (UF R × List Clause) := do
  let a ← evalArgs s u (s.args t)
  let e ← eval s u t
  let level := max a.2 e.2
  let f := s.fncSymbol t
  match lookup u.fns f a.1 with
  | none => some ({ u with fns := u.fns ++ [⟨f, a.1, e.1, t, level⟩] }, [])
  | some old =>
    if old.value = e.1 then some (u, [])
    else
      let r ← assertArgs cfg s (s.args old.term) (s.args t) u []
      let r ← assertEquality cfg s r.1 t old.term r.2 true
      some (r.1, [r.2])

/-- The inner loop of `propagate`, src/uf/Uninterpreted_functions.cpp:47-56, for one assigned variable; the
watch lists from the current one on, the ones before it are in `done`. -/
def propagateVar (cfg : ICfg) (s : TermTable) (v : Var) :
    List WList → List WList → UF R → List Clause → Option (UF R × List Clause)
  | done, [], u, cs => some ({ u with watch := done }, cs)
  | done, w :: ws, u, cs =>
    if w.watch[0]? = some v then
      let w := { w with watch := onAssign u.trail w.watch.length w.watch }
      if allAssigned u.trail w.watch then
        match addFunctionValue cfg s u w.term with
        | some r => propagateVar cfg s v (done ++ [w]) ws r.1 (cs ++ r.2)
        | none => none
      else propagateVar cfg s v (done ++ [w]) ws u cs
    else propagateVar cfg s v (done ++ [w]) ws u cs

/-- The outer loop of `propagate`, src/uf/Uninterpreted_functions.cpp:45-57. -/
def propagateVars (cfg : ICfg) (s : TermTable) :
    List (Asg R) → UF R → List Clause → Option (UF R × List Clause)
  | [], u, cs => some (u, cs)
  | a :: as, u, cs =>
    match propagateVar cfg s a.var [] u.watch u cs with
    | some r => propagateVars cfg s as r.1 r.2
    | none => none

/-- `propagate`, src/uf/Uninterpreted_functions.cpp:40-59: the conflict clauses. -/
def propagate (cfg : ICfg) (s : TermTable) (u : UF R) : Option (UF R × List Clause) :=
  propagateVars cfg s (u.trail.assigned u.trail.decisionLevel) u []

/-- The value of a function in `get_model`, src/uf/Uninterpreted_functions.cpp:368-378. -/
def fnModel (u : UF R) (f : Tm) (args : List Val) : Option Val := (lookup u.fns f args).map (·.value)

end UF

end Yaga
