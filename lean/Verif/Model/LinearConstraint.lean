/-
Model of `src/lra/Linear_constraint.h` and `src/lra/Linear_constraints.h`.

`Rational` is modelled by exact rational numbers; C19 and C20 justify this for every value the code
computes with. The two flat vectors `variables` and `coefficients` are kept as two lists.
-/
import Verif.Model.Trail
import Verif.Model.Std
import Mathlib.Data.Rat.Defs
import Mathlib.Algebra.Order.Field.Rat

namespace Yaga

/-- `Order_predicate::Type`, src/lra/Linear_constraint.h:24-28. -/
inductive Pred where
  | eq
  | lt
  | leq
  deriving DecidableEq, Repr

/-- `Order_predicate::operator()`, src/lra/Linear_constraint.h:73-86. -/
def Pred.app : Pred → ℚ → ℚ → Bool
  | .eq, a, b => decide (a = b)
  | .lt, a, b => decide (a < b)
  | .leq, a, b => decide (a ≤ b)

/-- `Linear_constraint`, src/lra/Linear_constraint.h:124-268: literal, index range, predicate and
right-hand side. The pointer to the repository is an explicit parameter of the functions below. -/
structure LinCons where
  lit : Lit
  first : Nat
  second : Nat
  pred : Pred
  rhs : ℚ
  deriving DecidableEq

namespace LinCons

/-- Default constructor, src/lra/Linear_constraint.h:133-136. Simplification: the literal, which the
code leaves uninitialised, is the literal of variable 0; no modelled function reads it. -/
def empty : LinCons := ⟨Lit.pos 0, 0, 0, .eq, 0⟩

/-- `empty()`, src/lra/Linear_constraint.h:173. -/
def isEmpty (c : LinCons) : Bool := decide (c.first ≥ c.second)

/-- `size()`, src/lra/Linear_constraint.h:179. -/
def size (c : LinCons) : Nat := c.second - c.first

/-- `operator~` and `negate`, src/lra/Linear_constraint.h:205-212. -/
def neg (c : LinCons) : LinCons := { c with lit := c.lit.neg }

/-- `is_strict`, src/lra/Linear_constraint.h:218-223. -/
def isStrict (c : LinCons) : Bool :=
  (c.lit.isNeg && c.pred == .leq) || (!c.lit.isNeg && c.pred == .lt) ||
    (c.lit.isNeg && c.pred == .eq)

end LinCons

/-- `Linear_constraints`, src/lra/Linear_constraints.h:212-219. `set` lists the elements of
`cons_set` in insertion order. -/
structure LinStore where
  vars : List Nat
  coefs : List ℚ
  cons : List LinCons
  set : List LinCons

namespace LinStore

/-- A repository without constraints. -/
def init : LinStore := ⟨[], [], [], []⟩

/-- Elements with indices in `[a, b)`. -/
def slice {α : Type} (l : List α) (a b : Nat) : List α := (l.drop a).take (b - a)

/-- `vars(cons)`, src/lra/Linear_constraints.h:112-127 and src/lra/Linear_constraint.h:185-189. -/
def varsOf (s : LinStore) (c : LinCons) : List Nat := slice s.vars c.first c.second

/-- `coef(cons)`, src/lra/Linear_constraints.h:134-149 and src/lra/Linear_constraint.h:195-199. -/
def coefsOf (s : LinStore) (c : LinCons) : List ℚ := slice s.coefs c.first c.second

/-- Variables and coefficients visited by two iterators that advance together, e.g.
src/lra/Linear_constraints.h:162-169. -/
def terms (s : LinStore) (c : LinCons) : List (Nat × ℚ) := (s.varsOf c).zip (s.coefsOf c)

/-- `eval(model, cons)`, src/lra/Linear_constraints.h:159-171. The precondition that the variables
are assigned is only needed for the values to be meaningful. -/
def eval (s : LinStore) (m : PModel ℚ) (c : LinCons) : Bool :=
  let rhs := (s.terms c).foldl (fun r p => r - p.2 * m.value p.1) c.rhs
  xor c.lit.isNeg (c.pred.app 0 rhs)

/-- Free function `eval(model, cons)`, src/lra/Linear_constraint.h:278-289. -/
def evalOpt (s : LinStore) (m : PModel ℚ) (c : LinCons) : Option Bool :=
  if (s.varsOf c).all (fun x => m.defined x) then some (s.eval m c) else none

/-- `implied_value`, src/lra/Linear_constraints.h:182-201: everything but the first term is moved
to the right-hand side. The result is not divided by the first coefficient. -/
def impliedValue (s : LinStore) (m : PModel ℚ) (c : LinCons) : ℚ :=
  ((s.terms c).drop 1).foldl (fun r p => r - p.2 * m.value p.1) c.rhs

/-- Loop of `find_norm_constant`, src/lra/Linear_constraints.h:231-238. The accumulator is
`(min_var, min_coef)`; `none` stands for the initial pair `(INT_MAX, 0)`. -/
def findMin : List (Nat × ℚ) → Option (Nat × ℚ) → Option (Nat × ℚ)
  | [], acc => acc
  | p :: ts, acc =>
    if (acc.all fun q => decide (p.1 < q.1)) && decide (p.2 ≠ 0)
    then findMin ts (some p) else findMin ts acc

/-- `find_norm_constant`, src/lra/Linear_constraints.h:223-244. Simplification: a variable with
ordinal `INT_MAX` does not occur. -/
def findNorm (ts : List (Nat × ℚ)) : Option ℚ :=
  match findMin ts none with
  | none => none
  | some p => if p.2 = 0 then none else some (1 / p.2)

/-- `norm_pred`, src/lra/Linear_constraints.h:247-262. -/
def normPred (mult : ℚ) (p : Pred) : Pred :=
  if mult < 0 then
    match p with
    | .lt => .leq
    | .leq => .lt
    | .eq => .eq
  else p

/-- The terms `add` stores, src/lra/Linear_constraints.h:277-301: variables with coefficient 0 are
removed, the other coefficients are multiplied by `mult`. -/
def normTerms (mult : ℚ) (ts : List (Nat × ℚ)) : List (Nat × ℚ) :=
  (ts.filter fun p => decide (p.2 ≠ 0)).map fun p => (p.1, p.2 * mult)

/-- Hash of a constraint, src/lra/Linear_constraint.h:367-383, with 64-bit wrap-around. `hv` and `hc`
are `std::hash<int>` and `std::hash<Rational>`. -/
def hash (hv : Nat → Nat) (hc : ℚ → Nat) (s : LinStore) (c : LinCons) : Nat :=
  let hashVar := (s.varsOf c).foldl (fun h x => (h + hv x) % 2 ^ 64) 0
  let hashConst := (s.coefsOf c).foldl (fun h q => (h + hc q) % 2 ^ 64) (hc c.rhs % 2 ^ 64)
  (hashVar * 3 + hashConst) % 2 ^ 64

/-- `brute_force_equal`, src/lra/Linear_constraint.h:422-446. -/
def bruteEqual (l r : List (Nat × ℚ)) : Bool :=
  l.all fun p => (r.find? (fun q => q.1 == p.1)).any fun q => decide (p.2 = q.2)

/-- `operator<` of `std::pair<int, Rational>`. -/
def pairLt (a b : Nat × ℚ) : Bool := decide (a.1 < b.1) || (a.1 == b.1 && decide (a.2 < b.2))

/-- `sort_equal`, src/lra/Linear_constraint.h:454-477. `std::lower_bound` on a sorted vector is the
first element that is not smaller. -/
def sortEqual (l r : List (Nat × ℚ)) : Bool :=
  let values := sortBy pairLt l
  r.all fun p => (values.find? (fun q => !pairLt q p)).any fun q =>
    q.1 == p.1 && decide (q.2 = p.2)

/-- `Linear_constraint_equal`, src/lra/Linear_constraint.h:396-411. -/
def equal (s : LinStore) (a b : LinCons) : Bool :=
  if a.size ≠ b.size ∨ a.pred ≠ b.pred ∨ a.rhs ≠ b.rhs then false
  else if a.size ≤ 4 then bruteEqual (s.terms a) (s.terms b)
  else sortEqual (s.terms a) (s.terms b)

/-- First part of `make`, src/lra/Linear_constraints.h:49-69, with `add` (lines 266-303): normalise the
input and append it. The third component is `is_negation`. -/
def append (s : LinStore) (ts : List (Nat × ℚ)) (pred : Pred) (rhs : ℚ) :
    LinStore × LinCons × Bool :=
  let k := s.cons.length
  match findNorm ts with
  | some mult =>
    let nt := normTerms mult ts
    let c : LinCons := ⟨Lit.pos k, s.vars.length, s.vars.length + nt.length, normPred mult pred,
      mult * rhs⟩
    ({ s with vars := s.vars ++ nt.map (·.1), coefs := s.coefs ++ nt.map (·.2),
              cons := s.cons ++ [c] }, c, pred != .eq && decide (mult < 0))
  | none =>
    let c : LinCons := ⟨Lit.pos k, 0, 0, .eq, 0⟩
    ({ s with cons := s.cons ++ [c] }, c, !pred.app 0 rhs)

/-- Second part of `make`, src/lra/Linear_constraints.h:71-83. `cons_set.insert` looks for an element
with the same hash that `Linear_constraint_equal` accepts. The erasures at lines 75-76 remove the
range that was appended last. -/
def dedup (hv : Nat → Nat) (hc : ℚ → Nat) (s : LinStore) (c : LinCons) (neg : Bool) :
    LinStore × LinCons :=
  match s.set.find? (fun e => hash hv hc s c == hash hv hc s e && equal s c e) with
  | none => ({ s with set := s.set ++ [c] }, if neg then c.neg else c)
  | some e =>
    ({ s with vars := s.vars.take (s.vars.length - c.size),
              coefs := s.coefs.take (s.coefs.length - c.size),
              cons := s.cons.dropLast }, if neg then e.neg else e)

/-- `make`, src/lra/Linear_constraints.h:44-84. The argument `ts` pairs the elements of the two
ranges. -/
def make (hv : Nat → Nat) (hc : ℚ → Nat) (s : LinStore) (ts : List (Nat × ℚ)) (pred : Pred)
    (rhs : ℚ) : LinStore × LinCons :=
  let b := append s ts pred rhs
  dedup hv hc b.1 b.2.1 b.2.2

/-- `resize`, src/lra/Linear_constraints.h:90. -/
def resize (s : LinStore) (n : Nat) : LinStore :=
  { s with cons := s.cons.take n ++ List.replicate (n - s.cons.length) LinCons.empty }

/-- `operator[]`, src/lra/Linear_constraints.h:98-105. -/
def get (s : LinStore) (ord : Nat) : LinCons := (s.cons[ord]?).getD LinCons.empty

/-- `Linear_arithmetic::constraint(Literal)`, src/lra/Linear_arithmetic.h:158-166. -/
def constraint (s : LinStore) (l : Lit) : LinCons :=
  let c := s.get l.ord
  if c.isEmpty then c else if c.lit ≠ l then c.neg else c

/-- Exchange the elements at two indices (`std::iter_swap`). -/
def swapAt {α : Type} (l : List α) (i j : Nat) : List α :=
  match l[i]?, l[j]? with
  | some x, some y => (l.set i y).set j x
  | _, _ => l

/-- The pair of `std::iter_swap` calls with which the theory reorders the variables of a constraint
(src/lra/Linear_arithmetic.cpp:113-114, 145-146, 162-163): positions `i` and `j` of `c`. -/
def swapTerms (s : LinStore) (c : LinCons) (i j : Nat) : LinStore :=
  { s with vars := swapAt s.vars (c.first + i) (c.first + j),
           coefs := swapAt s.coefs (c.first + i) (c.first + j) }

end LinStore

/-- What the solver does with the repository: it creates constraints, it learns about new boolean
variables, and it reorders the variables of an existing constraint. -/
inductive LinOp where
  | make (ts : List (Nat × ℚ)) (pred : Pred) (rhs : ℚ)
  | resize (n : Nat)
  | swap (ord i j : Nat)

namespace LinOp

/-- Preconditions of the operations. `make`: the variables are distinct (the polynomials the callers
pass are merged). `resize`: the number of boolean variables does not decrease
(src/lra/Linear_arithmetic.cpp:388-394). `swap`: the positions lie in the constraint. -/
def Ok (s : LinStore) : LinOp → Prop
  | .make ts _ _ => (ts.map (·.1)).Nodup
  | .resize n => s.cons.length ≤ n
  | .swap ord i j => i < (s.get ord).size ∧ j < (s.get ord).size

/-- Effect of an operation on the repository. -/
def run (hv : Nat → Nat) (hc : ℚ → Nat) (s : LinStore) : LinOp → LinStore
  | .make ts p r => (s.make hv hc ts p r).1
  | .resize n => s.resize n
  | .swap ord i j => s.swapTerms (s.get ord) i j

end LinOp

/-- `s'` is reached from `s` by operations whose preconditions hold. -/
inductive LinSteps (hv : Nat → Nat) (hc : ℚ → Nat) : LinStore → LinStore → Prop where
  | refl (s : LinStore) : LinSteps hv hc s s
  | step {s t : LinStore} (op : LinOp) (h : LinSteps hv hc s t) (ok : op.Ok t) :
      LinSteps hv hc s (op.run hv hc t)

end Yaga
