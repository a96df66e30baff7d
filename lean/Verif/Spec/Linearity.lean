/-
Specification for C73: a syntactic fragment of linear scripts.
-/
import Verif.Spec.SmtLib

namespace Yaga.Spec

/-- What is known of a term of sort `Real` from its syntax: it is the constant `q`; it is a constant, a variable
or an application of a declared function or `ite` (not a multiple of another term); it is no constant multiple of
a constant multiple; nothing. Terms of sort `Bool` are always `prim`. -/
inductive Lin where
  | const (q : ℚ)
  | prim
  | flat
  | any
  deriving DecidableEq

/-- A constant, a variable, an application, `ite`. -/
def Lin.isPrim : Lin → Bool
  | .const _ | .prim => true
  | .flat | .any => false

/-- Not possibly a multiple of a multiple. -/
def Lin.isFlat : Lin → Bool
  | .const _ | .prim | .flat => true
  | .any => false

/-- A constant multiple of a term. -/
def Lin.multiple (l : Lin) : Lin := if l.isPrim then .flat else .any

/-- The fragment: the form of an application of a theory symbol to arguments of the given forms; `none` if it is
outside the fragment. `=>`, `xor`, `=` and the comparisons have two arguments, `-` one or two; of the two factors
of a product one is a constant; the divisor is a constant different from 0; the arguments of `=` and `distinct`
are not multiples of multiples. -/
def TOp.lin : TOp → List Lin → Option Lin
  | .not, _ | .and, _ | .or, _ => some .prim
  | .distinct, ls => if ls.all Lin.isFlat then some .prim else none
  | .eq, [a, b] => if a.isFlat && b.isFlat then some .prim else none
  | .xor, [_, _] | .implies, [_, _] => some .prim
  | .le, [_, _] | .lt, [_, _] | .ge, [_, _] | .gt, [_, _] => some .prim
  | .ite, [_, a, b] =>
    some (if a.isPrim && b.isPrim then .prim else if a.isFlat && b.isFlat then .flat else .any)
  | .add, _ => some .flat
  | .sub, [.const q] => some (.const (-q))
  | .sub, [_] | .sub, [_, _] => some .flat
  | .mul, [.const p, .const q] => some (.const (p * q))
  | .mul, [.const _, b] => some b.multiple
  | .mul, [a, .const _] => some a.multiple
  | .div, [.const p, .const q] => if q = 0 then none else some (.const (p / q))
  | .div, [a, .const q] => if q = 0 then none else some a.multiple
  | _, _ => none

mutual
/-- The form of a term, where `env` has the forms of the variables bound by `let`, the innermost first, followed
by those of the declared and defined constants; `none` if the term is outside the fragment. -/
def Expr.lin (env : List (String × Lin)) : Expr → Option Lin
  | .sym n => some ((innermost env n).getD .prim)
  | .num n => some (.const (numVal n))
  | .dec n => some (.const (decVal n))
  | .app f args =>
    (args.lins env).bind fun ls =>
      match theoryOp f with
      | some o => o.lin ls
      | none => some .prim
  | .letE bs body => (bs.lins env).bind fun ls => body.lin (ls.reverse ++ env)
def Exprs.lins (env : List (String × Lin)) : Exprs → Option (List Lin)
  | .nil => some []
  | .cons e es => (e.lin env).bind fun l => (es.lins env).map fun ls => l :: ls
def Binds.lins (env : List (String × Lin)) : Binds → Option (List (String × Lin))
  | .nil => some []
  | .cons n e bs => (e.lin env).bind fun l => (bs.lins env).map fun ls => (n, l) :: ls
end

/-- The forms of the constants after a command; `none` if a term of the command is outside the fragment. -/
def Item.lin (env : List (String × Lin)) : Item → Option (List (String × Lin))
  | .declare n _ _ => some ((n, .prim) :: env)
  | .define n _ e => (e.lin env).map fun l => (n, l) :: env
  | .assert e => (e.lin env).map fun _ => env

/-- The commands are in the fragment. -/
def linear (env : List (String × Lin)) : List Item → Bool
  | [] => true
  | i :: is =>
    match i.lin env with
    | some env => linear env is
    | none => false

mutual
/-- Restriction for scripts with functions: the arguments of declared functions are constants, variables,
applications or `ite`; no sums, differences and multiples. -/
def Expr.plain (env : List (String × Lin)) : Expr → Bool
  | .sym _ | .num _ | .dec _ => true
  | .app f args =>
    args.plains env && ((theoryOp f).isSome ||
      match args.lins env with
      | some ls => ls.all Lin.isPrim
      | none => false)
  | .letE bs body =>
    bs.plains env &&
      match bs.lins env with
      | some ls => body.plain (ls.reverse ++ env)
      | none => false
def Exprs.plains (env : List (String × Lin)) : Exprs → Bool
  | .nil => true
  | .cons e es => e.plain env && es.plains env
def Binds.plains (env : List (String × Lin)) : Binds → Bool
  | .nil => true
  | .cons _ e bs => e.plain env && bs.plains env
end

/-- The terms of a command have plain arguments. -/
def Item.plain (env : List (String × Lin)) : Item → Bool
  | .declare .. => true
  | .define _ _ e | .assert e => e.plain env

/-- The terms of the commands have plain arguments. -/
def plainArgs (env : List (String × Lin)) : List Item → Bool
  | [] => true
  | i :: is =>
    i.plain env &&
      match i.lin env with
      | some env => plainArgs env is
      | none => false

/-- The declared functions take and return reals. -/
def realFunctions (is : List Item) : Prop :=
  ∀ n as r, Item.declare n as r ∈ is → as ≠ [] → r = .real ∧ ∀ a ∈ as, a = .real

end Yaga.Spec
