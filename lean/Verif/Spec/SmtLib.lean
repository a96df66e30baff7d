/-
Specification for C71: the sorts and the meaning of the terms of SMT-LIB over the theory of reals and
uninterpreted functions, and of the declarations, definitions and assertions of a script.
-/
import Verif.Spec.Syntax
import Verif.Spec.Term
import Verif.Spec.Decimal

namespace Yaga.Spec

/-- The sorts `Bool` and `Real`. -/
inductive Srt where
  | bool
  | real
  deriving DecidableEq

/-- The sort of a value. -/
def Val.srt : Val → Srt
  | .b _ => .bool
  | .q _ => .real

/-! ### The theory symbols -/

/-- The functions of the theories Core and Reals. -/
inductive TOp where
  | not | and | or | xor | implies | eq | distinct | ite
  | le | lt | ge | gt | add | sub | mul | div
  deriving DecidableEq

/-- Their names. -/
def theorySymbols : List (String × TOp) :=
  [("not", .not), ("and", .and), ("or", .or), ("xor", .xor), ("=>", .implies), ("=", .eq),
    ("distinct", .distinct), ("ite", .ite), ("<=", .le), ("<", .lt), (">=", .ge), (">", .gt), ("+", .add),
    ("-", .sub), ("*", .mul), ("/", .div)]

/-- The function with a name. -/
def theoryOp (f : String) : Option TOp := innermost theorySymbols f

/-- At least two arguments, all of the given sort. -/
def allOf (s : Srt) (ss : List Srt) : Bool := decide (2 ≤ ss.length) && ss.all fun x => decide (x = s)

/-- The sort of the result for arguments of the given sorts; `none` if the application is not well-sorted.
`and`, `or`, `xor`, `+`, `-`, `*`, `/` are left associative, `=>` is right associative, `=` and the
comparisons are chainable, `distinct` is pairwise. -/
def TOp.sort : TOp → List Srt → Option Srt
  | .not, ss => if ss = [.bool] then some .bool else none
  | .and, ss => if allOf .bool ss then some .bool else none
  | .or, ss => if allOf .bool ss then some .bool else none
  | .xor, ss => if allOf .bool ss then some .bool else none
  | .implies, ss => if allOf .bool ss then some .bool else none
  | .eq, ss => if allOf .bool ss || allOf .real ss then some .bool else none
  | .distinct, ss => if allOf .bool ss || allOf .real ss then some .bool else none
  | .ite, ss =>
    if ss = [.bool, .bool, .bool] then some .bool
    else if ss = [.bool, .real, .real] then some .real
    else none
  | .le, ss => if allOf .real ss then some .bool else none
  | .lt, ss => if allOf .real ss then some .bool else none
  | .ge, ss => if allOf .real ss then some .bool else none
  | .gt, ss => if allOf .real ss then some .bool else none
  | .add, ss => if allOf .real ss then some .real else none
  | .sub, ss => if allOf .real ss || decide (ss = [.real]) then some .real else none
  | .mul, ss => if allOf .real ss then some .real else none
  | .div, ss => if allOf .real ss then some .real else none

/-- Every two neighbours are related. -/
def chain (R : Val → Val → Bool) : List Val → Bool
  | a :: b :: vs => R a b && chain R (b :: vs)
  | _ => true

/-- `v₁ => (v₂ => (... => vₙ))`. -/
def implication : List Val → Bool
  | [] => true
  | [v] => v.bool
  | v :: vs => !v.bool || implication vs

/-- The meaning of the theory symbols. (In SMT-LIB the value of a division by zero is arbitrary; here it is
0. The parser rejects such divisions.) -/
def TOp.value : TOp → List Val → Val
  | .not, vs => .b (!(vs.headD (.b false)).bool)
  | .and, vs => .b (vs.all Val.bool)
  | .or, vs => .b (vs.any Val.bool)
  | .xor, vs => .b (vs.foldl (fun acc v => acc != v.bool) false)
  | .implies, vs => .b (implication vs)
  | .eq, vs => .b (chain (fun a b => decide (a = b)) vs)
  | .distinct, vs => .b (decide vs.Nodup)
  | .ite, vs =>
    match vs with
    | [c, t, e] => if c.bool then t else e
    | _ => .b false
  | .le, vs => .b (chain (fun a b => decide (a.num ≤ b.num)) vs)
  | .lt, vs => .b (chain (fun a b => decide (a.num < b.num)) vs)
  | .ge, vs => .b (chain (fun a b => decide (a.num ≥ b.num)) vs)
  | .gt, vs => .b (chain (fun a b => decide (a.num > b.num)) vs)
  | .add, vs => .q (vs.map Val.num).sum
  | .sub, vs =>
    match vs with
    | [v] => .q (-v.num)
    | v :: vs => .q (vs.foldl (fun acc w => acc - w.num) v.num)
    | [] => .q 0
  | .mul, vs => .q (vs.map Val.num).prod
  | .div, vs =>
    match vs with
    | v :: vs => .q (vs.foldl (fun acc w => acc / w.num) v.num)
    | [] => .q 0

/-! ### Literals -/

/-- The digit of a character. -/
def charDigit (c : Char) : Fin 10 := ⟨(c.toNat - 48) % 10, Nat.mod_lt _ (by decide)⟩

/-- The value of a numeral. -/
def numVal (s : String) : ℚ := intVal (s.toList.map charDigit)

/-- The value of a decimal. -/
def decVal (s : String) : ℚ :=
  intVal ((s.toList.takeWhile (· != '.')).map charDigit) +
    fracVal ((s.toList.dropWhile (· != '.')).tail.map charDigit)

/-- A numeral consists of digits. -/
def isNum (s : String) : Bool := s.toList.all Char.isDigit

/-- A decimal consists of digits, a point, and digits. -/
def isDec (s : String) : Bool :=
  s.toList.contains '.' && (s.toList.takeWhile (· != '.')).all Char.isDigit &&
    (s.toList.dropWhile (· != '.')).tail.all Char.isDigit

/-! ### Terms -/

/-- A structure: the meaning of the declared and defined function symbols (constants have no arguments). -/
abbrev Struct := String → List Val → Val

/-- The ranks of the declared and defined symbols, the latest first: sorts of the arguments and of the
result. -/
abbrev Sig := List (String × List Srt × Srt)

mutual
/-- The sort of a term, where `env` has the sorts of the variables bound by `let`, the innermost first;
`none` if it is not well-sorted. A variable hides a constant of the same name. -/
def Expr.sort (Γ : Sig) (env : List (String × Srt)) : Expr → Option Srt
  | .sym n =>
    match innermost env n with
    | some s => some s
    | none =>
      if n = "true" ∨ n = "false" then some .bool
      else
        match innermost Γ n with
        | some r => if r.1 = [] then some r.2 else none
        | none => none
  | .num n => if isNum n then some .real else none
  | .dec n => if isDec n then some .real else none
  | .app f args =>
    (args.sorts Γ env).bind fun ss =>
      match theoryOp f with
      | some o => o.sort ss
      | none =>
        match innermost Γ f with
        | some r => if r.1 = ss ∧ ss ≠ [] then some r.2 else none
        | none => none
  | .letE bs body => (bs.sorts Γ env).bind fun ss => body.sort Γ (ss.reverse ++ env)
def Exprs.sorts (Γ : Sig) (env : List (String × Srt)) : Exprs → Option (List Srt)
  | .nil => some []
  | .cons e es => (e.sort Γ env).bind fun s => (es.sorts Γ env).map fun ss => s :: ss
def Binds.sorts (Γ : Sig) (env : List (String × Srt)) : Binds → Option (List (String × Srt))
  | .nil => some []
  | .cons n e bs => (e.sort Γ env).bind fun s => (bs.sorts Γ env).map fun ss => (n, s) :: ss
end

mutual
/-- The value of a term in a structure, where `env` has the values of the variables bound by `let`. -/
def Expr.value (M : Struct) (env : List (String × Val)) : Expr → Val
  | .sym n =>
    match innermost env n with
    | some v => v
    | none => if n = "true" then .b true else if n = "false" then .b false else M n []
  | .num n => .q (numVal n)
  | .dec n => .q (decVal n)
  | .app f args =>
    match theoryOp f with
    | some o => o.value (args.values M env)
    | none => M f (args.values M env)
  | .letE bs body => body.value M ((bs.values M env).reverse ++ env)
def Exprs.values (M : Struct) (env : List (String × Val)) : Exprs → List Val
  | .nil => []
  | .cons e es => e.value M env :: es.values M env
def Binds.values (M : Struct) (env : List (String × Val)) : Binds → List (String × Val)
  | .nil => []
  | .cons n e bs => (n, e.value M env) :: bs.values M env
end

mutual
/-- No variable of a `let` is called `true` or `false`. -/
def Expr.fair : Expr → Bool
  | .sym _ | .num _ | .dec _ => true
  | .app _ args => args.fair
  | .letE bs body => bs.fair && body.fair
def Exprs.fair : Exprs → Bool
  | .nil => true
  | .cons e es => e.fair && es.fair
def Binds.fair : Binds → Bool
  | .nil => true
  | .cons n e bs => decide (n ≠ "true" ∧ n ≠ "false") && e.fair && bs.fair
end

/-! ### Scripts -/

/-- The commands that make the problem: declaring a constant or a function, defining a constant,
asserting. -/
inductive Item where
  | declare (n : String) (args : List Srt) (r : Srt)
  | define (n : String) (r : Srt) (e : Expr)
  | assert (e : Expr)

/-- A name that can be declared: it is not in use and not a symbol of the theories. -/
def Sig.fresh (Γ : Sig) (n : String) : Prop :=
  innermost Γ n = none ∧ theoryOp n = none ∧ n ≠ "true" ∧ n ≠ "false"

/-- The signature after a command. -/
def Item.sig (Γ : Sig) : Item → Sig
  | .declare n args r => (n, args, r) :: Γ
  | .define n r _ => (n, [], r) :: Γ
  | .assert _ => Γ

/-- A command is well-formed when the symbols `Γ` are known. -/
def Item.Ok (Γ : Sig) : Item → Prop
  | .declare n _ _ => Γ.fresh n
  | .define n r e => Γ.fresh n ∧ e.sort Γ [] = some r ∧ e.fair = true
  | .assert e => e.sort Γ [] = some .bool ∧ e.fair = true

/-- A sequence of commands is well-formed. -/
def wellFormed (Γ : Sig) : List Item → Prop
  | [] => True
  | i :: is => i.Ok Γ ∧ wellFormed (i.sig Γ) is

/-- The signature of a script. -/
def sigOf (is : List Item) : Sig := is.foldl Item.sig []

/-- The functions of a structure have values of the right sorts. -/
def Struct.Sorted (M : Struct) (Γ : Sig) : Prop :=
  ∀ f as r, innermost Γ f = some (as, r) → ∀ vs : List Val, vs.map Val.srt = as → (M f vs).srt = r

/-- The defined constants have the values of their definitions. -/
def Struct.Defines (M : Struct) (is : List Item) : Prop :=
  ∀ n r e, Item.define n r e ∈ is → M n [] = e.value M []

/-- A structure for the symbols of the script. -/
def Struct.For (M : Struct) (is : List Item) : Prop := M.Sorted (sigOf is) ∧ M.Defines is

/-- The asserted terms. -/
def asserted : List Item → List Expr
  | [] => []
  | .assert e :: is => e :: asserted is
  | .declare _ _ _ :: is => asserted is
  | .define _ _ _ :: is => asserted is

/-- The problem of the script is satisfiable. -/
def Satisfiable (is : List Item) : Prop :=
  ∃ M : Struct, M.For is ∧ ∀ e ∈ asserted is, e.value M [] = .b true

end Yaga.Spec
