/-
Model of the command `get-model`: `Print_model`, src/parser/Smt2_parser.cpp:20-149, `Solver_wrapper::model`,
src/parser/Solver_wrapper.cpp:90-119, `Uninterpreted_functions::get_model`,
src/uf/Uninterpreted_functions.cpp:368-378, and `Long_fraction::print`, src/lra/Long_fraction.cpp:80-95.

The output stream is a list of characters. `none` is undefined behaviour.
-/
import Verif.Model.Uf
import Verif.Model.LongFraction
import Verif.Model.Std

namespace Yaga

/-- Output of a natural number by the standard library and by GMP (contract): its decimal digits. -/
def decimal (n : Nat) : List Char := Nat.toDigits 10 n

/-- Output of an integer by the standard library and by GMP (contract). -/
def decimalInt (x : Int) : List Char := if x < 0 then '-' :: decimal x.natAbs else decimal x.natAbs

/-- `Long_fraction::print`, src/lra/Long_fraction.cpp:80-95, called by `operator<<`,
src/lra/Long_fraction.h:439-443. -/
def LF.print (a : LF) : List Char :=
  let sign := decide (a.sign < 0)
  if a.wv then
    let absNum := decimalInt (absW a.num)
    if a.den = 1 then
      (if sign then "(- ".toList else []) ++ absNum ++ (if sign then ")".toList else [])
    else
      "(/ ".toList ++ (if sign then "(- ".toList else []) ++ absNum ++ (if sign then ") ".toList else " ".toList) ++
        decimalInt a.den ++ ")".toList
  else
    let n := if sign then -a.q.n else a.q.n
    "(/ ".toList ++ (if sign then "(- ".toList else []) ++ decimalInt n ++ (if sign then ") ".toList else " ".toList) ++
      decimalInt a.q.d ++ ")".toList

namespace PrintModel

/-- `print_variable`, src/parser/Smt2_parser.cpp:25-30. `pr` gives the object for a number. -/
def printVariable (pr : ℚ → LF) : Val → List Char
  | .b x => if x then "true".toList else "false".toList
  | .q x => (pr x).print

/-- `std::variant::index` of `var_value_t`, src/terms/Term_types.h:32. -/
def index : Val → Nat
  | .b _ => 0
  | .q _ => 1

/-- `print_type`, src/parser/Smt2_parser.cpp:32-42; `real_type` is 1 (src/terms/Term_types.h:37-38). -/
def printType (t : Nat) : List Char := if t = 1 then "Real".toList else "Bool".toList

/-- `visit`, src/parser/Smt2_parser.cpp:72-82; `name` is the answer of `get_term_name`. -/
def visit (pr : ℚ → LF) (name : Option (List Char)) (value : Val) : List Char :=
  match name with
  | none => []
  | some n =>
    "(define-fun ".toList ++ n ++ " () ".toList ++ printType (index value) ++ " ".toList ++ printVariable pr value ++
      ")\n".toList

/-- The names of the parameters, src/parser/Smt2_parser.cpp:101. -/
def argName (i : Nat) : List Char := 'x' :: decimal i

/-- The loop over the arguments of the first entry, src/parser/Smt2_parser.cpp:99-106, from the index `i` on. -/
def params : Nat → List Val → List Char
  | _, [] => []
  | i, v :: vs =>
    (if i > 0 then " (".toList else "(".toList) ++ argName i ++ " ".toList ++ printType (index v) ++ ")".toList ++
      params (i + 1) vs

/-- The loop over the arguments of an entry, src/parser/Smt2_parser.cpp:126-131. `none`: `arg_names[j]` is out
of range. -/
def equations (pr : ℚ → LF) : List (List Char) → List Val → Option (List Char)
  | _, [] => some []
  | [], _ :: _ => none
  | x :: xs, v :: vs => (equations pr xs vs).map fun t => " (= ".toList ++ x ++ " ".toList ++ printVariable pr v ++
      ")".toList ++ t

/-- An iteration of the loop over the entries, src/parser/Smt2_parser.cpp:118-139. -/
def entry (pr : ℚ → LF) (names : List (List Char)) (e : List Val × Val) : Option (List Char) :=
  (equations pr names e.1).map fun t =>
    "  (ite".toList ++ (if names.length > 1 then " (and".toList else []) ++ t ++
      (if names.length > 1 then ")".toList else []) ++ " ".toList ++ printVariable pr e.2 ++ "\n".toList

/-- The loop over the entries. -/
def entries (pr : ℚ → LF) (names : List (List Char)) : List (List Val × Val) → Option (List Char)
  | [] => some []
  | e :: es =>
    match entry pr names e, entries pr names es with
    | some a, some b => some (a ++ b)
    | _, _ => none

/-- `visit_fnc`, src/parser/Smt2_parser.cpp:91-148. `none`: `values` is empty, so that `values.begin()` must not
be dereferenced. -/
def visitFnc (pr : ℚ → LF) (name : Option (List Char)) (values : List (List Val × Val)) : Option (List Char) :=
  match name with
  | none => some []
  | some n =>
    match values with
    | [] => none
    | (args, elseValue) :: rest =>
      let names := (List.range args.length).map argName
      (entries pr names rest).map fun t =>
        "(define-fun ".toList ++ n ++ " (".toList ++ params 0 args ++ ") ".toList ++ printType (index elseValue) ++
          "\n".toList ++ t ++ "       ".toList ++ printVariable pr elseValue ++ " ".toList ++
          List.replicate values.length ')' ++ "\n".toList

/-- `operator<` of `var_value_t` (`std::variant`): by index, then by value. -/
def valLt : Val → Val → Bool
  | .b x, .b y => !x && y
  | .b _, .q _ => true
  | .q _, .b _ => false
  | .q x, .q y => decide (x < y)

/-- `operator<` of vectors of values: lexicographic. -/
def argsLt : List Val → List Val → Bool
  | [], [] => false
  | [], _ :: _ => true
  | _ :: _, [] => false
  | a :: as, b :: bs => valLt a b || (decide (a = b) && argsLt as bs)

/-- `get_model`, src/uf/Uninterpreted_functions.cpp:368-378; `fs` are the keys of `functions`, in the order in
which `unordered_map` gives them. The values of a function are ordered by the arguments (`std::map`). -/
def tables (fns : List FApp) (fs : List Tm) : List (Tm × List (List Val × Val)) :=
  fs.map fun f => (f, sortBy (fun a b => argsLt a.1 b.1)
    ((fns.filter fun e => decide (e.fn = f)).map fun e => (e.args, e.value)))

/-- `variables`, src/parser/Solver_wrapper.cpp:50-66. -/
def varMap (s : TermTable) (st : IState) : List (Tm × Var) :=
  ((st.boolVars.filter fun p => s.kind p.1 = .uninterpreted || s.kind p.1 = .app).map fun p => (p.1, p.2.var)) ++
  ((st.ratVars.filter fun p => s.kind p.1 = .uninterpreted || s.kind p.1 = .app).map fun p => (p.1, Var.rat p.2))

variable {R : Type}

/-- The body of the loop over `variables`, src/parser/Solver_wrapper.cpp:97-107. -/
def constant (pr : ℚ → LF) (nm : Tm → Option (List Char)) (s : TermTable) (tr : Trail R) (p : Tm × Var) : List Char :=
  if s.kind p.1 ≠ .uninterpreted then []
  else
    match p.2.type with
    | .boolean => if tr.bools.defined p.2.ord then visit pr (nm p.1) (.b (tr.bools.value p.2.ord)) else []
    | .rational => if tr.rats.defined p.2.ord then visit pr (nm p.1) (.q (tr.rats.value p.2.ord)) else []

/-- The loop over the functions, src/parser/Solver_wrapper.cpp:114-118. -/
def functions (pr : ℚ → LF) (nm : Tm → Option (List Char)) : List (Tm × List (List Val × Val)) → Option (List Char)
  | [] => some []
  | p :: ps =>
    match visitFnc pr (nm p.1) p.2, functions pr nm ps with
    | some a, some b => some (a ++ b)
    | _, _ => none

/-- The response to `get-model` after the answer `sat`, src/parser/Smt2_parser.cpp:323-328, with
`Solver_wrapper::model`, src/parser/Solver_wrapper.cpp:90-119. `vs` are the entries of `variables` in the order
in which `unordered_map` gives them, `nm` is `get_term_name` (src/terms/Terms.cpp:217-225), `fns` is the answer of
`get_function_model` (src/Yaga.cpp:122-127; empty if the logic has no functions). -/
def getModel (pr : ℚ → LF) (nm : Tm → Option (List Char)) (s : TermTable) (tr : Trail R) (vs : List (Tm × Var))
    (fns : List (Tm × List (List Val × Val))) : Option (List Char) :=
  (functions pr nm fns).map fun t => "(".toList ++ vs.flatMap (constant pr nm s tr) ++ t ++ ")\n".toList

end PrintModel
end Yaga
