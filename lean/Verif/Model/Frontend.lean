/-
Model of `src/parser/Parser_context.cpp`: declared and defined names and the terms made for them. It provides
the functions that `parse_term` (Model/TermParser.lean) calls.

`none` is an exception or a failed assertion.
-/
import Verif.Model.TermParser
import Verif.Model.Rewriter
import Verif.Model.Decimal
import Verif.Spec.Fraction
import Verif.Spec.SmtLib

namespace Yaga

/-- The term table with its tables of names (src/terms/Terms.h:144-154), `declared_functions` and
`defined_functions` of `Parser_context` (src/parser/Parser_context.h:90-156). Maps are lists of pairs, the
latest first; no key is inserted twice. A defined function has its formal parameters, its return sort and its
body. -/
structure Names where
  table : TermTable
  names : List (String × Tm)
  decls : List (String × List Ty × Ty)
  defs : List (String × List Tm × Ty × Tm)

/-- `get_type_for_symbol`, src/parser/Parser_context.cpp:49-58, for the two known sorts. -/
def Spec.Srt.ty : Spec.Srt → Ty
  | .bool => .bool
  | .real => .real

/-- `find` of the maps. -/
def assoc {α : Type} (l : List (String × α)) (n : String) : Option α :=
  match l with
  | [] => none
  | p :: l => if p.1 = n then some p.2 else assoc l n

namespace Names

variable (H : TermHash)

/-- The state of a new `Parser_context`. -/
def init : Names := ⟨TermTable.init H, [], [], []⟩

/-- `set_term_name`, src/terms/Terms.cpp:202-215. `none`: the assertion at line 206 (the name is in use). The
term is new, so that the assertion at line 212 holds. -/
def setName (s : Names) (t : Tm) (n : String) : Option Names :=
  match assoc s.names n with
  | some _ => none
  | none => some { s with names := (n, t) :: s.names }

/-- `declare_uninterpreted_constant`, src/parser/Parser_context.cpp:78-83. -/
def declareConst (s : Names) (ty : Ty) (n : String) : Option Names :=
  let r := s.table.fresh ty
  ({ s with table := r.1 } : Names).setName r.2 n

/-- `declare_uninterpreted_function`, src/parser/Parser_context.cpp:85-91. (The assertion of `insert`,
src/parser/Parser_context.h:148, holds if the one of `set_term_name` does.) -/
def declareFun (s : Names) (ty : Ty) (args : List Ty) (n : String) : Option Names :=
  let r := s.table.fresh ty
  (({ s with table := r.1 } : Names).setName r.2 n).map fun s => { s with decls := (n, args, ty) :: s.decls }

/-- `store_defined_fun`, src/parser/Parser_context.cpp:137-141. `none`: the assertion of
`Defined_functions::insert`, src/parser/Parser_context.h:125. -/
def storeDefined (s : Names) (n : String) (body : Tm) (params : List Tm) (ty : Ty) : Option Names :=
  match assoc s.defs n with
  | some _ => none
  | none => some { s with defs := (n, params, ty, body) :: s.defs }

/-- The end of `get_term_for_symbol`, src/parser/Parser_context.cpp:38-46: a defined name must not have
parameters (assertion at line 41), another must have been declared (assertion at line 45). -/
def global (s : Names) (n : String) : Option Tm :=
  match assoc s.defs n with
  | some d => if d.1 = [] then some d.2.2 else none
  | none => assoc s.names n

/-- `Term_manager::mk_term` with the name of an operator, src/terms/Term_manager.cpp:155-262, called with
`not_app = true`. `none`: the number of arguments is wrong (assertions, and `mk_eq`, lines 281-288) or the
operator is unknown (line 254). -/
def mkTermOp (s : TermTable) (op : String) (args : List Tm) : Option (TermTable × Tm) :=
  if op = ">=" then
    match args with
    | [a, b] => s.mkGeq H a b
    | _ => none
  else if op = "<=" then
    match args with
    | [a, b] => s.mkLeq H a b
    | _ => none
  else if op = "<" then
    match args with
    | [a, b] => s.mkLt H a b
    | _ => none
  else if op = ">" then
    match args with
    | [a, b] => s.mkGt H a b
    | _ => none
  else if op = "=" then
    match args with
    | [a, b] => s.mkBinaryEq H a b
    | _ => none
  else if op = "or" then some (s.mkOr H args)
  else if op = "and" then some (s.mkAnd H args)
  else if op = "=>" then
    match args with
    | [a, b] => some (s.mkImplies H a b)
    | _ => none
  else if op = "not" then
    match args with
    | [a] => some (s, a.opp)
    | _ => none
  else if op = "-" then
    match args with
    | [a] => s.mkUnaryMinus H a
    | [a, b] => s.mkMinus H a b
    | _ => none
  else if op = "+" then s.mkPlus H args
  else if op = "*" then s.mkTimes H args
  else if op = "/" then
    match args with
    | [a, b] => s.mkDivides H a b
    | _ => none
  else if op = "ite" then
    match args with
    | [c, t, e] => s.mkIte H c t e
    | _ => none
  else if op = "xor" then
    match args with
    | [a, b] => some (s.mkXor H a b)
    | _ => none
  else if op = "distinct" then s.mkDistinct H args
  else none

/-- `resolve_term`, src/parser/Parser_context.cpp:103-123. For a declared function the number and the types of
the arguments are checked by assertions (lines 112-118); `mk_app` (src/terms/Term_manager.cpp:265-279) looks
up the term of the name. The rewriting of the body of a defined function ends within the given number of
steps (C42). -/
def resolve (s : Names) (n : String) (args : List Tm) : Option (Names × Tm) :=
  match assoc s.defs n with
  | some d =>
    (resolveApp H ((s.table.args d.2.2).length + 2) s.table d.1 d.2.2 args).map fun r =>
      ({ s with table := r.1 }, r.2)
  | none =>
    match assoc s.decls n with
    | some d =>
      if d.1 = args.map s.table.type then
        (assoc s.names n).map fun f =>
          let r := s.table.mkApp H d.2 f args
          ({ s with table := r.1 }, r.2)
      else none
    | none => (mkTermOp H s.table n args).map fun r => ({ s with table := r.1 }, r.2)

/-- `mk_numeral`, src/parser/Parser_context.cpp:93-96, with `mk_integer_constant`,
src/terms/Term_manager.cpp:381-386. -/
def mkNumeral (s : Names) (n : String) : Option (Names × Tm) :=
  (LF.mkInteger n.toList).map fun c =>
    let r := s.table.arithConstant H (Spec.fval c)
    ({ s with table := r.1 }, r.2)

/-- `mk_decimal`, src/parser/Parser_context.cpp:98-101, with `mk_rational_constant`,
src/terms/Term_manager.cpp:388-411. -/
def mkDecimal (s : Names) (n : String) : Option (Names × Tm) :=
  (LF.mkRational n.toList).map fun c =>
    let r := s.table.arithConstant H (Spec.fval c)
    ({ s with table := r.1 }, r.2)

/-- `Parser_context` as `parse_term` uses it. -/
def backend : Backend Names Tm where
  tt := Tm.tt
  ff := Tm.ff
  global := global
  num := mkNumeral H
  dec := mkDecimal H
  app := resolve H

/-- `bind_vars`, src/parser/Parser_context.cpp:125-136. -/
def bindVars (s : Names) (recs : LetRecords Tm) : List (String × Ty) → Names × LetRecords Tm × List Tm
  | [] => (s, recs, [])
  | v :: vs =>
    let r := s.table.fresh v.2
    let q := bindVars { s with table := r.1 } (recs.addBinding v.1 r.2) vs
    (q.1, q.2.1, r.2 :: q.2.2)

/-- The case `define-fun` of `parse_command`, src/parser/Smt2_parser.cpp:262-269, after the name, the
parameters and the sort have been read. Returns the remaining tokens. -/
def defineFun (s : Names) (recs : LetRecords Tm) (n : String) (vars : List (String × Ty)) (ty : Ty)
    (ts : List Tok) : Option (Names × LetRecords Tm × List Tok) :=
  let b := s.bindVars recs.pushFrame vars
  (parseTerm (backend H) b.2.1 b.1 ts).bind fun r =>
    r.2.2.1.popFrame.bind fun recs =>
      (r.2.2.2.storeDefined n r.1 b.2.2 ty).map fun s => (s, recs, r.2.1)

/-- The case `declare-fun`, src/parser/Smt2_parser.cpp:237-242; `uf` is the answer of `has_uf`. Without
functions an error is printed, which is `none` here. -/
def declare (uf : Bool) (s : Names) (n : String) (args : List Ty) (ty : Ty) : Option Names :=
  if args = [] then s.declareConst ty n
  else if uf then s.declareFun ty args n
  else none

end Names

/-- The members of `Smt2_command_context` that the commands change, src/parser/Smt2_parser.cpp:159-163:
`parser_context` and `assertions`. -/
structure FE where
  st : Names
  recs : LetRecords Tm
  assertions : List Tm

namespace FE

variable (H : TermHash)

/-- At the beginning of a script. -/
def init : FE := ⟨Names.init H, LetRecords.init, []⟩

/-- The case `assert`, src/parser/Smt2_parser.cpp:196-206. Returns the remaining tokens. `none`: an exception,
which is reported and after which the script goes on without the assertion. -/
def assertCmd (c : FE) (ts : List Tok) : Option (FE × List Tok) :=
  (parseTerm (Names.backend H) c.recs c.st ts).map fun r =>
    (⟨r.2.2.2, r.2.2.1, c.assertions ++ [r.1]⟩, r.2.1)

/-- The cases `declare-const` and `declare-fun`, src/parser/Smt2_parser.cpp:218-244, after the name and the
sorts have been read. -/
def declareCmd (uf : Bool) (c : FE) (n : String) (args : List Ty) (ty : Ty) : Option FE :=
  (c.st.declare uf n args ty).map fun s => { c with st := s }

/-- The case `define-fun`, src/parser/Smt2_parser.cpp:260-271, after the name, the parameters and the sort
have been read. -/
def defineCmd (c : FE) (n : String) (vars : List (String × Ty)) (ty : Ty) (ts : List Tok) :
    Option (FE × List Tok) :=
  (c.st.defineFun H c.recs n vars ty ts).map fun r => ({ c with st := r.1, recs := r.2.1 }, r.2.2)

/-- One command of a script, src/parser/Smt2_parser.cpp:193-412, after its keyword, its name and its sorts have
been read: the tokens of its term are followed by the closing parenthesis (line 412). -/
def item (uf : Bool) (c : FE) : Spec.Item → Option FE
  | .declare n args r => c.declareCmd uf n (args.map Spec.Srt.ty) r.ty
  | .define n r e =>
    (c.defineCmd H n [] r.ty (e.toks ++ [.rp])).bind fun q => if q.2 = [.rp] then some q.1 else none
  | .assert e => (c.assertCmd H (e.toks ++ [.rp])).bind fun q => if q.2 = [.rp] then some q.1 else none

/-- `execute`, src/parser/Smt2_parser.cpp:178-182, on these commands. -/
def items (uf : Bool) (c : FE) : List Spec.Item → Option FE
  | [] => some c
  | i :: is => (c.item H uf i).bind fun c => items uf c is

end FE
end Yaga
