/-
Model of the command loop: `Smt2_command_context`, src/parser/Smt2_parser.cpp:154-437, from the characters of a
script to the lines that are printed.

The solver is a parameter (`Oracle`).
-/
import Verif.Model.Frontend
import Verif.Model.Lexer

namespace Yaga

/-- `Solver_answer`, src/parser/Solver_answer.h:6. -/
inductive SolverAnswer where
  | sat
  | unsat
  | unknown
  | error
  deriving DecidableEq

/-- What the command loop asks the solver. -/
structure Oracle where
  /-- `Parser_context::check_sat`, src/parser/Parser_context.cpp:60-63: the answer of the call with the given
  number, for a logic with (`true`) or without uninterpreted functions. `none`: it does not return. -/
  solve : Nat → Bool → TermTable → List Tm → Option SolverAnswer
  /-- The text printed for `get-model`, src/parser/Smt2_parser.cpp:325-327, after the given number of calls of
  `check_sat`, for a logic with or without uninterpreted functions; see C69. `none`: undefined behaviour. -/
  model : Nat → Bool → Names → List Tm → Option (List Char)

namespace Shell

open Lexer

/-- The members of `Smt2_command_context`, src/parser/Smt2_parser.cpp:155-163. `logic` is the logic that has been
set: with (`true`) or without uninterpreted functions. `checks` is the number of calls of `check_sat`. -/
structure Cli where
  fe : FE
  logic : Option Bool
  answer : Option SolverAnswer
  checks : Nat

/-- At the beginning of a script. -/
def Cli.init (H : TermHash) : Cli := ⟨FE.init H, none, none, 0⟩

/-- What a command does: the script goes on with the given tokens after printing some lines; the loop ends
(`parse_command` returns false); an exception or a failed assertion ends the program. -/
inductive Res where
  | next (c : Cli) (lines : List String) (rest : List Token)
  | stop (lines : List String)
  | throw (lines : List String)

/-- `token_to_symbol`, src/parser/Smt2_term_parser.cpp:220-240. -/
def symbolOf : Token → Option String
  | (.symbol, w) => some (String.ofList w)
  | (.quotedSymbol, w) => some (String.ofList (w.drop 1).dropLast)
  | _ => none

/-- A token as `parse_term` sees it, src/parser/Smt2_term_parser.cpp:58-156. `none`: an exception wherever it
occurs in a term. -/
def termTok (t : Token) : Option Tok :=
  match t.1 with
  | .lparenTok => some .lp
  | .rparenTok => some .rp
  | .letTok => some .letTok
  | .integerLiteral => some (.num (String.ofList t.2))
  | .decimalLiteral => some (.dec (String.ofList t.2))
  | _ => (symbolOf t).map .sym

/-- The tokens that `parse_term` can read before it would throw. -/
def termToks : List Token → List Tok
  | [] => []
  | t :: ts =>
    match termTok t with
    | some a => a :: termToks ts
    | none => []

/-- The tokens left when `parse_term` has left `rest` of `termToks ts`. -/
def after (ts : List Token) (rest : List Tok) : List Token := ts.drop ((termToks ts).length - rest.length)

/-- `get_type_for_symbol`, src/parser/Parser_context.cpp:49-58. -/
def typeFor (n : String) : Option Ty :=
  if n = "Bool" then some .bool
  else if n = "Real" then some .real
  else none

/-- `parse_sort`, src/parser/Smt2_term_parser.cpp:258-266, for a token that has been read. -/
def sortOf : Token → Option Ty
  | (.symbol, w) => typeFor (String.ofList w)
  | _ => none

/-- `parse_sort_list`, src/parser/Smt2_term_parser.cpp:268-283. -/
def sortList : List Token → Option (List Ty × List Token)
  | [] => none
  | t :: ts =>
    if t.1 = .rparenTok then some ([], ts)
    else (sortOf t).bind fun s => (sortList ts).map fun r => (s :: r.1, r.2)

/-- The loop of `parse_sorted_var_list`, src/parser/Smt2_term_parser.cpp:306-312. -/
def sortedVars : List Token → Option (List (String × Ty) × List Token)
  | (.rparenTok, _) :: ts => some ([], ts)
  | (.lparenTok, _) :: n :: s :: (.rparenTok, _) :: ts =>
    (symbolOf n).bind fun n => (sortOf s).bind fun s => (sortedVars ts).map fun r => ((n, s) :: r.1, r.2)
  | _ => none

/-- `print_answer`, src/parser/Smt2_parser.cpp:419-437. -/
def answerLine : SolverAnswer → String
  | .sat => "sat"
  | .unsat => "unsat"
  | .unknown => "unknown"
  | .error => "error"

/-- The line for an exception, src/parser/Smt2_parser.cpp:203. (The text of the exception is left out.) -/
def errorLine : String := "(error)"

/-- The closing parenthesis, src/parser/Smt2_parser.cpp:412-413. -/
def close (c : Cli) (lines : List String) : List Token → Res
  | (.rparenTok, _) :: ts => .next c lines ts
  | _ => .throw lines

/-- The case `assert`, src/parser/Smt2_parser.cpp:196-206. When the term cannot be read, the model stops after
the error line; the code goes on without the assertion, unless an assertion of the code has failed. -/
def assertCase (H : TermHash) (c : Cli) (ts : List Token) : Res :=
  match c.fe.assertCmd H (termToks ts) with
  | some r => close { c with fe := r.1 } [] (after ts r.2)
  | none => .throw [errorLine]

/-- The case `check-sat`, src/parser/Smt2_parser.cpp:210-215. Without a logic there is no theory
(src/Solver.cpp:183): undefined behaviour. -/
def checkCase (E : Oracle) (c : Cli) (ts : List Token) : Res :=
  match c.logic with
  | none => .throw []
  | some uf =>
    match E.solve c.checks uf c.fe.st.table c.fe.assertions with
    | none => .throw []
    | some a => close { c with answer := some a, checks := c.checks + 1 } [answerLine a] ts

/-- The cases `declare-const` and `declare-fun`, src/parser/Smt2_parser.cpp:218-244, after the name and the sorts
have been read. Without a logic the pointer that `has_uf` reads is not initialised (src/Yaga.h:222): undefined
behaviour. -/
def declareCase (c : Cli) (n : String) (args : List Ty) (ty : Ty) (ts : List Token) : Res :=
  if args ≠ [] ∧ c.logic = none then .throw []
  else if args ≠ [] ∧ c.logic = some false then close c [errorLine] ts
  else
    match c.fe.declareCmd true n args ty with
    | some fe => close { c with fe := fe } [] ts
    | none => .throw []

/-- The case `define-fun`, src/parser/Smt2_parser.cpp:260-271, after the name, the variables and the sort have
been read. -/
def defineCase (H : TermHash) (c : Cli) (n : String) (vars : List (String × Ty)) (ty : Ty) (ts : List Token) : Res :=
  match c.fe.defineCmd H n vars ty (termToks ts) with
  | some r => close { c with fe := r.1 } [] (after ts r.2)
  | none => .throw []

/-- The case `get-model`, src/parser/Smt2_parser.cpp:312-330. The text of a model has several lines but is one
element of the list of lines. -/
def modelCase (E : Oracle) (c : Cli) (ts : List Token) : Res :=
  match c.answer with
  | none => close c ["(error \"use (check-sat) before (get-model)\")"] ts
  | some .sat =>
    match E.model c.checks (c.logic.getD false) c.fe.st c.fe.assertions with
    | some text => close c [String.ofList text] ts
    | none => .throw []
  | some _ => close c ["(error \"(get-model) is only available if (check-sat) returns sat\")"] ts

/-- The case `set-logic`, src/parser/Smt2_parser.cpp:380-392. The message about an unsupported logic is written to
another stream. -/
def logicCase (c : Cli) (n : String) (ts : List Token) : Res :=
  if n = "QF_UFLRA" then close { c with logic := some true } [] ts
  else if n = "QF_LRA" then close { c with logic := some false } [] ts
  else .stop []

/-- The `switch` of `parse_command`, src/parser/Smt2_parser.cpp:193-414, for the token `k`. Commands that are not
implemented throw. -/
def dispatch (H : TermHash) (E : Oracle) (c : Cli) (k : Lexer.Kind) (ts : List Token) : Res :=
  match k, ts with
  | .assertTok, ts => assertCase H c ts
  | .checkSatTok, ts => checkCase E c ts
  | .declareConstTok, n :: s :: ts =>
    match symbolOf n, sortOf s with
    | some n, some s => declareCase c n [] s ts
    | _, _ => .throw []
  | .declareFunTok, n :: (.lparenTok, _) :: ts =>
    match symbolOf n, sortList ts with
    | some n, some (args, s :: ts) =>
      match sortOf s with
      | some s => declareCase c n args s ts
      | none => .throw []
    | _, _ => .throw []
  | .defineFunTok, n :: (.lparenTok, _) :: ts =>
    match symbolOf n, sortedVars ts with
    | some n, some (vars, s :: ts) =>
      match sortOf s with
      | some s => defineCase H c n vars s ts
      | none => .throw []
    | _, _ => .throw []
  | .exitTok, _ => .stop []
  | .getModelTok, ts => modelCase E c ts
  | .setInfoTok, (.keyword, _) :: _ :: ts => close c [] ts
  | .setOptionTok, (.keyword, _) :: _ :: ts => close c [] ts
  | .setLogicTok, n :: ts =>
    match symbolOf n with
    | some n => logicCase c n ts
    | none => .throw []
  | _, _ => .throw []

/-- `parse_command`, src/parser/Smt2_parser.cpp:192-414, after the opening parenthesis. -/
def command (H : TermHash) (E : Oracle) (c : Cli) : List Token → Res
  | [] => .throw []
  | t :: ts => dispatch H E c t.1 ts

/-- The printed lines, and whether `execute` returns (rather than ending with an exception). -/
structure Outcome where
  lines : List String
  ok : Bool
  deriving DecidableEq

/-- `execute`, src/parser/Smt2_parser.cpp:178-182, with lines 186-190. `bad`: the lexer throws after the tokens.
Every command takes at least one token, which bounds the number of iterations. -/
def exec (H : TermHash) (E : Oracle) (bad : Bool) : Nat → Cli → List Token → Outcome
  | 0, _, _ => ⟨[], false⟩
  | _ + 1, _, [] => ⟨[], !bad⟩
  | fuel + 1, c, t :: ts =>
    if t.1 = .lparenTok then
      match command H E c ts with
      | .next c lines rest => ⟨lines ++ (exec H E bad fuel c rest).lines, (exec H E bad fuel c rest).ok⟩
      | .stop lines => ⟨lines, true⟩
      | .throw lines => ⟨lines, false⟩
    else ⟨[], false⟩

/-- The output for a script. -/
def run (H : TermHash) (E : Oracle) (text : List Char) : Outcome :=
  exec H E (tokens text).2 ((tokens text).1.length + 1) (Cli.init H) (tokens text).1

end Shell
end Yaga
