/-
Model of `Smt2_term_parser::parse_term`, src/parser/Smt2_term_parser.cpp:51-218, and of the functions of
`Parser_context` it calls for symbols and `let`.

`none` is an exception or a failed assertion. The lexer is a list of tokens. Making terms is a parameter
(`Backend`): the term manager and the tables of declared and defined functions.
-/
import Verif.Model.Let

namespace Yaga

/-- Tokens of terms, src/parser/smt2_tokens.h. Symbols carry their name without quotes (`token_to_symbol`,
src/parser/Smt2_term_parser.cpp:220-240). -/
inductive Tok where
  | lp
  | rp
  | letTok
  | sym (s : String)
  | num (s : String)
  | dec (s : String)
  deriving DecidableEq

/-- What the parser needs for making terms; `σ` is the state of the term manager. -/
structure Backend (σ τ : Type) where
  tt : τ
  ff : τ
  /-- Defined constants and declared names, src/parser/Parser_context.cpp:38-46. -/
  global : σ → String → Option τ
  /-- `mk_numeral`, src/parser/Parser_context.cpp:93-96. -/
  num : σ → String → Option (σ × τ)
  /-- `mk_decimal`, src/parser/Parser_context.cpp:98-101. -/
  dec : σ → String → Option (σ × τ)
  /-- `resolve_term`, src/parser/Parser_context.cpp:103-123. -/
  app : σ → String → List τ → Option (σ × τ)

/-- An entry of `ctx_stack`, src/parser/Smt2_term_parser.cpp:11-48 and 53: `NEXT_ARG` with the operator and
the arguments so far, `LET_NEXT_BIND` with the name being bound, `LET_BODY`. -/
inductive Ctx (τ : Type) where
  | nextArg (f : String) (args : List τ)
  | letBind (name : String)
  | letBody

/-- The local variables of `parse_term` and the state it works on. The backs of `ctx_stack` and
`letBinders` are the heads of the lists. -/
structure PState (σ τ : Type) where
  stack : List (Ctx τ)
  binders : List (List (String × τ))
  recs : LetRecords τ
  st : σ

variable {σ τ : Type}

/-- `get_term_for_symbol`, src/parser/Parser_context.cpp:23-47. -/
def symbolTerm (B : Backend σ τ) (r : LetRecords τ) (s : σ) (n : String) : Option τ :=
  if n = "true" then some B.tt
  else if n = "false" then some B.ff
  else
    match r.get n with
    | some t => some t
    | none => B.global s n

/-- The first part of the loop, src/parser/Smt2_term_parser.cpp:58-157: reads a token (two after an opening
parenthesis). Returns the new state, `ret`, `needs_context_update` and the remaining tokens. -/
def readTok (B : Backend σ τ) (p : PState σ τ) :
    List Tok → Option (PState σ τ × Option τ × Bool × List Tok)
  | .lp :: .letTok :: ts =>
    some ({ p with stack := .letBind "" :: p.stack, binders := [] :: p.binders }, none, true, ts)
  | .lp :: .sym f :: ts => some ({ p with stack := .nextArg f [] :: p.stack }, none, false, ts)
  | .rp :: ts =>
    match p.stack with
    | .nextArg f args :: cs =>
      (B.app p.st f args).map fun r => ({ p with stack := cs, st := r.1 }, some r.2, false, ts)
    | _ => none
  | .sym n :: ts => (symbolTerm B p.recs p.st n).map fun t => (p, some t, false, ts)
  | .num n :: ts => (B.num p.st n).map fun r => ({ p with st := r.1 }, some r.2, false, ts)
  | .dec n :: ts => (B.dec p.st n).map fun r => ({ p with st := r.1 }, some r.2, false, ts)
  | _ => none

/-- Looking for another binding of a `let`, src/parser/Smt2_term_parser.cpp:189-202. -/
def nextBinding (cs : List (Ctx τ)) (binders : List (List (String × τ))) (recs : LetRecords τ) (st : σ) :
    List Tok → Option (PState σ τ × Option τ × List Tok)
  | .lp :: .sym n :: ts => some (⟨.letBind n :: cs, binders, recs, st⟩, none, ts)
  | .rp :: ts =>
    match binders with
    | [] => none
    | b :: bs => some (⟨.letBody :: cs, bs, recs.addLetBindings b, st⟩, none, ts)
  | _ => none

/-- The case `LET_NEXT_BIND`, src/parser/Smt2_term_parser.cpp:170-203. -/
def letStep (name : String) (cs : List (Ctx τ)) (binders : List (List (String × τ))) (recs : LetRecords τ)
    (st : σ) (ret : Option τ) (ts : List Tok) : Option (PState σ τ × Option τ × List Tok) :=
  match ret, ts with
  | some t, .rp :: ts =>
    match binders with
    | [] => none
    | b :: bs => nextBinding cs ((b ++ [(name, t)]) :: bs) recs st ts
  | none, .lp :: ts => nextBinding cs binders recs st ts
  | _, _ => none

/-- The inner loop, src/parser/Smt2_term_parser.cpp:159-215. Only `LET_BODY` keeps `ret`, so that the loop
goes on. -/
def settle (st : σ) : List (Ctx τ) → List (List (String × τ)) → LetRecords τ → Option τ → Bool → List Tok →
    Option (PState σ τ × Option τ × List Tok)
  | [], binders, recs, ret, _, ts => some (⟨[], binders, recs, st⟩, ret, ts)
  | c :: cs, binders, recs, ret, needs, ts =>
    if ret.isNone && !needs then some (⟨c :: cs, binders, recs, st⟩, ret, ts)
    else
      match c with
      | .nextArg f args =>
        match ret with
        | some t => some (⟨.nextArg f (args ++ [t]) :: cs, binders, recs, st⟩, none, ts)
        | none => none
      | .letBind name => letStep name cs binders recs st ret ts
      | .letBody =>
        match ts with
        | .rp :: ts => recs.popFrame.bind fun recs => settle st cs binders recs ret false ts
        | _ => none

/-- The outer loop, src/parser/Smt2_term_parser.cpp:57-216. Every iteration consumes a token, which bounds
the number of iterations. Returns the term, the remaining tokens, the bindings and the state. -/
def parseLoop (B : Backend σ τ) : Nat → PState σ τ → List Tok → Option (τ × List Tok × LetRecords τ × σ)
  | 0, _, _ => none
  | fuel + 1, p, ts =>
    (readTok B p ts).bind fun r =>
      (settle r.1.st r.1.stack r.1.binders r.1.recs r.2.1 r.2.2.1 r.2.2.2).bind fun q =>
        match q.1.stack with
        | [] => q.2.1.map fun t => (t, q.2.2, q.1.recs, q.1.st)
        | _ => parseLoop B fuel q.1 q.2.2

/-- `parse_term`. -/
def parseTerm (B : Backend σ τ) (recs : LetRecords τ) (st : σ) (ts : List Tok) :
    Option (τ × List Tok × LetRecords τ × σ) := parseLoop B ts.length ⟨[], [], recs, st⟩ ts

end Yaga
