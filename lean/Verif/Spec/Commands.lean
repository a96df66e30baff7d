/-
Specification for C72: the commands of a script and how they are written.
-/
import Verif.Spec.SmtLib
import Verif.Spec.Lexicon

namespace Yaga.Spec

/-- The commands of SMT-LIB that the solver knows. -/
inductive Cmd where
  | setLogic (n : String)
  | setInfo
  | setOption
  | item (i : Item)
  | checkSat
  | getModel
  | exit

/-- A symbol is written with or without bars. -/
def IsName (n : String) (x : Lexeme) : Prop := x = .symbol n.toList ∨ x = .quoted n.toList

/-- The token of a term for a lexeme. -/
def Lexeme.tok : Lexeme → Option Tok
  | .lparen => some .lp
  | .rparen => some .rp
  | .reserved s => if s = "let" then some .letTok else none
  | .symbol s => some (.sym (String.ofList s))
  | .quoted s => some (.sym (String.ofList s))
  | .numeral ds => some (.num (String.ofList ds))
  | .decimal is fs => some (.dec (String.ofList (is ++ '.' :: fs)))
  | _ => none

/-- The lexemes of a term. -/
def IsTerm (e : Expr) (xs : List Lexeme) : Prop := xs.map Lexeme.tok = e.toks.map some

/-- The name of a sort. -/
def Srt.lexeme : Srt → Lexeme
  | .bool => .symbol ['B', 'o', 'o', 'l']
  | .real => .symbol ['R', 'e', 'a', 'l']

/-- The lexemes of a command between its parentheses. An option or a piece of information has a value of one
lexeme. -/
inductive Cmd.Written : Cmd → List Lexeme → Prop
  | setLogic {n x} : IsName n x → Cmd.Written (.setLogic n) [.reserved "set-logic", x]
  | setInfo {k x} : x.isParen = false → Cmd.Written .setInfo [.reserved "set-info", .keyword k, x]
  | setOption {k x} : x.isParen = false → Cmd.Written .setOption [.reserved "set-option", .keyword k, x]
  | declareConst {n x r} : IsName n x →
      Cmd.Written (.item (.declare n [] r)) [.reserved "declare-const", x, r.lexeme]
  | declareFun {n x as r} : IsName n x → Cmd.Written (.item (.declare n as r))
      (.reserved "declare-fun" :: x :: .lparen :: as.map Srt.lexeme ++ [.rparen, r.lexeme])
  | define {n x r e ys} : IsName n x → IsTerm e ys →
      Cmd.Written (.item (.define n r e)) (.reserved "define-fun" :: x :: .lparen :: .rparen :: r.lexeme :: ys)
  | assert {e ys} : IsTerm e ys → Cmd.Written (.item (.assert e)) (.reserved "assert" :: ys)
  | checkSat : Cmd.Written .checkSat [.reserved "check-sat"]
  | getModel : Cmd.Written .getModel [.reserved "get-model"]
  | exit : Cmd.Written .exit [.reserved "exit"]

/-- The lexemes of a script. -/
inductive Written : List Cmd → List Lexeme → Prop
  | nil : Written [] []
  | cons {c cs ys xs} : c.Written ys → Written cs xs → Written (c :: cs) (.lparen :: ys ++ .rparen :: xs)

/-- The declarations, definitions and assertions before the first `check-sat`. -/
def problem : List Cmd → List Item
  | [] => []
  | .item i :: cs => i :: problem cs
  | .checkSat :: _ => []
  | .exit :: _ => []
  | _ :: cs => problem cs

/-- The logics set before the first `check-sat`. -/
def logics : List Cmd → List String
  | [] => []
  | .setLogic n :: cs => n :: logics cs
  | .checkSat :: _ => []
  | .exit :: _ => []
  | _ :: cs => logics cs

/-- Commands that print nothing and do not end the script: declarations, definitions, assertions, and pieces of
information and options. -/
def Cmd.quiet : Cmd → Bool
  | .item _ => true
  | .setInfo => true
  | .setOption => true
  | _ => false

end Yaga.Spec
