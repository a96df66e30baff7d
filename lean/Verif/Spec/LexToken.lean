/-
Specification for C70: the token for a lexeme, and the tokens of a text by the rule of flex.
-/
import Verif.Model.Lexer

namespace Yaga.Spec

open Lexer

/-- The tokens of reserved words. -/
def reservedKind : List (String × Kind) :=
  [("_", .indexTok), ("!", .attributeTok), ("as", .asTok), ("let", .letTok), ("match", .matchTok), ("par", .parTok),
    ("assert", .assertTok), ("check-sat", .checkSatTok), ("declare-const", .declareConstTok),
    ("declare-fun", .declareFunTok), ("declare-sort", .declareSortTok), ("define-fun", .defineFunTok),
    ("define-sort", .defineSortTok), ("echo", .echoTok), ("exit", .exitTok), ("get-assertions", .getAssertionsTok),
    ("get-assignment", .getAssignmentTok), ("get-info", .getInfoTok), ("get-model", .getModelTok),
    ("get-option", .getOptionTok), ("get-unsat-core", .getUnsatCoreTok), ("get-value", .getValueTok), ("pop", .popTok),
    ("push", .pushTok), ("reset", .resetTok), ("set-info", .setInfoTok), ("set-logic", .setLogicTok),
    ("set-option", .setOptionTok)]

/-- The token that the lexer has to return. -/
def Lexeme.kind : Lexeme → Kind
  | .lparen => .lparenTok
  | .rparen => .rparenTok
  | .reserved s => (reservedKind.lookup s).getD .eofTok
  | .symbol _ => .symbol
  | .quoted _ => .quotedSymbol
  | .keyword _ => .keyword
  | .numeral _ => .integerLiteral
  | .decimal _ _ => .decimalLiteral
  | .hex _ => .hexLiteral
  | .binary _ => .binaryLiteral
  | .string _ => .stringLiteral

/-- The token with its text. -/
def Lexeme.token (x : Lexeme) : Token := (x.kind, x.text)

/-- The tokens of a text by the rule of flex; `bad`: the text ends at a place where the lexer throws. -/
inductive Scan : List Char → List Token → (bad : Bool) → Prop
  | eof : Scan [] [] false
  | skip {cs w ts bad} : Munch rules cs w .skip → Scan (cs.drop w.length) ts bad → Scan cs ts bad
  | ret {cs w k ts bad} : Munch rules cs w (.ret k) → Scan (cs.drop w.length) ts bad → Scan cs ((k, w) :: ts) bad
  | fail {cs w} : Munch rules cs w .fail → Scan cs [] true

end Yaga.Spec
