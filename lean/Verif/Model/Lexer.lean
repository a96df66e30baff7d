/-
Model of the lexer: src/parser/smt2_lexer.ll and src/parser/Flex_lexer.cpp.

flex is an external tool. What it generates is modelled by its contract: the longest prefix of the input that a rule
accepts, and the first of the rules that accept it. The patterns are interpreted with derivatives of regular
expressions. flex reads bytes and the model reads characters; the classes of the patterns are sets of ASCII
characters or complements of such sets.
-/
import Verif.Spec.Lexicon

namespace Yaga

open Spec

namespace Regex

/-- Whether the empty word belongs to the expression. -/
def nullable : RE → Bool
  | .zero => false
  | .eps => true
  | .cls _ => false
  | .seq a b => nullable a && nullable b
  | .alt a b => nullable a || nullable b
  | .star _ => true

/-- `seq`, simplified. -/
def mkSeq : RE → RE → RE
  | .zero, _ => .zero
  | .eps, b => b
  | a, b => .seq a b

/-- `alt`, simplified. -/
def mkAlt : RE → RE → RE
  | .zero, b => b
  | a, .zero => a
  | a, b => .alt a b

/-- What may follow a character. -/
def deriv (c : Char) : RE → RE
  | .zero => .zero
  | .eps => .zero
  | .cls p => if p c then .eps else .zero
  | .seq a b =>
    if nullable a then mkAlt (mkSeq (deriv c a) b) (deriv c b) else mkSeq (deriv c a) b
  | .alt a b => mkAlt (deriv c a) (deriv c b)
  | .star a => mkSeq (deriv c a) (.star a)

/-- The length of the longest prefix that the expression accepts, if there is one; `n` characters have been read
and `best` is the longest prefix so far. -/
def longestFrom : RE → Nat → Option Nat → List Char → Option Nat
  | .zero, _, best, _ => best
  | r, n, best, [] => if nullable r then some n else best
  | r, n, best, c :: cs => longestFrom (deriv c r) (n + 1) (if nullable r then some n else best) cs

/-- The length of the longest prefix that the expression accepts. -/
def longest (r : RE) (cs : List Char) : Option Nat := longestFrom r 0 none cs

/-- A word. -/
def word : List Char → RE
  | [] => .eps
  | c :: cs => .seq (.cls (· == c)) (word cs)

/-- `r+`. -/
def plus (r : RE) : RE := .seq r (.star r)

end Regex

namespace Lexer

open Regex

/-- Tokens, src/parser/smt2_tokens.h:6-50 (without `NUMERAL` and `NONE`, which the lexer does not return). -/
inductive Kind where
  | eofTok | assertTok | asTok | attributeTok | binaryLiteral | checkSatTok | decimalLiteral | declareConstTok
  | declareFunTok | declareSortTok | defineConstTok | defineFunTok | defineSortTok | echoTok | exitTok
  | getAssertionsTok | getAssignmentTok | getInfoTok | getModelTok | getOptionTok | getUnsatCoreTok | getValueTok
  | hexLiteral | indexTok | integerLiteral | keyword | letTok | lparenTok | matchTok | parTok | popTok | pushTok
  | quotedSymbol | resetTok | rparenTok | setInfoTok | setLogicTok | setOptionTok | stringLiteral | symbol
  deriving DecidableEq, Repr

/-- Actions of rules: return a token, skip the text, throw. -/
inductive Act where
  | ret (k : Kind)
  | skip
  | fail
  deriving DecidableEq

/-- The rules for words, src/parser/smt2_lexer.ll:41-71. -/
def words : List (String × Kind) :=
  [("assert", .assertTok), ("as", .asTok), ("!", .attributeTok), ("check-sat", .checkSatTok),
    ("declare-const", .declareConstTok), ("declare-fun", .declareFunTok), ("declare-sort", .declareSortTok),
    ("define-const", .defineConstTok), ("define-fun", .defineFunTok), ("define-sort", .defineSortTok),
    ("echo", .echoTok), ("exit", .exitTok), ("get-assertions", .getAssertionsTok),
    ("get-assignment", .getAssignmentTok), ("get-info", .getInfoTok), ("get-model", .getModelTok),
    ("get-option", .getOptionTok), ("get-unsat-core", .getUnsatCoreTok), ("get-value", .getValueTok),
    ("_", .indexTok), ("let", .letTok), ("(", .lparenTok), ("match", .matchTok), ("par", .parTok), ("pop", .popTok),
    ("push", .pushTok), ("reset", .resetTok), (")", .rparenTok), ("set-info", .setInfoTok),
    ("set-logic", .setLogicTok), ("set-option", .setOptionTok)]

/-- `NEW_LINE`, src/parser/smt2_lexer.ll:21. -/
def newLine : RE := plus (.cls (· == '\n'))

/-- `WHITESPACE`, src/parser/smt2_lexer.ll:22. -/
def whitespace : RE := plus (.cls fun c => c == ' ' || c == '\t' || c == '\r' || c == '\x0c')

/-- `STRING_LITERAL`, src/parser/smt2_lexer.ll:23. -/
def stringLiteral : RE :=
  .seq (.cls (· == '"')) (.seq (.star (.alt (.seq (.cls (· == '"')) (.cls (· == '"'))) (.cls (· != '"'))))
    (.cls (· == '"')))

/-- `[0-9]`. -/
def digit : RE := .cls Char.isDigit

/-- `NAT_NUM`, src/parser/smt2_lexer.ll:24. -/
def natNum : RE := plus digit

/-- `DECIMAL`, src/parser/smt2_lexer.ll:25. -/
def decimal : RE := .seq (plus digit) (.seq (.cls (· == '.')) (plus digit))

/-- `BINARY_NUM`, src/parser/smt2_lexer.ll:26. -/
def binaryNum : RE := .seq (.cls (· == '#')) (.seq (.cls (· == 'b')) (plus (.cls fun c => c == '0' || c == '1')))

/-- `HEX_NUM`, src/parser/smt2_lexer.ll:27. -/
def hexNum : RE :=
  .seq (.cls (· == '#')) (.seq (.cls (· == 'x'))
    (plus (.cls fun c => c.isDigit || ('a' ≤ c && c ≤ 'f') || ('A' ≤ c && c ≤ 'F'))))

/-- The characters in the classes of `SIMPLE_SYMBOL` that are not letters or digits. -/
def symbolMarks : List Char :=
  ['~', '!', '@', '$', '%', '^', '&', '*', '+', '=', '<', '>', '.', '?', '/', '_', '-']

/-- The first class of `SIMPLE_SYMBOL`. -/
def startClass (c : Char) : Bool := c.isAlpha || symbolMarks.contains c

/-- The second class of `SIMPLE_SYMBOL`. -/
def charClass (c : Char) : Bool := c.isAlpha || c.isDigit || symbolMarks.contains c

/-- `SIMPLE_SYMBOL`, src/parser/smt2_lexer.ll:28. -/
def simpleSymbol : RE := .seq (.cls startClass) (.star (.cls charClass))

/-- `QUOTED_SYMBOL`, src/parser/smt2_lexer.ll:29. -/
def quotedSymbol : RE :=
  .seq (.cls (· == '|')) (.seq (.star (.cls fun c => c != '|' && c != '\\')) (.cls (· == '|')))

/-- The rules, src/parser/smt2_lexer.ll:41-86. -/
def rules : List (RE × Act) :=
  words.map (fun p => (word p.1.toList, .ret p.2)) ++
  [(whitespace, .skip),
    (newLine, .skip),
    (.seq (.cls (· == ';')) (.star (.cls (· != '\n'))), .skip),
    (stringLiteral, .ret .stringLiteral),
    (natNum, .ret .integerLiteral),
    (decimal, .ret .decimalLiteral),
    (hexNum, .ret .hexLiteral),
    (binaryNum, .ret .binaryLiteral),
    (.seq (.cls (· == ':')) simpleSymbol, .ret .keyword),
    (quotedSymbol, .ret .quotedSymbol),
    (simpleSymbol, .ret .symbol),
    (.cls (· != '\n'), .fail)]

/-- The longest non-empty match of the rules, the first rule if there are several. -/
def pick {α : Type} (cs : List Char) : List (RE × α) → Option (Nat × α)
  | [] => none
  | (r, a) :: rs =>
    match longest r cs, pick cs rs with
    | some n, some (m, b) => if n < m ∨ n = 0 then some (m, b) else some (n, a)
    | some n, none => if n = 0 then none else some (n, a)
    | none, o => o

/-- A token with its text (`token_string`, src/parser/Flex_lexer.cpp:34-37). -/
abbrev Token := Kind × List Char

/-- `yylex`, called again and again: the token, or an exception (`none`), and the remaining input. At the end of the
input the answer is `EOF_TOK` (src/parser/smt2_lexer.ll:10). `fuel` bounds the number of skipped texts. If no rule
applied, flex would copy the character to the output. -/
def next : Nat → List Char → Option (Token × List Char)
  | _, [] => some ((.eofTok, []), [])
  | 0, _ :: _ => none
  | fuel + 1, c :: cs =>
    match pick (c :: cs) rules with
    | none => next fuel cs
    | some (n, .ret k) => some ((k, (c :: cs).take n), (c :: cs).drop n)
    | some (n, .skip) => next fuel ((c :: cs).drop n)
    | some (_, .fail) => none

/-- `next_token`, src/parser/Flex_lexer.cpp:29-32. -/
def nextToken (cs : List Char) : Option (Token × List Char) := next cs.length cs

/-- The tokens that successive calls of `next_token` return, and whether they end with an exception rather than with
the end of the input. -/
def stream : Nat → List Char → List Token × Bool
  | 0, _ => ([], true)
  | fuel + 1, cs =>
    match nextToken cs with
    | none => ([], true)
    | some ((k, w), rest) =>
      if k = .eofTok then ([], false)
      else ((k, w) :: (stream fuel rest).1, (stream fuel rest).2)

/-- The tokens of an input; every token takes at least one character. -/
def tokens (cs : List Char) : List Token × Bool := stream (cs.length + 1) cs

end Lexer
end Yaga
