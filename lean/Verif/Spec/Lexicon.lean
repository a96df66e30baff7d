/-
Specification for C70: the lexicon of SMT-LIB 2.6 (section 3.1 of the standard), and the meaning of patterns and
rules of flex.
-/

namespace Yaga.Spec

/-! ### Patterns -/

/-- Regular expressions. -/
inductive RE where
  | zero
  | eps
  | cls (p : Char → Bool)
  | seq (a b : RE)
  | alt (a b : RE)
  | star (a : RE)

/-- The words of a regular expression. -/
def RE.Lang : RE → List Char → Prop
  | .zero, _ => False
  | .eps, w => w = []
  | .cls p, w => ∃ c, w = [c] ∧ p c = true
  | .seq a b, w => ∃ u v, w = u ++ v ∧ a.Lang u ∧ b.Lang v
  | .alt a b, w => a.Lang w ∨ b.Lang w
  | .star a, w => ∃ us : List (List Char), w = us.flatten ∧ ∀ u ∈ us, a.Lang u

/-- The rule of flex: `w` is the longest prefix of the input that a rule accepts, and of the rules that accept it
the rule with action `a` is the first. -/
def Munch {α : Type} (rules : List (RE × α)) (input w : List Char) (a : α) : Prop :=
  w <+: input ∧ w ≠ [] ∧
  (∀ r ∈ rules, ∀ u, u <+: input → r.1.Lang u → u.length ≤ w.length) ∧
  ∃ pre r post, rules = pre ++ (r, a) :: post ∧ r.Lang w ∧ ∀ r' ∈ pre, ¬ r'.1.Lang w

/-! ### The lexicon -/

/-- White space; the standard does not have the form feed. -/
def isBlank (c : Char) : Bool := c == ' ' || c == '\t' || c == '\r' || c == '\n' || c == '\x0c'

/-- The special characters of symbols. -/
def specialChars : List Char :=
  ['~', '!', '@', '$', '%', '^', '&', '*', '_', '-', '+', '=', '<', '>', '.', '?', '/']

/-- Letters, and the special characters of symbols. -/
def isSymbolStart (c : Char) : Bool := c.isAlpha || specialChars.contains c

/-- The characters of simple symbols. -/
def isSymbolChar (c : Char) : Bool := isSymbolStart c || c.isDigit

/-- Hexadecimal digits. -/
def isHex (c : Char) : Bool := c.isDigit || ('a' ≤ c && c ≤ 'f') || ('A' ≤ c && c ≤ 'F')

/-- The characters after which a token has ended. -/
def endsToken (c : Char) : Bool := isBlank c || c == ';' || c == '(' || c == ')'

/-- The reserved words of the standard that the solver knows. -/
def reservedWords : List String :=
  ["_", "!", "as", "let", "match", "par", "assert", "check-sat", "declare-const", "declare-fun", "declare-sort",
    "define-fun", "define-sort", "echo", "exit", "get-assertions", "get-assignment", "get-info", "get-model",
    "get-option", "get-unsat-core", "get-value", "pop", "push", "reset", "set-info", "set-logic", "set-option"]

/-- The other reserved words of the standard. -/
def otherReserved : List String :=
  ["BINARY", "DECIMAL", "HEXADECIMAL", "NUMERAL", "STRING", "exists", "forall", "check-sat-assuming",
    "declare-datatype", "declare-datatypes", "define-fun-rec", "define-funs-rec", "get-proof",
    "get-unsat-assumptions", "reset-assertions"]

/-- Tokens of the standard. -/
inductive Lexeme where
  | lparen
  | rparen
  | reserved (s : String)
  | symbol (s : List Char)
  | quoted (s : List Char)
  | keyword (s : List Char)
  | numeral (ds : List Char)
  | decimal (is fs : List Char)
  | hex (ds : List Char)
  | binary (ds : List Char)
  | string (s : List Char)

/-- A simple symbol: not empty and not starting with a digit. -/
def IsSimple (s : List Char) : Prop := (∀ c ∈ s, isSymbolChar c = true) ∧ ∃ c cs, s = c :: cs ∧ isSymbolStart c = true

/-- Well-formed tokens. (More numerals than in the standard, which does not allow leading zeros.) -/
def Lexeme.Valid : Lexeme → Prop
  | .lparen | .rparen | .string _ => True
  | .reserved s => s ∈ reservedWords
  | .symbol s => IsSimple s ∧ String.ofList s ∉ reservedWords ∧ String.ofList s ∉ otherReserved
  | .keyword s => IsSimple s
  | .quoted s => ∀ c ∈ s, c ≠ '|' ∧ c ≠ '\\'
  | .numeral ds => ds ≠ [] ∧ ∀ c ∈ ds, c.isDigit = true
  | .decimal is fs => is ≠ [] ∧ fs ≠ [] ∧ ∀ c ∈ is ++ fs, c.isDigit = true
  | .hex ds => ds ≠ [] ∧ ∀ c ∈ ds, isHex c = true
  | .binary ds => ds ≠ [] ∧ ∀ c ∈ ds, c = '0' ∨ c = '1'

/-- The characters of a token; a quote in a string is written twice. -/
def Lexeme.text : Lexeme → List Char
  | .lparen => ['(']
  | .rparen => [')']
  | .reserved s => s.toList
  | .symbol s => s
  | .quoted s => '|' :: s ++ ['|']
  | .keyword s => ':' :: s
  | .numeral ds => ds
  | .decimal is fs => is ++ '.' :: fs
  | .hex ds => '#' :: 'x' :: ds
  | .binary ds => '#' :: 'b' :: ds
  | .string s => '"' :: s.flatMap (fun c => if c = '"' then ['"', '"'] else [c]) ++ ['"']

/-- Parentheses end themselves. -/
def Lexeme.isParen : Lexeme → Bool
  | .lparen | .rparen => true
  | _ => false

/-- White space and comments. -/
inductive Gap : List Char → Prop
  | nil : Gap []
  | blank {c g} : isBlank c = true → Gap g → Gap (c :: g)
  | comment {body g} : (∀ c ∈ body, c ≠ '\n') → Gap g → Gap (';' :: body ++ '\n' :: g)

/-- A text in which the tokens appear in this order, with gaps between them. The text after a token that is not a
parenthesis is empty or begins with a gap or a parenthesis. The last comment need not end. -/
inductive Layout : List Lexeme → List Char → Prop
  | nil {g} : Gap g → Layout [] g
  | last {g body} : Gap g → (∀ c ∈ body, c ≠ '\n') → Layout [] (g ++ ';' :: body)
  | cons {g x xs t} : Gap g → x.Valid → (x.isParen = true ∨ t = [] ∨ ∃ c t', t = c :: t' ∧ endsToken c = true) →
      Layout xs t → Layout (x :: xs) (g ++ x.text ++ t)

end Yaga.Spec
