/-
C70: The lexer returns the tokens of SMT-LIB.

Model: `tokens` (Model/Lexer.lean) is the rules of smt2_lexer.ll with the matching of flex: the longest match of the
remaining input, by derivatives of the patterns, and the first rule among several.
Specification: Spec/Lexicon.lean gives the words of a pattern (`RE.Lang`), the rule of flex without an algorithm
(`Munch`), and the lexicon of the standard: the tokens (`Lexeme`) with their texts and the texts (`Layout`) in which
they appear one after another. Spec/LexToken.lean says which token is expected for which lexeme.
-/
import Verif.Proofs.LexScan

namespace Yaga

open Spec Lexer

/-- For every text the tokens are those of the rule of flex, and the lexer throws where that rule has it throw. -/
theorem C70_munch (text : List Char) (ts : List Token) (bad : Bool) :
    tokens text = (ts, bad) ↔ Scan text ts bad := by
  constructor
  · intro h
    have := tokens_scan text
    rw [h] at this
    exact this
  · exact scan_tokens

/-- Whatever tokens are written, and whatever white space and comments are between them, the lexer returns exactly these
tokens with their texts, and then the end of the input.
Missing from the full statement: the symbol `define-const` (see `C70_define_const`). -/
theorem C70_reads_partial {xs : List Lexeme} {text : List Char} (h : Layout xs text)
    (hd : .symbol "define-const".toList ∉ xs) : tokens text = (xs.map Lexeme.token, false) :=
  scan_tokens (layout_scan h hd)

/-- `define-const` is not a reserved word of SMT-LIB 2.6, but the lexer treats it as one. -/
theorem C70_define_const : Layout [.symbol "define-const".toList] "define-const".toList ∧
    tokens "define-const".toList ≠ ([Lexeme.token (.symbol "define-const".toList)], false) := by
  refine ⟨?_, by decide +kernel⟩
  have := Layout.cons (g := []) (x := .symbol "define-const".toList) (t := []) .nil ?_ (Or.inr (Or.inl rfl)) (.nil .nil)
  · rw [List.nil_append, List.append_nil] at this
    exact this
  · refine ⟨⟨by decide +kernel, 'd', "efine-const".toList, rfl, by decide +kernel⟩, ?_, ?_⟩ <;> decide +kernel

/-- The reserved words that the solver does not support are returned as symbols. -/
theorem C70_other_reserved : ∀ s ∈ otherReserved, tokens s.toList = ([(.symbol, s.toList)], false) := by decide +kernel

/-! ### Concrete cases -/

/-- A text with a comment, a numeral next to a parenthesis, a decimal, a negative-looking symbol and a string. -/
private def sample : List Char := "(assert (<= x -1 2.50)) ; (old)\n(echo \"a\"\"b\")".toList

private def sampleTokens : List Lexeme :=
  [.lparen, .reserved "assert", .lparen, .symbol "<=".toList, .symbol "x".toList, .symbol "-1".toList,
    .decimal "2".toList "50".toList, .rparen, .rparen, .lparen, .reserved "echo", .string "a\"b".toList, .rparen]

private theorem blank1 : Gap [' '] := .blank rfl .nil

example : Layout sampleTokens sample := by
  have r : Layout [] [] := .nil .nil
  have r := Layout.cons (x := .rparen) .nil trivial (Or.inl rfl) r
  have r := Layout.cons (x := .string "a\"b".toList) blank1 trivial (Or.inr (Or.inr ⟨')', _, rfl, rfl⟩)) r
  have r := Layout.cons (x := .reserved "echo") .nil (by show _ ∈ _; decide) (Or.inr (Or.inr ⟨' ', _, rfl, rfl⟩)) r
  have r := Layout.cons (x := .lparen) (.blank (c := ' ') rfl (.comment (body := " (old)".toList) (by decide) .nil))
    trivial (Or.inl rfl) r
  have r := Layout.cons (x := .rparen) .nil trivial (Or.inl rfl) r
  have r := Layout.cons (x := .rparen) .nil trivial (Or.inl rfl) r
  have r := Layout.cons (x := .decimal "2".toList "50".toList) blank1 ⟨by decide, by decide, by decide⟩
    (Or.inr (Or.inr ⟨')', _, rfl, rfl⟩)) r
  have r := Layout.cons (x := .symbol "-1".toList) blank1
    ⟨⟨by decide, '-', ['1'], rfl, rfl⟩, by decide +kernel, by decide +kernel⟩ (Or.inr (Or.inr ⟨' ', _, rfl, rfl⟩)) r
  have r := Layout.cons (x := .symbol "x".toList) blank1
    ⟨⟨by decide, 'x', [], rfl, rfl⟩, by decide +kernel, by decide +kernel⟩ (Or.inr (Or.inr ⟨' ', _, rfl, rfl⟩)) r
  have r := Layout.cons (x := .symbol "<=".toList) .nil
    ⟨⟨by decide, '<', ['='], rfl, rfl⟩, by decide +kernel, by decide +kernel⟩ (Or.inr (Or.inr ⟨' ', _, rfl, rfl⟩)) r
  have r := Layout.cons (x := .lparen) blank1 trivial (Or.inl rfl) r
  have r := Layout.cons (x := .reserved "assert") .nil (by show _ ∈ _; decide) (Or.inr (Or.inr ⟨' ', _, rfl, rfl⟩)) r
  exact Layout.cons (x := .lparen) .nil trivial (Or.inl rfl) r

example : tokens sample = (sampleTokens.map Lexeme.token, false) := by decide +kernel

-- an unknown character, an open string, and a longest match that ends a numeral before a letter
example : tokens "(é)".toList = ([(.lparenTok, ['('])], true) := by decide +kernel
example : tokens "x \"ab".toList = ([(.symbol, ['x'])], true) := by decide +kernel
example : tokens "12ab 1.x".toList =
    ([(.integerLiteral, ['1', '2']), (.symbol, ['a', 'b']), (.integerLiteral, ['1']), (.symbol, ['.', 'x'])], false) := by
  decide +kernel

end Yaga

#print axioms Yaga.C70_munch
#print axioms Yaga.C70_reads_partial
#print axioms Yaga.C70_define_const
#print axioms Yaga.C70_other_reserved
