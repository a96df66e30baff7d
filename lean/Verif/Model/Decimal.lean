/-
Model of the numeric literals of SMT-LIB: `mk_integer_constant` and `mk_rational_constant` of
`src/terms/Term_manager.cpp`, on `Long_fraction` values.
-/
import Verif.Model.FractionInt

namespace Yaga
namespace LF

/-- `mpq_set_str` with base 10 (called at src/lra/Long_fraction.cpp:37) on a string of digits: the GMP
contract. Precondition: the string has at least one character and all are digits, which holds for all
literals accepted by src/parser/smt2_lexer.ll:24-25. -/
def gmpDigits (cs : List Char) : Nat := cs.foldl (fun n c => 10 * n + (c.toNat - 48)) 0

/-- `Long_fraction(const char*)`, src/lra/Long_fraction.cpp:35-44, on a string of digits. -/
def ofDigits (cs : List Char) : LF := ofString (gmpDigits cs : ℚ)

/-- `mk_integer_constant`, src/terms/Term_manager.cpp:381-386: the number that is stored. -/
def mkInteger (str : List Char) : Option LF :=
  let r := ofDigits str
  if r.isInteger then some r else none

/-- The loop that computes `precision`, src/terms/Term_manager.cpp:399-403. -/
def precision : Nat → LF → Option LF
  | 0, p => some p
  | n + 1, p => (mulA p (ofWord 10)).bind (precision n)

/-- `mk_rational_constant`, src/terms/Term_manager.cpp:388-411: the number that is stored. -/
def mkRational (str : List Char) : Option LF :=
  if '.' ∈ str then do
    let integral := ofDigits (str.takeWhile (· ≠ '.'))
    let fractional := (str.dropWhile (· ≠ '.')).drop 1
    let prec ← precision fractional.length (ofWord 1)
    let frac := ofDigits fractional
    let g ← gcdLF prec frac
    let num ← div frac g
    let den ← div prec g
    let prod ← mul integral den
    let num ← add prod num
    div num den
  else mkInteger str

end LF
end Yaga
