/-
C41: decimal literals are read exactly.
-/
import Verif.Proofs.Decimal
import Verif.Proofs.TermOps

namespace Yaga

open Spec

/-- C41, decimals: for all digits before and after the point (any number of them, leading and trailing
zeros included) the stored number is the number the literal denotes, in canonical form; whatever
mixture of machine words and GMP numbers the computation goes through. -/
theorem C41_decimal (is fs : List (Fin 10)) :
    ∃ c, LF.mkRational (is.map digitChar ++ '.' :: fs.map digitChar) = some c ∧ Canonical c ∧
      fval c = intVal is + fracVal fs := LF.mkRational_exact is fs

/-- C41, numerals (also through `mk_rational_constant`). -/
theorem C41_numeral (ds : List (Fin 10)) :
    (∃ c, LF.mkInteger (ds.map digitChar) = some c ∧ Canonical c ∧ fval c = intVal ds) ∧
    (∃ c, LF.mkRational (ds.map digitChar) = some c ∧ Canonical c ∧ fval c = intVal ds) := by
  refine ⟨LF.mkInteger_exact ds, ?_⟩
  unfold LF.mkRational
  rw [if_neg (LF.dot_notMem ds)]
  exact LF.mkInteger_exact ds

/-- C41: the term made for the literal has that value in every interpretation, whatever terms there
were before. -/
theorem C41_term {H : TermHash} {s : TermTable} (hs : TReach H s) (is fs : List (Fin 10)) (I : Interp) :
    ∃ c, LF.mkRational (is.map digitChar ++ '.' :: fs.map digitChar) = some c ∧
      let r := s.arithConstant H (fval c)
      den I r.1 r.2 = .q (intVal is + fracVal fs) := by
  obtain ⟨c, h1, _, h3⟩ := C41_decimal is fs
  refine ⟨c, h1, ?_⟩
  rw [h3]
  exact (run_res hs.wf (op := .rational (intVal is + fracVal fs)) trivial rfl).2.2.2 I _ rfl

/-- 3.14, 0.50 and a decimal with a fractional part of 12 digits. -/
example : intVal [3] + fracVal [1, 4] = 157 / 50 ∧ intVal [0] + fracVal [5, 0] = 1 / 2 ∧
    (LF.mkRational "3.14".toList).map fval = some (157 / 50) ∧
    (LF.mkRational "0.123456789012".toList).map fval = some (123456789012 / 1000000000000) := by
  refine ⟨by decide +kernel, by decide +kernel, by decide +kernel, by decide +kernel⟩

#print axioms C41_decimal
#print axioms C41_numeral
#print axioms C41_term

end Yaga
