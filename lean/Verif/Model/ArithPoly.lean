/-
Model of `Polynomial<term_t>`, `src/terms/Arithmetic_polynomial.h`.
-/
import Verif.Model.Terms

namespace Yaga

/-- `Polynomial<term_t>`, src/terms/Arithmetic_polynomial.h:19-43: the vector `poly` of monomials. The
variable `Undef` (-1) of a constant monomial is `none`. -/
abbrev APoly := List (Option Tm × ℚ)

namespace APoly

/-- `operator<` of the variables, src/terms/Arithmetic_polynomial.h:29-34; `Undef` is the least. -/
def varLt : Option Tm → Option Tm → Bool
  | _, none => false
  | none, some _ => true
  | some a, some b => Tm.lt a b

/-- `upper_bound` and `insert` in `add_term`, src/terms/Arithmetic_polynomial.h:182-188. -/
def addTerm (v : Option Tm) (c : ℚ) : APoly → APoly
  | [] => [(v, c)]
  | m :: ms => if varLt v m.1 then (v, c) :: m :: ms else m :: addTerm v c ms

/-- The loop of `merge`, src/terms/Arithmetic_polynomial.h:105-153. One element is consumed in every
iteration, so the sum of the lengths bounds their number (`fuel`). The remaining lines of `merge` move
the result from the temporary storage to `poly`. -/
def mergeLoop (coeff : ℚ) : Nat → APoly → APoly → APoly
  | 0, _, _ => []
  | _ + 1, [], os => os.map fun o => (o.1, o.2 * coeff)
  | _ + 1, ms, [] => ms
  | fuel + 1, m :: ms, o :: os =>
    if varLt m.1 o.1 then m :: mergeLoop coeff fuel ms (o :: os)
    else if varLt o.1 m.1 then (o.1, o.2 * coeff) :: mergeLoop coeff fuel (m :: ms) os
    else if m.2 + o.2 * coeff = 0 then mergeLoop coeff fuel ms os
    else (m.1, m.2 + o.2 * coeff) :: mergeLoop coeff fuel ms os

/-- `merge`, src/terms/Arithmetic_polynomial.h:89-180: `p + coeff * q`. -/
def merge (p q : APoly) (coeff : ℚ) : APoly := mergeLoop coeff (p.length + q.length + 1) p q

/-- `negate`, src/terms/Arithmetic_polynomial.h:207-213. -/
def negate (p : APoly) : APoly := p.map fun m => (m.1, -m.2)

/-- `multiply_by`, src/terms/Arithmetic_polynomial.h:223-229. -/
def multiplyBy (p : APoly) (r : ℚ) : APoly := p.map fun m => (m.1, m.2 * r)

end APoly
end Yaga
