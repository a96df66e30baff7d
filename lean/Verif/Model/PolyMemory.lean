/-
`Polynomial<term_t>` with its temporary storage, and the functions of the class that Model/ArithPoly does not contain.
`none` is a failed assertion or an access outside of a vector.
-/
import Verif.Model.ArithPoly

namespace Yaga
namespace APoly

/-- The local state of `merge`, src/terms/Arithmetic_polynomial.h:89-103: the temporary storage and the number of elements
written to it, and the variables for which the hooks were called. -/
structure MergeSt where
  tmp : APoly
  idx : Nat
  added : List (Option Tm)
  removed : List (Option Tm)
  deriving DecidableEq

/-- `tmp_storage[storageIndex] = ...; ++storageIndex;`, src/terms/Arithmetic_polynomial.h:109-111, 123-124, 129-131,
146-147. -/
def MergeSt.put (s : MergeSt) (m : Option Tm × ℚ) : Option MergeSt :=
  if s.idx < s.tmp.length then some { s with tmp := s.tmp.set s.idx m, idx := s.idx + 1 } else none

/-- `informAdded`, src/terms/Arithmetic_polynomial.h:112, 132. -/
def MergeSt.add (s : MergeSt) (v : Option Tm) : MergeSt := { s with added := s.added ++ [v] }

/-- `informRemoved`, src/terms/Arithmetic_polynomial.h:142. -/
def MergeSt.remove (s : MergeSt) (v : Option Tm) : MergeSt := { s with removed := s.removed ++ [v] }

/-- The rest of `other`, src/terms/Arithmetic_polynomial.h:107-113. -/
def putOthers (coeff : ℚ) : APoly → MergeSt → Option MergeSt
  | [], s => some s
  | o :: os, s => (s.put (o.1, o.2 * coeff)).bind fun s => putOthers coeff os (s.add o.1)

/-- `std::move(myIt, myEnd, tmp_storage.begin() + storageIndex)`, src/terms/Arithmetic_polynomial.h:118-119. -/
def putMine : APoly → MergeSt → Option MergeSt
  | [], s => some s
  | m :: ms, s => (s.put m).bind (putMine ms)

/-- The loop of `merge`, src/terms/Arithmetic_polynomial.h:103-154; `fuel` bounds the number of iterations. -/
def mergeSteps (coeff : ℚ) : Nat → APoly → APoly → MergeSt → Option MergeSt
  | 0, _, _, _ => none
  | _ + 1, [], os, s => putOthers coeff os s
  | _ + 1, m :: ms, [], s => putMine (m :: ms) s
  | fuel + 1, m :: ms, o :: os, s =>
    if varLt m.1 o.1 then (s.put m).bind (mergeSteps coeff fuel ms (o :: os))
    else if varLt o.1 m.1 then (s.put (o.1, o.2 * coeff)).bind fun s => mergeSteps coeff fuel (m :: ms) os (s.add o.1)
    else if m.1 ≠ o.1 then none
    else if m.2 + o.2 * coeff = 0 then mergeSteps coeff fuel ms os (s.remove m.1)
    else (s.put (m.1, m.2 + o.2 * coeff)).bind (mergeSteps coeff fuel ms os)

/-- The first `idx` elements of the temporary storage are moved to `poly`, src/terms/Arithmetic_polynomial.h:157-179. -/
def moveBack (poly tmp : APoly) (idx : Nat) : Option APoly :=
  if tmp.length < idx then none
  else if idx > poly.length then
    some (tmp.take poly.length ++ poly.drop (tmp.take poly.length).length ++ (tmp.drop poly.length).take (idx - poly.length))
  else if poly.length ≤ 2 * idx then some ((tmp.take idx ++ poly.drop idx).take idx)
  else some (tmp.take idx)

/-- `merge` with the external storage `tmp`, src/terms/Arithmetic_polynomial.h:87-180. The result is the new contents of
`poly` and the local state. -/
def mergeMem (p q : APoly) (coeff : ℚ) (tmp : APoly) : Option (APoly × MergeSt) :=
  let tmp := if tmp.length < p.length + q.length
    then tmp ++ List.replicate (p.length + q.length - tmp.length) (none, 0) else tmp
  (mergeSteps coeff (p.length + q.length + 1) p q ⟨tmp, 0, [], []⟩).bind fun s =>
    (moveBack p s.tmp s.idx).map fun r => (r, s)

/-- `find_term_for_var`, src/terms/Arithmetic_polynomial.h:73-83. -/
def findTerm (p : APoly) (v : Option Tm) : Option (Option Tm × ℚ) := p.find? fun m => decide (m.1 = v)

/-- `contains`, src/terms/Arithmetic_polynomial.h:71. -/
def contains (p : APoly) (v : Option Tm) : Bool := (p.findTerm v).isSome

/-- `add_term`, src/terms/Arithmetic_polynomial.h:182-188, with its assertion. -/
def addTermC (p : APoly) (v : Option Tm) (c : ℚ) : Option APoly :=
  if p.contains v then none else some (addTerm v c p)

/-- `get_coeff`, src/terms/Arithmetic_polynomial.h:192-196. -/
def getCoeff (p : APoly) (v : Option Tm) : Option ℚ := (p.findTerm v).map Prod.snd

/-- `poly.erase(it)` for the first monomial of `v`, src/terms/Arithmetic_polynomial.h:203. -/
def eraseTerm (v : Option Tm) : APoly → APoly
  | [] => []
  | m :: ms => if m.1 = v then ms else m :: eraseTerm v ms

/-- `remove_var`, src/terms/Arithmetic_polynomial.h:198-205. -/
def removeVar (p : APoly) (v : Option Tm) : Option (APoly × ℚ) :=
  (p.findTerm v).map fun m => (eraseTerm v p, m.2)

/-- `divide_by`, src/terms/Arithmetic_polynomial.h:215-221; division by 0 fails. -/
def divideBy (p : APoly) (r : ℚ) : Option APoly :=
  if r = 0 ∧ p ≠ [] then none else some (p.map fun m => (m.1, m.2 / r))

end APoly
end Yaga
