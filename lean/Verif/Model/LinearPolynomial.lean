/-
Model of `src/utils/Linear_polynomial.{h,cpp}` and of `detail::Linear_polynomial` in
`src/lra/Lra_conflict_analysis.h`.
-/
import Verif.Model.LinearConstraint

namespace Yaga

/-- `utils::Linear_polynomial`, src/utils/Linear_polynomial.h:13-16. The vectors `vars` and `coef`
always change together; they are modelled by one list of pairs. -/
structure UPoly where
  terms : List (Nat × ℚ)
  const : ℚ
  deriving DecidableEq

namespace UPoly

/-- Body of the loop of `add`, src/utils/Linear_polynomial.cpp:8-20: the first occurrence of the
variable gets the coefficient added and is erased if the sum is 0; otherwise the term is
appended. -/
def addTerm : List (Nat × ℚ) → Nat × ℚ → List (Nat × ℚ)
  | [], t => [t]
  | p :: ts, t =>
    if p.1 = t.1 then (if p.2 + t.2 = 0 then ts else (p.1, p.2 + t.2) :: ts)
    else p :: addTerm ts t

/-- `add`, src/utils/Linear_polynomial.cpp:5-24. -/
def add (p x : UPoly) : UPoly := ⟨x.terms.foldl addTerm p.terms, p.const + x.const⟩

/-- `sub`, src/utils/Linear_polynomial.cpp:26-36. -/
def sub (p x : UPoly) : UPoly := add p ⟨x.terms.map fun t => (t.1, t.2 * (-1)), x.const * (-1)⟩

/-- `negate`, src/utils/Linear_polynomial.cpp:38-45. -/
def negate (p : UPoly) : UPoly := ⟨p.terms.map fun t => (t.1, -t.2), -p.const⟩

/-- `std::optional<int>` comparison `a > b`: an empty optional is smaller than every value. -/
def optGt : Option Int → Option Int → Bool
  | some a, some b => decide (a > b)
  | some _, none => true
  | none, _ => false

/-- `sort`, src/utils/Linear_polynomial.cpp:47-66; `lvl` is `trail.decision_level` of a rational
variable. -/
def sort (lvl : Nat → Option Int) (p : UPoly) : UPoly :=
  ⟨sortBy (fun a b => optGt (lvl a.1) (lvl b.1)) p.terms, p.const⟩

/-- `subtract_var`, src/utils/Linear_polynomial.cpp:68-73. -/
def subtractVar (p : UPoly) (v : Nat) : UPoly := ⟨p.terms ++ [(v, -1)], p.const⟩

end UPoly

/-- `detail::Linear_polynomial`, src/lra/Lra_conflict_analysis.h:22-29. -/
structure DPoly where
  terms : List (Nat × ℚ)
  const : ℚ
  deriving DecidableEq

namespace DPoly

/-- Loop of `normalize`, src/lra/Lra_conflict_analysis.h:47-69. `done` are the elements before
`out_it`, `cur` is `*out_it`. -/
def normLoop (done : List (Nat × ℚ)) (cur : Nat × ℚ) : List (Nat × ℚ) → List (Nat × ℚ)
  | [] => if cur.2 ≠ 0 then done ++ [cur] else done
  | t :: ts =>
    if cur.1 ≠ t.1 then
      (if cur.2 ≠ 0 then normLoop (done ++ [cur]) t ts else normLoop done t ts)
    else normLoop done (cur.1, cur.2 + t.2) ts

/-- `normalize` on the vector of terms, src/lra/Lra_conflict_analysis.h:41-70. -/
def normTerms (ts : List (Nat × ℚ)) : List (Nat × ℚ) :=
  match sortBy (fun a b => decide (a.1 < b.1)) ts with
  | [] => []
  | t :: ts => normLoop [] t ts

/-- `normalize`, src/lra/Lra_conflict_analysis.h:41-70. -/
def normalize (p : DPoly) : DPoly := ⟨normTerms p.terms, p.const⟩

/-- `implied_value`, src/lra/Lra_conflict_analysis.h:77-89. The polynomial is not empty. -/
def impliedValue (m : PModel ℚ) (p : DPoly) : ℚ :=
  let c := (p.terms.head?.getD (0, 1)).2
  ((p.terms.drop 1).foldl (fun b t => b - t.2 * m.value t.1) (-p.const)) / c

end DPoly

end Yaga
