/-
What it means for the reasons stored in a trail to explain the propagated literals.
-/
import Verif.Model.Trail

namespace Yaga.Spec

variable {R : Type}

/-- Variable `w` got its value before `v`: at a lower level, or earlier in the list of the level
they share. -/
def Before (t : Trail R) (w v : Var) : Prop :=
  ∃ lw lv, t.level w = some lw ∧ t.level v = some lv ∧
    (lw < lv ∨ lw = lv ∧ ∃ xs a ys, t.assigned lv = xs ++ a :: ys ∧ a.var = v ∧
      ∃ b ∈ xs, b.var = w)

/-- The literal of a boolean variable that is true in the trail's model. -/
def trueLit (t : Trail R) (v : Var) : Lit := Lit.ofVal v.ord (t.bools.value v.ord)

/-- Every reason is a clause that contains the literal it propagated, and whose other literals
were false at that time. `deref` reads the clause a reason points to. -/
structure ReasonsOk (deref : R → Clause) (t : Trail R) : Prop where
  isBool : ∀ v r, t.reason v = some r → v.type = .boolean
  mem : ∀ v r, t.reason v = some r → trueLit t v ∈ deref r
  others : ∀ v r, t.reason v = some r → ∀ m ∈ deref r, m ≠ trueLit t v →
    evalLit t.bools m = some false ∧ Before t m.var v

/-- Nothing was propagated late: a variable propagated at a level above 0 has a literal of the
same level in its reason. -/
def Tight (deref : R → Clause) (t : Trail R) : Prop :=
  ∀ v r l, t.reason v = some r → t.level v = some l → 0 < l →
    ∃ m ∈ deref r, m ≠ trueLit t v ∧ t.level m.var = some l

/-- Every boolean variable of level 0 has a reason. -/
def ZeroReason (t : Trail R) : Prop :=
  ∀ n, t.level (.bool n) = some 0 → t.reason (.bool n) ≠ none

end Yaga.Spec
