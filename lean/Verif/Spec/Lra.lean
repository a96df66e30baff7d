/-
Vocabulary for the properties of the arithmetic theory.
-/
import Verif.Model.LraHistory
import Verif.Spec.Fm

namespace Yaga.Spec

/-- `σ` agrees with the values of the assigned rational variables. -/
def AgreesWith (m : LModels) (σ : Nat → ℚ) : Prop :=
  ∀ y, m.rats.defined y = true → σ y = m.rats.value y

/-- `σ` satisfies every linear constraint whose literal is assigned. -/
def SatTrail (s : LinStore) (m : LModels) (σ : Nat → ℚ) : Prop :=
  ∀ c, IsCons s c → evalLit m.bools c.lit = some true → ConsTrue s c σ

/-- A constraint all of whose variables are assigned does not have a literal assigned to the opposite
of its value. -/
def ValuesConsistent (s : LinStore) (m : LModels) : Prop :=
  ∀ c, IsCons s c → (∀ p ∈ s.terms c, m.rats.defined p.1 = true) →
    ∀ v, evalLit m.bools c.lit = some v → (v = true ↔ ConsTrue s c m.rats.value)

/-- The bound was derived from the constraint with literal variable `o`. -/
inductive UsesLit (o : Nat) : Bnd → Prop
  | reason (b : Bnd) (h : b.reason.lit.ord = o) : UsesLit o b
  | dep (b d : Bnd) (hd : d ∈ b.deps) (h : UsesLit o d) : UsesLit o b

/-- The value of the bound was computed with the value of the rational variable `y`: it is a variable of
one of the constraints, but neither the bounded variable nor bounded by a dependency. -/
inductive UsesVar (s : LinStore) (y : Nat) : Bnd → Prop
  | reason (b : Bnd) (h : y ∈ s.varsOf b.reason) (hx : y ≠ b.var) (hd : y ∉ b.deps.map Bnd.var) :
      UsesVar s y b
  | dep (b d : Bnd) (hd : d ∈ b.deps) (h : UsesVar s y d) : UsesVar s y b

/-- `q` respects the current bounds and is none of the values that are currently disallowed. -/
def Allows (s : LinStore) (m : LModels) (v : VBounds) (q : ℚ) : Prop :=
  (∀ b, (v.lower s m).2 = some b → b.value < q ∨ b.value = q ∧ b.isStrict = false) ∧
  (∀ b, (v.upper s m).2 = some b → q < b.value ∨ b.value = q ∧ b.isStrict = false) ∧
  ∀ d ∈ v.dis, d.isObsolete s m = false → d.value ≠ q

end Yaga.Spec
