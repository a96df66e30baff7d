/-
Specification of propositional truth, independent of the solver's data structures.
-/
import Verif.Model.Literal

namespace Yaga.Spec

/-- A total assignment of the boolean variables. -/
abbrev Assignment := Nat → Bool

/-- A literal is true iff its variable has the value the literal asks for. -/
def litTrue (σ : Assignment) (l : Lit) : Prop := if l.isNeg then σ l.ord = false else σ l.ord = true

/-- A clause is true iff one of its literals is. -/
def clauseTrue (σ : Assignment) (c : Clause) : Prop := ∃ l ∈ c, litTrue σ l

/-- All clauses of a set are true. -/
def allTrue (σ : Assignment) (cs : List Clause) : Prop := ∀ c ∈ cs, clauseTrue σ c

/-- No assignment makes all clauses true. -/
def Unsat (cs : List Clause) : Prop := ∀ σ, ¬ allTrue σ cs

/-- Semantic consequence. -/
def Entails (cs : List Clause) (c : Clause) : Prop := ∀ σ, allTrue σ cs → clauseTrue σ c

end Yaga.Spec
