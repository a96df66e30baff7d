/-
Specification for C46: the DIMACS format, as the set of texts of a list of clauses.
-/
import Verif.Model.Literal
import Verif.Spec.Decimal
import Mathlib.Data.List.Forall2

namespace Yaga.Spec

/-- Blanks within a line. -/
def Blank (cs : List Char) : Prop := ∀ c ∈ cs, c = ' ' ∨ c = '\t' ∨ c = '\r'

/-- Value of a sequence of digits: the digit that is followed by `k` others counts `10 ^ k`. -/
def natVal : List (Fin 10) → Nat
  | [] => 0
  | d :: ds => d.val * 10 ^ ds.length + natVal ds

/-- The texts of a natural number. -/
def NatText (cs : List Char) (n : Nat) : Prop :=
  ∃ ds : List (Fin 10), ds ≠ [] ∧ cs = ds.map digitChar ∧ natVal ds = n

/-- The texts of an integer. -/
def IntText (cs : List Char) (i : Int) : Prop :=
  (∃ n : Nat, NatText cs n ∧ i = n) ∨ (∃ (t : List Char) (n : Nat), cs = '-' :: t ∧ NatText t n ∧ i = -(n : Int))

/-- The texts of a sequence of integers separated by blanks. -/
inductive DataText : List Char → List Int → Prop
  | blank {ws} : Blank ws → DataText ws []
  | last {ws t i} : Blank ws → IntText t i → DataText (ws ++ t) [i]
  | cons {ws t c rest i is} : Blank ws → IntText t i → Blank [c] → DataText (c :: rest) is →
      DataText (ws ++ (t ++ c :: rest)) (i :: is)

/-- Kinds of lines. -/
inductive LineKind where
  | comment
  | header (n m : Nat)
  | data (is : List Int)

/-- The texts of the lines. -/
inductive LineText : List Char → LineKind → Prop
  | comment {ws rest} : Blank ws → LineText (ws ++ 'c' :: rest) .comment
  | header {ws w1 t1 w2 t2 w3 n m} : Blank ws → Blank w1 → w1 ≠ [] → NatText t1 n → Blank w2 → w2 ≠ [] →
      NatText t2 m → Blank w3 →
      LineText (ws ++ ('p' :: ' ' :: 'c' :: 'n' :: 'f' :: (w1 ++ (t1 ++ (w2 ++ (t2 ++ w3)))))) (.header n m)
  | data {cs is} : DataText cs is → LineText cs (.data is)

/-- The numbers on the data lines. -/
def ints : List LineKind → List Int
  | [] => []
  | .data is :: ks => is ++ ints ks
  | _ :: ks => ints ks

def LineKind.isHeader : LineKind → Bool
  | .header _ _ => true
  | _ => false

/-- The text of clauses: each is ended by 0. -/
def clauseInts (cls : List (List Int)) : List Int := (cls.map fun c => c ++ [0]).flatten

/-- `l` is the literal with number `i`: variables are numbered from 1 in a file and from 0 in the
solver. -/
def IsLit (i : Int) (l : Lit) : Prop := i ≠ 0 ∧ (l.ord : Int) + 1 = |i| ∧ (l.isNeg = true ↔ i < 0)

/-- The number `i` is true in an assignment of the variables 1, 2, ... -/
def IntTrue (m : Nat → Bool) (i : Int) : Prop := m i.natAbs = true ∧ 0 < i ∨ m i.natAbs = false ∧ i < 0

/-- The clauses of a file are satisfiable: one assignment makes a literal of each true. -/
def CnfSat (cls : List (List Int)) : Prop := ∃ m : Nat → Bool, ∀ c ∈ cls, ∃ i ∈ c, IntTrue m i

end Yaga.Spec
