/-
What the definitions in a response to `get-model` say about an interpretation.
-/
import Verif.Spec.SmtText
import Verif.Spec.Term
import Verif.Model.Internalizer
import Verif.Spec.Fraction

namespace Yaga.Spec

/-- The value of the function with symbol `t` in an interpretation, for a result of the sort. -/
def fnValue (I : Interp) (t : Tm) (so : Sort') (args : List Val) : Val :=
  match so with
  | .bool => .b (I.fnB t.index args)
  | .real => .q (I.fnQ t.index args)

/-- The interpretation gives every declared symbol with the name of the definition (`nm` is the name of a symbol)
the value that the definition gives: for all arguments of the sorts of the parameters, if there are parameters. -/
def Def.Meets (s : TermTable) (nm : Tm → Option (List Char)) (I : Interp) (d : Def) : Prop :=
  ∀ t, s.kind t = .uninterpreted → t.isNeg = false → nm t = some d.name →
    if d.params = [] then d.Gives [] (den I s t)
    else ∀ args, args.length = d.params.length → (∀ p ∈ args.zip d.params, p.1.has p.2.2 = true) →
      d.Gives args (fnValue I t d.sort args)

/-- Applications of one function have the same number of arguments, at least one. -/
def SameArity (s : TermTable) : Prop :=
  (∀ t, s.kind t = .app → s.args t ≠ []) ∧
  ∀ t t', s.kind t = .app → s.kind t' = .app → s.fncSymbol t = s.fncSymbol t' → (s.args t).length = (s.args t').length

/-- Names can be printed without quotes: they are not empty and have no white space or parentheses. -/
def Plain (n : List Char) : Prop := n ≠ [] ∧ ∀ c ∈ n, isDelim c = false

/-- The constants and functions that got variables have names, and the names are plain. -/
def Named (s : TermTable) (st : IState) (nm : Tm → Option (List Char)) : Prop :=
  (∀ p ∈ st.boolVars, s.kind p.1 = .uninterpreted → ∃ n, nm p.1 = some n ∧ Plain n) ∧
  (∀ p ∈ st.ratVars, s.kind p.1 = .uninterpreted → ∃ n, nm p.1 = some n ∧ Plain n) ∧
  ∀ p ∈ st.apps, ∃ n, nm (s.fncSymbol p.2) = some n ∧ Plain n

/-- Different symbols have different names. -/
def Distinct (s : TermTable) (nm : Tm → Option (List Char)) : Prop :=
  ∀ t t' n, s.kind t = .uninterpreted → s.kind t' = .uninterpreted → t.isNeg = false → t'.isNeg = false →
    nm t = some n → nm t' = some n → t = t'

/-- `pr` gives for every number an object of class `Long_fraction` with this value. -/
def Represents (pr : ℚ → LF) : Prop := ∀ q, Canonical (pr q) ∧ fval (pr q) = q

end Yaga.Spec
