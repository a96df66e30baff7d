/-
Specification for C42: values of the parameters, and occurrence of a term in a term.
-/
import Verif.Spec.Term

namespace Yaga.Spec

/-- The interpretation `I` with the constants `params` having the given values. -/
def Interp.bind (I : Interp) (vals : List (Tm × Val)) : Interp :=
  { I with
    constB := fun i => ((vals.find? fun p => p.1.index == i).map fun p => p.2.bool).getD (I.constB i)
    constQ := fun i => ((vals.find? fun p => p.1.index == i).map fun p => p.2.num).getD (I.constQ i) }

/-- `x` occurs in `t` (negated or not). -/
inductive OccursIn (s : TermTable) (x : Tm) : Tm → Prop
  | here {t} : t.index = x.index → OccursIn s x t
  | arg {t a} : a ∈ s.allArgs t → OccursIn s x a → OccursIn s x t

end Yaga.Spec
