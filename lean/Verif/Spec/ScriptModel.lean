/-
Specification for C75: what the definitions in a response to `get-model` say about a structure for the symbols of a
script.
-/
import Verif.Spec.SmtLib
import Verif.Spec.SmtText
import Verif.Spec.Lexicon

namespace Yaga.Spec

/-- The structure gives the symbol of the definition the values of the definition, for all arguments of the sorts of
its parameters. -/
def Def.Describes (d : Def) (M : Struct) : Prop :=
  ∀ args : List Val, args.length = d.params.length → (∀ p ∈ args.zip d.params, p.1.has p.2.2 = true) →
    d.Gives args (M (String.ofList d.name) args)

/-- The definitions describe models of the script: there is a structure for its symbols that agrees with them, and
all assertions are true in every such structure. -/
def ModelsOf (is : List Item) (defs : List Def) : Prop :=
  (∃ M : Struct, M.For is ∧ ∀ d ∈ defs, d.Describes M) ∧
  ∀ M : Struct, M.For is → (∀ d ∈ defs, d.Describes M) → ∀ e ∈ asserted is, e.value M [] = .b true

/-- The declared names are written without bars: they are simple symbols and not reserved. -/
def plainNames (is : List Item) : Prop := ∀ n as r, Item.declare n as r ∈ is → (Lexeme.symbol n.toList).Valid

end Yaga.Spec
