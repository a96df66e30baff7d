/-
What `std::sort` requires of its comparison.
-/
namespace Yaga.Spec

/-- Strict weak ordering: irreflexive, transitive, and incomparability is transitive (stated as: between two ordered
elements every third element is above the first or below the second). `std::sort` is undefined for other
comparisons. -/
structure StrictWeak {α : Type} (lt : α → α → Bool) : Prop where
  irrefl : ∀ a, lt a a = false
  trans : ∀ a b c, lt a b = true → lt b c = true → lt a c = true
  between : ∀ a b c, lt a c = true → lt a b = true ∨ lt b c = true

end Yaga.Spec
