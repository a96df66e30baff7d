/-
The Luby sequence 1,1,2,1,1,2,4,... by its usual recursive definition.
-/
namespace Yaga.Spec

/-- `IsLuby i n`: the `i`-th (1-based) term of the Luby sequence is `n`. The term at position
`2^(k+1) - 1` is `2^k`; a position strictly between `2^k - 1` and `2^(k+1) - 1` repeats the
sequence from the start. -/
inductive IsLuby : Nat → Nat → Prop where
  | last (k : Nat) : IsLuby (2 ^ (k + 1) - 1) (2 ^ k)
  | repeated (k i n : Nat) : 2 ^ k ≤ i → i < 2 ^ (k + 1) - 1 → IsLuby (i - 2 ^ k + 1) n → IsLuby i n

end Yaga.Spec
