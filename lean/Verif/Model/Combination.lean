/-
Model of `Theory_combination::propagate` and `decide`, `src/Theory_combination.cpp`.
-/
import Verif.Model.Literal

namespace Yaga

/-- A theory plugin as seen by the combination: `propagate` changes the solver state and returns
conflict clauses, `decide` changes the state. `S` is everything the plugins can see and change
(trail, database, their own members). -/
structure Plugin (S : Type) where
  propagate : S → S × List Clause
  decide : S → Var → S

/-- One pass of the inner loop, src/Theory_combination.cpp:13-20: the first non-empty list of
conflicts ends it. -/
def combineRound {S : Type} : List (Plugin S) → S → S × List Clause
  | [], s => (s, [])
  | p :: ps, s =>
    let (s', c) := p.propagate s
    if c.isEmpty then combineRound ps s' else (s', c)

/-- The outer loop, src/Theory_combination.cpp:10-28. `recent` is `trail.recent().size()`. `none`:
the fuel is used up. -/
def combinePropagate {S : Type} (recent : S → Nat) (ps : List (Plugin S)) :
    Nat → S → Option (S × List Clause)
  | 0, _ => none
  | fuel + 1, s =>
    let (s', c) := combineRound ps s
    if !c.isEmpty then some (s', c)
    else if recent s = recent s' then some (s', [])
    else combinePropagate recent ps fuel s'

/-- `decide`, src/Theory_combination.cpp:32-38. -/
def combineDecide {S : Type} (ps : List (Plugin S)) (s : S) (v : Var) : S :=
  ps.foldl (fun s p => p.decide s v) s

end Yaga
