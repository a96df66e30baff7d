/-
Model of `src/Literal_map.h` with its vector: `none` means an access outside the vector.
-/
import Verif.Model.TrailMemory

namespace Yaga

/-- `Literal_map<T>`: the member `values`, src/Literal_map.h:104. -/
structure LMap (T : Type) where
  values : List T

/-- Calls that change a map: `map[lit] = x`, `assign(x)` and `resize(n)`. -/
inductive LMOp (T : Type) where
  | write (l : Lit) (x : T)
  | assign (x : T)
  | resize (n : Nat)

namespace LMap
variable {T : Type}

/-- `Literal_map()`, src/Literal_map.h:22. -/
def empty : LMap T := ⟨[]⟩

/-- `Literal_map(num_vars, value)`, src/Literal_map.h:36; with `T{}` for `value` this is `Literal_map(num_vars)`, line 28. -/
def make (n : Nat) (x : T) : LMap T := ⟨List.replicate (n * 2) x⟩

/-- `operator[]` used as a value, src/Literal_map.h:51-58. -/
def read (m : LMap T) (l : Lit) : Option T := m.values[l.index]?

/-- `operator[]` used as the target of an assignment, src/Literal_map.h:51. -/
def write (m : LMap T) (l : Lit) (x : T) : Option (LMap T) :=
  if Nat.blt l.index m.values.length then some ⟨m.values.set l.index x⟩ else none

/-- `assign`, src/Literal_map.h:64. -/
def assign (m : LMap T) (x : T) : LMap T := ⟨List.replicate m.values.length x⟩

/-- `resize`, src/Literal_map.h:96; `z` is `T{}`. -/
def resize (z : T) (m : LMap T) (n : Nat) : LMap T := ⟨resizeL m.values (n * 2) z⟩

/-- `num_vars`, src/Literal_map.h:102. -/
def numVars (m : LMap T) : Nat := m.values.length / 2

/-- Effect of a call. -/
def step (z : T) (m : LMap T) : LMOp T → Option (LMap T)
  | .write l x => m.write l x
  | .assign x => some (m.assign x)
  | .resize n => some (m.resize z n)

/-- A sequence of calls. -/
def run (z : T) : List (LMOp T) → LMap T → Option (LMap T)
  | [], m => some m
  | o :: os, m => (m.step z o).bind (run z os)

end LMap
end Yaga
