/-
Maps from the literals of finitely many variables.
-/
import Verif.Model.LiteralMap
import Mathlib.Logic.Function.Basic

namespace Yaga.Spec
variable {T : Type}

/-- `MapRun z n f os n' f'`: the calls `os` lead from the map `f` of the literals of `n` variables to the map `f'` of the
literals of `n'` variables. Only literals of these variables are written; literals of new variables are mapped to `z`. -/
inductive MapRun (z : T) : Nat → (Lit → T) → List (LMOp T) → Nat → (Lit → T) → Prop where
  | nil (n f) : MapRun z n f [] n f
  | write {n n' f f' os} (l : Lit) (x : T) : l.ord < n → MapRun z n (Function.update f l x) os n' f' →
      MapRun z n f (.write l x :: os) n' f'
  | assign {n n' f f' os} (x : T) : MapRun z n (fun _ => x) os n' f' → MapRun z n f (.assign x :: os) n' f'
  | resize {n n' f f' os} (k : Nat) : MapRun z k (fun l => if l.ord < n then f l else z) os n' f' →
      MapRun z n f (.resize k :: os) n' f'

end Yaga.Spec
