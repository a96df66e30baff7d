/-
Specification for C43: nested scopes.
-/
import Verif.Model.Let

namespace Yaga.Spec

variable {τ : Type}

/-- Scopes, the innermost first, each with its bindings, the latest first. The bindings made outside
all scopes are `top`. -/
structure Scopes (τ : Type) where
  frames : List (List (String × τ))
  top : List (String × τ)

/-- All bindings in scope, the innermost first. -/
def Scopes.all (s : Scopes τ) : List (String × τ) := s.frames.flatten ++ s.top

/-- The innermost binding of a name. -/
def innermost : List (String × τ) → String → Option τ
  | [], _ => none
  | b :: bs, n => if b.1 = n then some b.2 else innermost bs n

/-- The meaning of the operations on scopes; `none` for leaving a scope that was not entered. -/
def Scopes.step (s : Scopes τ) : LetOp τ → Option (Scopes τ)
  | .push => some { s with frames := [] :: s.frames }
  | .add n t =>
    match s.frames with
    | [] => some { s with top := (n, t) :: s.top }
    | f :: fs => some { s with frames := ((n, t) :: f) :: fs }
  | .pop =>
    match s.frames with
    | [] => none
    | _ :: fs => some { s with frames := fs }

/-- The scopes after a sequence of operations. -/
def Scopes.after (s : Scopes τ) : List (LetOp τ) → Option (Scopes τ)
  | [] => some s
  | op :: ops => (s.step op).bind fun s => s.after ops

/-- A sequence of operations in which every scope that is entered is left again and no other is left:
what happens between the beginning and the end of a term. -/
inductive Balanced : List (LetOp τ) → Prop
  | nil : Balanced []
  | scope {inner rest : List (LetOp τ)} (names : List (String × τ)) : Balanced inner → Balanced rest →
      Balanced (.push :: names.map (fun b => .add b.1 b.2) ++ inner ++ .pop :: rest)

end Yaga.Spec
