/-
Model of the bindings of `let` and of the parameters of `define-fun`: `Let_binder` and `Let_records` of
`src/parser/Parser_context.h`.
-/

namespace Yaga

/-- `Let_binder`, src/parser/Parser_context.h:32-48. The back of `shadowed_values` is the head of the
list. -/
structure LetBinder (τ : Type) where
  current : τ
  shadowed : List τ

/-- `Let_records`, src/parser/Parser_context.h:50-54. `binders` is the unordered map (one pair per key);
the backs of the two vectors are the heads of the lists. -/
structure LetRecords (τ : Type) where
  binders : List (String × LetBinder τ)
  known : List String
  limits : List Nat

namespace LetRecords

variable {τ : Type}

/-- The initial records. -/
def init : LetRecords τ := ⟨[], [], []⟩

/-- `let_binders.find`, src/parser/Parser_context.h:55 and 58. -/
def find (bs : List (String × LetBinder τ)) (name : String) : Option (LetBinder τ) :=
  match bs with
  | [] => none
  | b :: bs => if b.1 = name then some b.2 else find bs name

/-- `get`, src/parser/Parser_context.h:57-63. -/
def get (r : LetRecords τ) (name : String) : Option τ := (find r.binders name).map (·.current)

/-- Removes the pair of a key. -/
def erase (bs : List (String × LetBinder τ)) (name : String) : List (String × LetBinder τ) :=
  bs.filter fun b => b.1 ≠ name

/-- Replaces the value of a key. -/
def update (bs : List (String × LetBinder τ)) (name : String) (v : LetBinder τ) :
    List (String × LetBinder τ) := (name, v) :: erase bs name

/-- `push_frame`, src/parser/Parser_context.h:64. -/
def pushFrame (r : LetRecords τ) : LetRecords τ := { r with limits := r.known.length :: r.limits }

/-- The loop of `pop_frame`, src/parser/Parser_context.h:70-81; `none` if the assertion at line 73
fails. -/
def popLoop (limit : Nat) :
    List String → List (String × LetBinder τ) → Option (List String × List (String × LetBinder τ))
  | [], bs => some ([], bs)
  | n :: ns, bs =>
    if (n :: ns).length > limit then
      match find bs n with
      | none => none
      | some v =>
        match v.shadowed with
        | s :: ss => popLoop limit ns (update bs n ⟨s, ss⟩)
        | [] => popLoop limit ns (erase bs n)
    else some (n :: ns, bs)

/-- `pop_frame`, src/parser/Parser_context.h:66-82; `none` if there is no frame. -/
def popFrame (r : LetRecords τ) : Option (LetRecords τ) :=
  match r.limits with
  | [] => none
  | limit :: limits => (popLoop limit r.known r.binders).map fun p => ⟨p.2, p.1, limits⟩

/-- `add_binding`, src/parser/Parser_context.h:84-91. -/
def addBinding (r : LetRecords τ) (name : String) (t : τ) : LetRecords τ :=
  match find r.binders name with
  | none => { r with binders := (name, ⟨t, []⟩) :: r.binders, known := name :: r.known }
  | some v =>
    { r with binders := update r.binders name ⟨t, v.current :: v.shadowed⟩, known := name :: r.known }

/-- `add_let_bindings`, src/parser/Parser_context.cpp:12-19. -/
def addLetBindings (r : LetRecords τ) (bs : List (String × τ)) : LetRecords τ :=
  bs.foldl (fun r b => r.addBinding b.1 b.2) r.pushFrame

end LetRecords

/-- Operations on the records. -/
inductive LetOp (τ : Type) where
  | push
  | add (name : String) (t : τ)
  | pop

/-- Effect of an operation. -/
def LetOp.run {τ : Type} (r : LetRecords τ) : LetOp τ → Option (LetRecords τ)
  | .push => some r.pushFrame
  | .add n t => some (r.addBinding n t)
  | .pop => r.popFrame

/-- Effect of a sequence of operations. -/
def LetRecords.after {τ : Type} (r : LetRecords τ) : List (LetOp τ) → Option (LetRecords τ)
  | [] => some r
  | op :: ops => (op.run r).bind fun r => r.after ops

end Yaga
