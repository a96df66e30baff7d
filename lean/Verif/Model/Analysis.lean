/-
Model of `src/Conflict_analysis.h` and `src/Conflict_analysis.cpp`.
-/
import Verif.Model.Std
import Verif.Model.Trail

namespace Yaga

/-- State of `Conflict_analysis`, src/Conflict_analysis.h:65-72. The hash set `conflict` is a list
without duplicates. -/
structure CA where
  conflict : List Lit
  topLevel : Nat
  numTop : Int

variable {R : Type}

/-- Insertion into the hash set. -/
def setInsert (s : List Lit) (l : Lit) : List Lit := if l ∈ s then s else l :: s

/-- First loop of `init`, src/Conflict_analysis.cpp:7-13. `none`: a literal is unassigned and
`optional::value()` throws. -/
def CA.initLoop (t : Trail R) : List Lit → List Lit → Nat → Option (List Lit × Nat)
  | [], s, top => some (s, top)
  | l :: ls, s, top =>
    match t.level l.var with
    | none => none
    | some lvl => CA.initLoop t ls (setInsert s l) (max top lvl)

/-- Number of literals of the set at a level, src/Conflict_analysis.cpp:15-17. -/
def countLevel (t : Trail R) (s : List Lit) (lvl : Nat) : Nat :=
  s.countP fun l => t.level l.var == some lvl

/-- `init`, src/Conflict_analysis.cpp:5-18. -/
def CA.init (t : Trail R) (clause : Clause) : Option CA :=
  (CA.initLoop t clause [] 0).map fun (s, top) => ⟨s, top, countLevel t s top⟩

/-- `can_backtrack`, src/Conflict_analysis.h:75. -/
def CA.canBacktrack (c : CA) : Bool := c.numTop == 1 && decide (c.conflict.length > 1)

/-- `can_resolve`, src/Conflict_analysis.h:77. -/
def CA.canResolve (c : CA) (l : Lit) : Bool := decide (l ∈ c.conflict)

/-- Loop of `resolve`, src/Conflict_analysis.cpp:24-34. -/
def CA.resolveLoop (t : Trail R) (lit : Lit) : List Lit → CA → CA
  | [], c => c
  | l :: ls, c =>
    if l ≠ lit.neg then
      if l ∈ c.conflict then CA.resolveLoop t lit ls c
      else CA.resolveLoop t lit ls { c with
        conflict := l :: c.conflict
        numTop := if t.level l.var = some c.topLevel then c.numTop + 1 else c.numTop }
    else CA.resolveLoop t lit ls c

/-- `resolve`, src/Conflict_analysis.cpp:20-40. -/
def CA.resolve (t : Trail R) (c : CA) (other : Clause) (lit : Lit) : CA :=
  let c' := CA.resolveLoop t lit other c
  { c' with conflict := c'.conflict.erase lit, numTop := c'.numTop - 1 }

/-- Loop of `analyze`, src/Conflict_analysis.h:40-55, over the assignments of the top level from
the last to the first. `deref` reads the reason clause behind a pointer. -/
def CA.loop (deref : R → Clause) (t : Trail R) : List (Asg R) → CA → CA
  | [], c => c
  | a :: as, c =>
    if c.canBacktrack then c
    else
      match a.reason with
      | none => CA.loop deref t as c
      | some r =>
        if a.var.type = .boolean ∧ t.level a.var = some c.topLevel then
          let lit := Lit.ofVal a.var.ord (!t.bools.value a.var.ord)
          if c.canResolve lit then CA.loop deref t as (c.resolve t (deref r) lit)
          else CA.loop deref t as c
        else CA.loop deref t as c

/-- Level used for sorting, `decision_level(var).value_or(-1)`, src/Conflict_analysis.cpp:53-54. -/
def levelOr (t : Trail R) (l : Lit) : Int :=
  match t.level l.var with
  | some n => n
  | none => -1

/-- Comparison of the sort in `finish`, src/Conflict_analysis.cpp:52-57. -/
def CA.before (t : Trail R) (a b : Lit) : Bool :=
  decide (levelOr t a > levelOr t b) ||
    (levelOr t a == levelOr t b && decide (a.ord < b.ord))

/-- `finish`, src/Conflict_analysis.cpp:42-66: the clause and the level to backtrack to. -/
def CA.finish (t : Trail R) (c : CA) : Option (Clause × Int) :=
  if c.conflict = [] then some ([], -1)
  else
    let clause := sortBy (CA.before t) c.conflict
    if c.numTop ≥ 2 then some (clause, (c.topLevel : Int) - 1)
    else
      match clause with
      | _ :: second :: _ => (t.level second.var).map fun l => (clause, (l : Int))
      | _ => some (clause, 0)

/-- `analyze`, src/Conflict_analysis.h:32-58. The callback `on_resolve` is not modelled (it only
informs listeners). -/
def analyze (deref : R → Clause) (t : Trail R) (conflict : Clause) : Option (Clause × Int) :=
  (CA.init t conflict).bind fun c =>
    CA.finish t (CA.loop deref t (t.assigned c.topLevel).reverse c)

end Yaga
