/-
Model of the variable orders in `src/variable_order/`: `Evsids`, `First_unassigned`,
`Combined_order` and `Generalized_vsids`.
-/
import Verif.Model.PQueue
import Verif.Model.TrailHistory

namespace Yaga

/-- Arithmetic of VSIDS scores. The C++ type is `float`; the model takes any linear order with
operations that keep non-negative numbers non-negative (true for IEEE arithmetic with rounding, as
long as no NaN arises). `scale` is the division by `score_threshold`, `grow` the multiplication by
the grow factor. -/
class ScoreOps (S : Type) [LinearOrder S] where
  zero : S
  one : S
  negOne : S
  thr : S
  add : S → S → S
  scale : S → S
  grow : S → S
  negOne_lt : negOne < zero
  one_nonneg : zero ≤ one
  add_nonneg : ∀ a b, zero ≤ a → zero ≤ b → zero ≤ add a b
  scale_nonneg : ∀ a, zero ≤ a → zero ≤ scale a
  grow_nonneg : ∀ a, zero ≤ a → zero ≤ grow a

open ScoreOps

/-! ### `Evsids` -/

/-- `Evsids`, src/variable_order/Evsids.h:20-110: scores of the Boolean variables and the current
increment. -/
structure Evsids (S : Type) where
  vsids : List S
  inc : S

namespace Evsids
variable {S : Type} [LinearOrder S] [ScoreOps S]

/-- A new object: no scores, `inc = 1`. -/
def new : Evsids S := ⟨[], one⟩

/-- `score`, Evsids.h (reads `vsids[var_ord]`; out of range is undefined behaviour, here `zero`). -/
def score (e : Evsids S) (i : Nat) : S := e.vsids.getD i zero

/-- `rescale`, Evsids.h. -/
def rescale (e : Evsids S) : Evsids S := ⟨e.vsids.map scale, scale e.inc⟩

/-- `bump`, Evsids.h. -/
def bump (e : Evsids S) (i : Nat) : Evsids S :=
  let e' : Evsids S := { e with vsids := e.vsids.modify i (fun s => add s e.inc) }
  if thr ≤ e'.score i then e'.rescale else e'

/-- `decay`, Evsids.h. -/
def decay (e : Evsids S) : Evsids S := { e with inc := grow e.inc }

/-- `on_variable_resize` for Boolean variables, Evsids.cpp:5-11. -/
def resize (e : Evsids S) (n : Nat) : Evsids S :=
  { e with vsids := e.vsids.take n ++ List.replicate (n - e.vsids.length) zero }

/-- Bump all variables of a clause: `on_conflict_resolved`, Evsids.cpp:33-39. -/
def onResolved (e : Evsids S) (c : Clause) : Evsids S := c.foldl (fun e l => e.bump l.ord) e

/-- `on_init`, Evsids.cpp:13-31; `cs` are the asserted clauses followed by the learned ones. -/
def onInit (e : Evsids S) (cs : List Clause) : Evsids S :=
  cs.foldl onResolved { e with vsids := e.vsids.map (fun _ => zero) }

/-- `on_learned_clause`, Evsids.cpp:41-48. -/
def onLearned (e : Evsids S) (c : Clause) : Evsids S := (e.onResolved c).decay

/-- `pick`, Evsids.cpp:57-79. The accumulator is `(best_var, best_score)`. -/
def pick (e : Evsids S) (m : PModel Bool) : Option Var :=
  ((List.range e.vsids.length).foldl
    (fun (acc : Option Nat × S) i =>
      if !m.defined i && decide (acc.2 < e.score i) then (some i, e.score i) else acc)
    (none, negOne)).1.map Var.bool

end Evsids

/-- Event received by `Evsids`. -/
inductive EvOp where
  | resize (n : Nat)
  | init (cs : List Clause)
  | resolved (c : Clause)
  | learned (c : Clause)

/-- Effect of an event on `Evsids`. -/
def Evsids.step {S : Type} [LinearOrder S] [ScoreOps S] (e : Evsids S) : EvOp → Evsids S
  | .resize n => e.resize n
  | .init cs => e.onInit cs
  | .resolved c => e.onResolved c
  | .learned c => e.onLearned c

/-! ### `First_unassigned` and `Combined_order` -/

/-- First index below `n` that is not defined, First_unassigned.cpp:18-24. -/
def firstUndef (defined : Nat → Bool) (n : Nat) : Option Nat :=
  (List.range n).find? (fun i => !defined i)

/-- `First_unassigned::pick`, First_unassigned.cpp:10-28; `models()` lists the Boolean model first
(Trail.h, `models`). Simplification: both models exist. -/
def firstUnassigned {R : Type} (ty : Option VType) (t : Trail R) : Option Var :=
  let b := if ty = none ∨ ty = some .boolean then (firstUndef t.bools.defined t.bools.num).map Var.bool
    else none
  let r := if ty = none ∨ ty = some .rational then (firstUndef t.rats.defined t.rats.num).map Var.rat
    else none
  match b with
  | some v => some v
  | none => r

/-- `Combined_order::pick`, Combined_order.h: the first answer of the member heuristics. -/
def combinedPick {T : Type} : List (T → Option Var) → T → Option Var
  | [], _ => none
  | h :: hs, t =>
    match h t with
    | some v => some v
    | none => combinedPick hs t

/-! ### `Generalized_vsids` -/

/-- `Generalized_vsids`, Generalized_vsids.h. `num` holds the sizes of the inner vectors of `vsids`
and `score` their entries; `vars` is the queue `variables` and `eff` the queue
`effectively_decided`. -/
structure GVsids (S : Type) where
  num : VType → Nat
  score : Var → S
  inc : S
  vars : PQ S
  eff : PQ S

namespace GVsids
variable {S R : Type} [LinearOrder S] [ScoreOps S]

/-- A new object. -/
def new : GVsids S :=
  ⟨fun _ => 0, fun _ => zero, one, .empty (Var.bool 0, zero), .empty (Var.bool 0, zero)⟩

/-- Pushes of the loop in Generalized_vsids.cpp:14-17. -/
def pushNew (ty : VType) (q : PQ S) (from_ to_ : Nat) : PQ S :=
  (List.range' from_ (to_ - from_)).foldl (fun q i => q.push ⟨ty, i⟩ zero) q

/-- `on_variable_resize`, Generalized_vsids.cpp:5-18. Scores of new variables are 0. -/
def resize (g : GVsids S) (ty : VType) (n : Nat) : GVsids S :=
  { g with
    num := Function.update g.num ty n
    score := fun v => if v.type = ty ∧ ¬ (v.ord < g.num ty ∧ v.ord < n) then zero else g.score v
    vars := pushNew ty g.vars (g.num ty) n }

/-- `rescale`, Generalized_vsids.h. -/
def rescale (g : GVsids S) : GVsids S :=
  { g with
    score := fun v => scale (g.score v)
    inc := scale g.inc
    vars := g.vars.rescale scale
    eff := g.eff.rescale scale }

/-- `bump(Variable)`, Generalized_vsids.h. -/
def bumpVar (g : GVsids S) (v : Var) : GVsids S :=
  let s := add (g.score v) g.inc
  let g' := { g with score := Function.update g.score v s }
  if thr ≤ s then g'.rescale
  else { g' with vars := g'.vars.update v s, eff := g'.eff.update v s }

/-- `bump(int)`, Generalized_vsids.h: the Boolean variable and the variables of its constraint;
`cvars` stands for `lra->constraint(ord).vars()`. -/
def bump (cvars : Nat → List Nat) (g : GVsids S) (ord : Nat) : GVsids S :=
  (cvars ord).foldl (fun g i => g.bumpVar (.rat i)) (g.bumpVar (.bool ord))

/-- `on_conflict_resolved`, Generalized_vsids.cpp:65-71. -/
def onResolved (cvars : Nat → List Nat) (g : GVsids S) (c : Clause) : GVsids S :=
  c.foldl (fun g l => g.bump cvars l.ord) g

/-- `on_learned_clause`, Generalized_vsids.cpp:56-63. -/
def onLearned (cvars : Nat → List Nat) (g : GVsids S) (c : Clause) : GVsids S :=
  let g' := g.onResolved cvars c
  { g' with inc := grow g'.inc }

/-- `on_init`, Generalized_vsids.cpp:20-40. -/
def onInit (cvars : Nat → List Nat) (g : GVsids S) (cs : List Clause) : GVsids S :=
  cs.foldl (onResolved cvars) { g with score := fun _ => zero }

/-- Inner loop body of `on_before_backtrack`, Generalized_vsids.cpp:48-51. -/
def requeue (t : Trail R) (lvl : Nat) (g : GVsids S) (a : Asg R) : GVsids S :=
  if !g.vars.contains a.var && (t.level a.var).any (fun l => decide (lvl < l))
  then { g with vars := g.vars.push a.var (g.score a.var) } else g

/-- `on_before_backtrack`, Generalized_vsids.cpp:42-54: levels from the top down to `lvl + 1`. -/
def onBeforeBacktrack (g : GVsids S) (t : Trail R) (lvl : Nat) : GVsids S :=
  ((List.range' (lvl + 1) (t.decisionLevel - lvl)).reverse.map t.assigned).foldl
    (fun g as => as.foldl (requeue t lvl) g) g

/-- Pushes of effectively decided variables, Generalized_vsids.cpp:82-86. `none` when the assertion
`!contains(var)` of `push` (Variable_priority_queue.cpp:16) fails. -/
def pushEff : GVsids S → List Nat → Option (GVsids S)
  | g, [] => some g
  | g, i :: is =>
    if g.eff.contains (.rat i) then none
    else pushEff { g with eff := g.eff.push (.rat i) (g.score (.rat i)) } is

/-- Loops that pop variables while they satisfy `p`, Generalized_vsids.cpp:89-94 and 108-111. The
number bounds the iterations. -/
def popWhile (p : Var → Bool) : Nat → PQ S → PQ S
  | 0, q => q
  | n + 1, q => if 0 < q.size ∧ p q.top then popWhile p n q.pop else q

/-- `pick`, Generalized_vsids.cpp:78-127. `newEff` is `lra->effectively_decided()` and `isEff` is
`lra->is_effectively_decided(models, _)`. The result is the new state and the picked variable, or
`none` if an assertion of `push` fails. -/
def pick (g : GVsids S) (t : Trail R) (newEff : List Nat) (isEff : Nat → Bool) :
    Option (GVsids S × Option Var) :=
  (pushEff g newEff).map fun g =>
    let eff := popWhile (fun v => (t.level v).isSome || !isEff v.ord) g.eff.size g.eff
    let g := { g with eff := eff }
    if 0 < eff.size then (g, some eff.top)
    else
      let vars := popWhile (fun v => (t.level v).isSome) g.vars.size g.vars
      let g := { g with vars := vars }
      (g, if 0 < vars.size then some vars.top else none)

end GVsids
end Yaga
