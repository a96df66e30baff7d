/-
Model of `src/variable_order/Generalized_vsids.h` and `.cpp` with its vectors: `none` means an access outside a vector, a
failed `assert` of the priority queue, `value()` of an empty optional, or a loop that does not end.
-/
import Verif.Model.TrailMemory
import Verif.Model.QueueMemory
import Verif.Model.VarOrder

namespace Yaga
open ScoreOps

/-- The members `vsids`, `inc`, `variables` and `effectively_decided`, Generalized_vsids.h:101-113. Simplification: scores are
elements of a linear order with the operations of `ScoreOps`. -/
structure GMem (S : Type) where
  vsids : List (List S)
  inc : S
  vars : QMem S
  eff : QMem S

namespace GMem
variable {S R : Type} [LinearOrder S] [ScoreOps S]

/-- A new object. -/
def new : GMem S := ⟨[], one, .empty, .empty⟩

/-- `on_variable_resize`, Generalized_vsids.cpp:5-18. -/
def resize (m : GMem S) (ty : VType) (n : Nat) : Option (GMem S) :=
  let p := if m.vsids.length ≤ ty.toNat then resizeL m.vsids (ty.toNat + 1) [] else m.vsids
  match p[ty.toNat]? with
  | none => none
  | some row =>
    ((List.range' row.length (n - row.length)).foldlM (fun (q : QMem S) i => q.push ⟨ty, i⟩ zero) m.vars).map fun q =>
      { m with vsids := p.set ty.toNat (resizeL row n zero), vars := q }

/-- `rescale`, Generalized_vsids.h:136-148. -/
def rescale (m : GMem S) : Option (GMem S) :=
  (m.vars.rescale scale).bind fun q => (m.eff.rescale scale).map fun e =>
    ⟨m.vsids.map fun row => row.map scale, scale m.inc, q, e⟩

/-- `bump(Variable)`, Generalized_vsids.h:162-174; the private `score` does not check the bounds (line 133). -/
def bumpVar (m : GMem S) (v : Var) : Option (GMem S) :=
  match TMem.cell m.vsids v with
  | none => none
  | some s0 =>
    let s := add s0 m.inc
    (TMem.setCell m.vsids v s).bind fun p =>
      if thr ≤ s then rescale { m with vsids := p }
      else (m.vars.update v s).bind fun q => (m.eff.update v s).map fun e =>
        { m with vsids := p, vars := q, eff := e }

/-- `bump(int)`, Generalized_vsids.h:153-160; `cvars` stands for `lra->constraint(ord).vars()`. -/
def bump (cvars : Nat → List Nat) (m : GMem S) (ord : Nat) : Option (GMem S) :=
  (m.bumpVar (.bool ord)).bind fun m => (cvars ord).foldlM (fun m i => m.bumpVar (.rat i)) m

/-- `on_conflict_resolved`, Generalized_vsids.cpp:65-71. -/
def onResolved (cvars : Nat → List Nat) (m : GMem S) (c : Clause) : Option (GMem S) :=
  c.foldlM (fun m l => m.bump cvars l.ord) m

/-- `on_learned_clause`, Generalized_vsids.cpp:56-63. -/
def onLearned (cvars : Nat → List Nat) (m : GMem S) (c : Clause) : Option (GMem S) :=
  (m.onResolved cvars c).map fun m => { m with inc := grow m.inc }

/-- `on_init`, Generalized_vsids.cpp:20-40. -/
def onInit (cvars : Nat → List Nat) (m : GMem S) (cs : List Clause) : Option (GMem S) :=
  cs.foldlM (onResolved cvars) { m with vsids := m.vsids.map fun row => row.map fun _ => zero }

/-- `trail.decision_level(v)`, src/Trail.h:69-73, for a trail that stores the variables below `num_vars` (C92). -/
def levelOf (t : Trail R) (v : Var) : Option (Option Nat) :=
  if Nat.blt v.ord (t.numVars v.type) then some (t.level v) else none

/-- Inner loop body of `on_before_backtrack`, Generalized_vsids.cpp:48-51. -/
def requeue (t : Trail R) (lvl : Nat) (m : GMem S) (a : Asg R) : Option (GMem S) :=
  if m.vars.contains a.var then some m
  else
    match levelOf t a.var with
    | none => none
    | some none => none
    | some (some l) =>
      if lvl < l then
        match TMem.cell m.vsids a.var with
        | none => none
        | some s => (m.vars.push a.var s).map fun q => { m with vars := q }
      else some m

/-- `on_before_backtrack`, Generalized_vsids.cpp:42-54. -/
def onBeforeBacktrack (m : GMem S) (t : Trail R) (lvl : Nat) : Option (GMem S) :=
  ((List.range' (lvl + 1) (t.decisionLevel - lvl)).reverse.map t.assigned).foldlM
    (fun m as => as.foldlM (requeue t lvl) m) m

/-- Pushes of effectively decided variables, Generalized_vsids.cpp:82-86. -/
def pushEff : GMem S → List Nat → Option (GMem S)
  | m, [] => some m
  | m, i :: is =>
    match TMem.cell m.vsids (.rat i) with
    | none => none
    | some s => (m.eff.push (.rat i) s).bind fun e => pushEff { m with eff := e } is

/-- Loops that pop variables, Generalized_vsids.cpp:89-94 and 108-111. The number bounds the iterations. -/
def popWhile (p : Var → Option Bool) : Nat → QMem S → Option (QMem S)
  | 0, _ => none
  | n + 1, q =>
    match q.top with
    | none => some q
    | some v =>
      match p v with
      | none => none
      | some true => q.pop.bind (popWhile p n)
      | some false => some q

/-- `pick`, Generalized_vsids.cpp:78-127; `newEff` is `lra->effectively_decided()` and `isEff` is
`lra->is_effectively_decided(models, _)`. -/
def pick (m : GMem S) (t : Trail R) (newEff : List Nat) (isEff : Nat → Bool) : Option (GMem S × Option Var) :=
  (pushEff m newEff).bind fun m =>
    (popWhile (fun v => (levelOf t v).map fun l => l.isSome || !isEff v.ord) (m.eff.pq.length + 1) m.eff).bind fun e =>
      match e.top with
      | some v => some ({ m with eff := e }, some v)
      | none =>
        (popWhile (fun v => (levelOf t v).map fun l => l.isSome) (m.vars.pq.length + 1) m.vars).map fun q =>
          ({ m with eff := e, vars := q }, q.top)

end GMem

/-- Events of the heuristic. -/
inductive GOp (R : Type) where
  | resize (ty : VType) (n : Nat)
  | init (cs : List Clause)
  | learned (c : Clause)
  | resolved (c : Clause)
  | beforeBacktrack (t : Trail R) (lvl : Nat)
  | pick (t : Trail R) (newEff : List Nat) (isEff : Nat → Bool)

/-- Effect of an event. -/
def GMem.step {S R : Type} [LinearOrder S] [ScoreOps S] (cvars : Nat → List Nat) (m : GMem S) : GOp R → Option (GMem S)
  | .resize ty n => m.resize ty n
  | .init cs => m.onInit cvars cs
  | .learned c => m.onLearned cvars c
  | .resolved c => m.onResolved cvars c
  | .beforeBacktrack t lvl => m.onBeforeBacktrack t lvl
  | .pick t newEff isEff => (m.pick t newEff isEff).map Prod.fst

end Yaga
