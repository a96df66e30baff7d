/-
Model of `src/variable_order/Variable_priority_queue.h` and `.cpp`.
-/
import Verif.Model.Literal
import Mathlib.Order.Defs.LinearOrder
import Mathlib.Logic.Function.Basic

namespace Yaga

/-- `Variable_priority_queue`, src/variable_order/Variable_priority_queue.h:19-212. `size` and `node`
are the vector `pq`, `pos` is the nested vector `position` with `none` for `missing` (-1) and for
entries that do not exist yet.
Simplification: scores are elements of any linear order (a `float` without NaN). Iterators are
indices. -/
structure PQ (S : Type) where
  size : Nat
  node : Nat → Var × S
  pos : Var → Option Nat

namespace PQ
variable {S : Type} [LinearOrder S]

/-- An empty queue; `d` fills the unused cells. -/
def empty (d : Var × S) : PQ S := ⟨0, fun _ => d, fun _ => none⟩

/-- `contains`, Variable_priority_queue.h:45-50. -/
def contains (q : PQ S) (v : Var) : Bool := (q.pos v).isSome

/-- `is_before` for variables, lines 118-121. -/
def varBefore (a b : Var) : Bool :=
  decide (a.type.toNat < b.type.toNat) || (a.type.toNat == b.type.toNat && decide (a.ord < b.ord))

/-- `is_before` for nodes, lines 129-133. -/
def before (a b : Var × S) : Bool :=
  decide (a.2 > b.2) || (decide (a.2 = b.2) && varBefore a.1 b.1)

/-- `parent`, lines 157-161. -/
def parent (i : Nat) : Nat := if i > 0 then (i - 1) / 4 else 0

/-- `children`, lines 168-174: the indices of the children of `i`. -/
def children (q : PQ S) (i : Nat) : List Nat :=
  let b := min (i * 4 + 1) q.size
  let e := min (b + 4) q.size
  List.range' b (e - b)

/-- `swap`, lines 181-190. The positions of the two variables are exchanged after the nodes. -/
def swap (q : PQ S) (i j : Nat) : PQ S :=
  let node := Function.update (Function.update q.node i (q.node j)) j (q.node i)
  let v := (node i).1
  let w := (node j).1
  { q with
    node := node
    pos := Function.update (Function.update q.pos v (q.pos w)) w (q.pos v) }

/-- `fix_up`, Variable_priority_queue.cpp:81-91, for index `i`. The first argument bounds the number
of iterations; `i` iterations suffice because the parent's index is smaller. -/
def fixUp : Nat → PQ S → Nat → PQ S
  | 0, q, _ => q
  | fuel + 1, q, i =>
    if i = 0 then q
    else fixUp fuel (if before (q.node i) (q.node (parent i)) then q.swap i (parent i) else q) (parent i)

/-- Search for the best child, Variable_priority_queue.cpp:98-105. -/
def maxChild (q : PQ S) : Nat → List Nat → Nat
  | best, [] => best
  | best, c :: cs => if before (q.node c) (q.node best) then maxChild q c cs else maxChild q best cs

/-- `fix_down`, Variable_priority_queue.cpp:93-118. The first argument bounds the number of
iterations; `size - i` iterations suffice because the child's index is larger. -/
def fixDown : Nat → PQ S → Nat → PQ S
  | 0, q, _ => q
  | fuel + 1, q, i =>
    match q.children i with
    | [] => q
    | c :: cs =>
      let m := q.maxChild c cs
      if before (q.node m) (q.node i) then fixDown fuel (q.swap m i) m else q

/-- `push`, Variable_priority_queue.cpp:5-21; precondition `!contains(v)` (assert, line 16). -/
def push (q : PQ S) (v : Var) (s : S) : PQ S :=
  fixUp (q.size + 1)
    { size := q.size + 1
      node := Function.update q.node q.size (v, s)
      pos := Function.update q.pos v (some q.size) } q.size

/-- `pop`, Variable_priority_queue.cpp:23-38; precondition: not empty (assert, line 25). -/
def pop (q : PQ S) : PQ S :=
  let v := (q.node 0).1
  let q1 := q.swap 0 (q.size - 1)
  let q2 := { q1 with size := q1.size - 1 }
  let q3 := if q2.size > 0 then fixDown q2.size q2 0 else q2
  { q3 with pos := Function.update q3.pos v none }

/-- `update`, Variable_priority_queue.cpp:40-60. -/
def update (q : PQ S) (v : Var) (s : S) : PQ S :=
  match q.pos v with
  | none => q
  | some i =>
    let old := (q.node i).2
    let q1 := { q with node := Function.update q.node i ((q.node i).1, s) }
    if old ≤ s then fixUp (q.size + 1) q1 i else fixDown q.size q1 i

/-- `fix_down` of the nodes `i, i - 1, ..., 0`, Variable_priority_queue.cpp:73-77. -/
def heapify (q : PQ S) : Nat → PQ S
  | 0 => fixDown q.size q 0
  | i + 1 => heapify (fixDown q.size q (i + 1)) i

/-- `rescale`, Variable_priority_queue.cpp:62-79; `f` is the division by the factor. -/
def rescale (q : PQ S) (f : S → S) : PQ S :=
  let q1 := { q with node := fun i => ((q.node i).1, f (q.node i).2) }
  if q.size > 0 then heapify q1 ((q.size - 1) / 4) else q1

/-- `top`, Variable_priority_queue.h:75-79; precondition: not empty. -/
def top (q : PQ S) : Var := (q.node 0).1

end PQ

/-- An operation on the queue. -/
inductive QOp (S : Type) where
  | push (v : Var) (s : S)
  | pop
  | update (v : Var) (s : S)
  | rescale (f : S → S)

/-- Effect of an operation on the queue. -/
def PQ.step {S : Type} [LinearOrder S] (q : PQ S) : QOp S → PQ S
  | .push v s => q.push v s
  | .pop => q.pop
  | .update v s => q.update v s
  | .rescale f => q.rescale f

end Yaga
