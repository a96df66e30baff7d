/-
Model of `src/variable_order/Variable_priority_queue.h` and `.cpp` with its vectors: `none` means a failed `assert`, an
access outside a vector, or a loop that does not end.
-/
import Verif.Model.PQueue

namespace Yaga

/-- The members `pq` and `position`, src/variable_order/Variable_priority_queue.h:101-103. Simplification: scores are
elements of a linear order, and the size of `pq` fits into an `int`. -/
structure QMem (S : Type) where
  pq : List (Var × S)
  position : List (List Int)

namespace QMem
variable {S : Type} [LinearOrder S]

/-- An empty queue. -/
def empty : QMem S := ⟨[], []⟩

/-- `position[v.type()][v.ord()]`, `none` if it does not exist. -/
def cell (p : List (List Int)) (v : Var) : Option Int := (p[v.type.toNat]?).bind fun row => row[v.ord]?

/-- `position[v.type()][v.ord()] = k`. -/
def setCell (p : List (List Int)) (v : Var) (k : Int) : Option (List (List Int)) :=
  match p[v.type.toNat]? with
  | none => none
  | some row => if v.ord < row.length then some (p.set v.type.toNat (row.set v.ord k)) else none

/-- `contains`, Variable_priority_queue.h:45-50; the conjunction asks for the sizes first. -/
def contains (m : QMem S) (v : Var) : Bool :=
  match m.position[v.type.toNat]? with
  | none => false
  | some row =>
    match row[v.ord]? with
    | none => false
    | some k => k != -1

/-- `find`, lines 141-150; `none` is the end iterator. -/
def find (m : QMem S) (v : Var) : Option Nat :=
  match m.position[v.type.toNat]? with
  | none => none
  | some row =>
    match row[v.ord]? with
    | none => none
    | some k => if k < 0 then none else some k.toNat

/-- `children`, lines 168-174: the indices of the children of `i`. -/
def children (m : QMem S) (i : Nat) : List Nat :=
  let b := min (i * 4 + 1) m.pq.length
  let e := min (b + 4) m.pq.length
  List.range' b (e - b)

/-- `swap`, lines 181-190. -/
def swap (m : QMem S) (i j : Nat) : Option (QMem S) :=
  match m.pq[i]?, m.pq[j]? with
  | some a, some b =>
    let pq := (m.pq.set i b).set j a
    match pq[i]?, pq[j]? with
    | some x, some y =>
      match cell m.position x.1, cell m.position y.1 with
      | some k, some l =>
        ((setCell m.position x.1 l).bind fun p => setCell p y.1 k).map fun p => ⟨pq, p⟩
      | _, _ => none
    | _, _ => none
  | _, _ => none

/-- `fix_up`, Variable_priority_queue.cpp:81-91. The first argument bounds the number of iterations. -/
def fixUp : Nat → QMem S → Nat → Option (QMem S)
  | 0, _, _ => none
  | fuel + 1, m, i =>
    if i = 0 then some m
    else
      match m.pq[i]?, m.pq[PQ.parent i]? with
      | some a, some b =>
        if PQ.before a b then (m.swap i (PQ.parent i)).bind fun m => fixUp fuel m (PQ.parent i)
        else fixUp fuel m (PQ.parent i)
      | _, _ => none

/-- Search for the best child, Variable_priority_queue.cpp:98-105. -/
def maxChild (m : QMem S) : Nat → List Nat → Option Nat
  | best, [] => some best
  | best, c :: cs =>
    match m.pq[c]?, m.pq[best]? with
    | some a, some b => if PQ.before a b then maxChild m c cs else maxChild m best cs
    | _, _ => none

/-- `fix_down`, Variable_priority_queue.cpp:93-118. The first argument bounds the number of iterations. -/
def fixDown : Nat → QMem S → Nat → Option (QMem S)
  | 0, _, _ => none
  | fuel + 1, m, i =>
    match m.children i with
    | [] => some m
    | c :: cs =>
      match m.maxChild c cs with
      | none => none
      | some k =>
        match m.pq[k]?, m.pq[i]? with
        | some a, some b => if PQ.before a b then (m.swap k i).bind fun m => fixDown fuel m k else some m
        | _, _ => none

/-- The resizing in `push`, Variable_priority_queue.cpp:7-15. -/
def grow (p : List (List Int)) (v : Var) : Option (List (List Int)) :=
  let p := if p.length ≤ v.type.toNat then p ++ List.replicate (v.type.toNat + 1 - p.length) [] else p
  match p[v.type.toNat]? with
  | none => none
  | some row =>
    if row.length ≤ v.ord then some (p.set v.type.toNat (row ++ List.replicate (v.ord + 1 - row.length) (-1)))
    else some p

/-- `push`, Variable_priority_queue.cpp:5-21, with the assertion in line 16. -/
def push (m : QMem S) (v : Var) (s : S) : Option (QMem S) :=
  (grow m.position v).bind fun p =>
    if cell p v = some (-1) then
      (setCell p v m.pq.length).bind fun p => fixUp (m.pq.length + 1) ⟨m.pq ++ [(v, s)], p⟩ m.pq.length
    else none

/-- `pop`, Variable_priority_queue.cpp:23-38, with the assertion in line 25. -/
def pop (m : QMem S) : Option (QMem S) :=
  match m.pq with
  | [] => none
  | a :: _ =>
    (m.swap 0 (m.pq.length - 1)).bind fun m =>
      let m : QMem S := ⟨m.pq.dropLast, m.position⟩
      (if m.pq = [] then some m else fixDown m.pq.length m 0).bind fun m =>
        (setCell m.position a.1 (-1)).map fun p => ⟨m.pq, p⟩

/-- `update`, Variable_priority_queue.cpp:40-60. -/
def update (m : QMem S) (v : Var) (s : S) : Option (QMem S) :=
  match m.find v with
  | none => some m
  | some i =>
    match m.pq[i]? with
    | none => none
    | some a =>
      let m' : QMem S := ⟨m.pq.set i (a.1, s), m.position⟩
      if a.2 ≤ s then fixUp (m.pq.length + 1) m' i else fixDown m.pq.length m' i

/-- `fix_down` of the nodes `i, i - 1, ..., 0`, Variable_priority_queue.cpp:73-77. -/
def heapify (m : QMem S) : Nat → Option (QMem S)
  | 0 => fixDown m.pq.length m 0
  | i + 1 => (fixDown m.pq.length m (i + 1)).bind fun m => heapify m i

/-- `rescale`, Variable_priority_queue.cpp:62-79; `f` is the division by the factor. -/
def rescale (m : QMem S) (f : S → S) : Option (QMem S) :=
  let m : QMem S := ⟨m.pq.map fun a => (a.1, f a.2), m.position⟩
  if m.pq = [] then some m else heapify m ((m.pq.length - 1) / 4)

/-- `top`, Variable_priority_queue.h:75-79, with its assertion. -/
def top (m : QMem S) : Option Var := m.pq.head?.map (·.1)

/-- Effect of an operation. -/
def step (m : QMem S) : QOp S → Option (QMem S)
  | .push v s => m.push v s
  | .pop => m.pop
  | .update v s => m.update v s
  | .rescale f => m.rescale f

/-- A sequence of operations. -/
def run : List (QOp S) → QMem S → Option (QMem S)
  | [], m => some m
  | op :: ops, m => (m.step op).bind (run ops)

end QMem
end Yaga
