/-
Model of `src/Subsumption.cpp` with the vectors behind `Literal_map` and every undefined behaviour:
`none` means an access outside a vector or a deque, an iterator outside its container, or a failed
`assert`.

Simplification: the contents of `occur` and `lit_bitset` do not live from one call to the next
(both are overwritten before they are read: src/Subsumption.cpp:44, :71 and :89-92), only their
sizes do.
-/
import Verif.Model.Subsumption

namespace Yaga

variable {R : Type}

namespace Subs

/-- `for (auto lit : clause) lit_bitset[lit] = true;`, src/Subsumption.cpp:45-48, :73-76, with
`Literal_map::operator[]` (src/Literal_map.h:46). -/
def setBits : List Lit → List Bool → Option (List Bool)
  | [], b => some b
  | l :: ls, b => if l.index < b.length then setBits ls (b.set l.index true) else none

/-- The loop with the early `return false`, src/Subsumption.cpp:50-57, :78-85. -/
def allBits (b : List Bool) : List Lit → Option Bool
  | [] => some true
  | l :: ls =>
    match b[l.index]? with
    | none => none
    | some true => allBits b ls
    | some false => some false

/-- `subsumes`, src/Subsumption.cpp:32-58; `bits` is the size of the vector of `lit_bitset`. -/
def subsumesC (bits : Nat) (first : Clause) (sig1 : Nat) (second : Clause) (sig2 : Nat) :
    Option Bool :=
  if !sigSubset sig1 sig2 then some false
  else if second.length ≤ first.length then some false
  else (setBits second (List.replicate bits false)).bind fun b => allBits b first

/-- `selfsubsumes`, src/Subsumption.cpp:60-85, with both assertions. -/
def selfsubsumesC (bits : Nat) (first second : Clause) (lit : Lit) : Option Bool :=
  if lit ∈ first then
    if lit.neg ∈ second then
      if second.length < first.length then some false
      else (setBits (lit :: second) (List.replicate bits false)).bind fun b => allBits b first
    else none
  else none

/-- The lambda `is_redundant`, src/Subsumption.cpp:9-16. -/
def isRedundantC (bits : Nat) (deref : R → Clause) (t : Trail R) (cur : Clause) (lit : Lit) :
    Option Bool :=
  if evalLit t.bools lit.neg = some true then
    match t.reason lit.var with
    | none => some false
    | some r => selfsubsumesC bits (deref r) cur lit.neg
  else some false

/-- `std::remove_if` of src/Subsumption.cpp:18, as in `minimizeLoop`. -/
def minimizeLoopC (bits : Nat) (deref : R → Clause) (t : Trail R) (orig : Clause) :
    List Lit → List Lit → Option (List Lit)
  | kept, [] => some kept
  | kept, l :: rest =>
    (isRedundantC bits deref t (kept ++ orig.drop kept.length) l).bind fun r =>
      if r then minimizeLoopC bits deref t orig kept rest
      else minimizeLoopC bits deref t orig (kept ++ [l]) rest

/-- `minimize`, src/Subsumption.cpp:5-19. -/
def minimizeC (bits : Nat) (deref : R → Clause) (t : Trail R) (clause : Clause) : Option Clause :=
  minimizeLoopC bits deref t clause [] clause

/-- The vector of `occur`, src/Subsumption.h:78-79: at the index of a literal the positions of
clauses with their signatures. -/
abbrev Table := List (List (Nat × Nat))

/-- `for (auto lit : clause) occur[lit].emplace_back(clause_ptr);`,
src/Subsumption.cpp:99-102. -/
def pushAll (p : Nat × Nat) : List Lit → Table → Option Table
  | [], t => some t
  | l :: ls, t =>
    match t[l.index]? with
    | none => none
    | some xs => pushAll p ls (t.set l.index (xs ++ [p]))

/-- The loop of `index`, src/Subsumption.cpp:94-103, over the clauses at the given positions. -/
def indexFrom (db : List Clause) : List Nat → Table → Option Table
  | [], t => some t
  | i :: is, t =>
    match db[i]? with
    | none => none
    | some c => (pushAll (i, sigOf c) c t).bind (indexFrom db is)

/-- `index(begin + lo, begin + hi)`, src/Subsumption.cpp:87-104; `size` is the size of the vector
of `occur`. A loop that starts behind its end leaves the deque. -/
def indexC (size : Nat) (db : List Clause) (lo hi : Nat) : Option Table :=
  if lo ≤ hi ∧ hi ≤ db.length then
    indexFrom db ((List.range hi).drop lo) (List.replicate size [])
  else none

/-- Literal with the shortest occurrence list, src/Subsumption.cpp:113-123. -/
def bestLitC (occ : Table) : Lit → Nat → List Lit → Option Lit
  | best, _, [] => some best
  | best, size, l :: ls =>
    match occ[l.index]? with
    | none => none
    | some xs => if xs.length < size then bestLitC occ l xs.length ls else bestLitC occ best size ls

/-- One iteration of the loop at src/Subsumption.cpp:126-132. -/
def removeStepC (bits i sig : Nat) (db : List Clause) (o : Nat × Nat) : Option (List Clause) :=
  if o.1 = i then some db
  else
    match db[i]?, db[o.1]? with
    | some a, some b =>
      (subsumesC bits a sig b o.2).bind fun r => some (if r then db.set o.1 [] else db)
    | _, _ => none

/-- `remove_subsumed(clause)`, src/Subsumption.cpp:106-133, for the clause at position `i`. -/
def removeSubsumedByC (bits : Nat) (occ : Table) (db : List Clause) (i : Nat) :
    Option (List Clause) :=
  match db[i]? with
  | none => none
  | some [] => some db
  | some (l :: ls) =>
    match occ[l.index]? with
    | none => none
    | some xs =>
      (bestLitC occ l xs.length ls).bind fun best =>
        match occ[best.index]? with
        | none => none
        | some os => os.foldlM (removeStepC bits i (sigOf (l :: ls))) db

end Subs

/-- The members of `Subsumption`, src/Subsumption.h:75-84, and the learned clauses of the
database: sizes of the two vectors, `old_size`, learned clauses. -/
structure SubsMem where
  occSize : Nat := 0
  bitSize : Nat := 0
  oldSize : Nat := 0
  learned : List Clause := []
  deriving DecidableEq

namespace SubsMem
open Subs

/-- `remove_subsumed(db)`, src/Subsumption.cpp:135-158. -/
def removeSubsumedC (s : SubsMem) : Option SubsMem :=
  if s.oldSize ≤ s.learned.length then
    (indexC s.occSize s.learned 0 s.oldSize).bind fun occ1 =>
    (((List.range s.learned.length).drop s.oldSize).foldlM
      (removeSubsumedByC s.bitSize occ1) s.learned).bind fun db1 =>
    (indexC s.occSize db1 s.oldSize db1.length).bind fun occ2 =>
    ((List.range db1.length).foldlM (removeSubsumedByC s.bitSize occ2) db1).bind fun db2 =>
    let db3 := db2.filter fun c => !c.isEmpty
    some { s with learned := db3, oldSize := db3.length }
  else none

/-- What happens to the learned clauses: `on_variable_resize` with the number of Boolean variables
(src/Subsumption.cpp:21-28), a learned clause (`Database::learn_clause`, src/Solver.cpp:72-90),
literals of learned clauses moved by the Boolean plugin (src/bool/Bool_theory.cpp), `on_restart`
(src/Subsumption.cpp:30), `Yaga::init` (src/Yaga.cpp:63-67). -/
inductive Ev
  | resize (numVars : Nat)
  | learn (c : Clause)
  | reorder (i : Nat) (c : Clause)
  | restart
  | init

/-- Effect of one event. -/
def step (s : SubsMem) : Ev → Option SubsMem
  | .resize k => some { s with occSize := k * 2, bitSize := k * 2 }
  | .learn c => some { s with learned := s.learned ++ [c] }
  | .reorder i c => some { s with learned := s.learned.set i c }
  | .restart => s.removeSubsumedC
  | .init => some { s with learned := [] }

/-- Effect of a history. -/
def run (s : SubsMem) (evs : List Ev) : Option SubsMem := evs.foldlM step s

end SubsMem

end Yaga
