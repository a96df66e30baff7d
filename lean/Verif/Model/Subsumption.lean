/-
Model of `src/Subsumption.h` and `src/Subsumption.cpp`.
-/
import Verif.Model.Std
import Verif.Model.Trail

namespace Yaga

variable {R : Type}

/-! ### Minimising learned clauses -/

/-- `selfsubsumes`, src/Subsumption.cpp:60-85. The bitset is the membership test in `second` plus
`lit`. -/
def selfsubsumes (first second : Clause) (lit : Lit) : Bool :=
  decide (first.length ≤ second.length) && first.all fun l => decide (l = lit ∨ l ∈ second)

/-- The lambda `is_redundant`, src/Subsumption.cpp:9-16, with the clause as it is in memory at the
time of the call. -/
def isRedundant (deref : R → Clause) (t : Trail R) (cur : Clause) (lit : Lit) : Bool :=
  if evalLit t.bools lit.neg = some true then
    match t.reason lit.var with
    | none => false
    | some r => selfsubsumes (deref r) cur lit.neg
  else false

/-- `std::remove_if` on `clause` with a predicate that reads `clause` itself,
src/Subsumption.cpp:18. `kept` are the literals already moved to the front and `orig` is the
clause at the start; while the predicate runs, the memory holds `kept` followed by the original
contents from position `kept.length` on. The third argument are the literals still to be visited. -/
def minimizeLoop (deref : R → Clause) (t : Trail R) (orig : Clause) : List Lit → List Lit → List Lit
  | kept, [] => kept
  | kept, l :: rest =>
    if isRedundant deref t (kept ++ orig.drop kept.length) l then minimizeLoop deref t orig kept rest
    else minimizeLoop deref t orig (kept ++ [l]) rest

/-- `minimize`, src/Subsumption.cpp:5-19. -/
def minimize (deref : R → Clause) (t : Trail R) (clause : Clause) : Clause :=
  minimizeLoop deref t clause [] clause

/-! ### Removing subsumed clauses -/

/-- Bit of a literal in a signature: `1UL << (hash(lit) & 63)`, src/Subsumption.h:91-95, with
`std::hash<int>` the identity (as in libstdc++). -/
def sigBit (l : Lit) : Nat := 1 <<< (l.value % 64).toNat

/-- `make_proxy`, src/Subsumption.h:87-98: signature of a clause. -/
def sigOf (c : Clause) : Nat := c.foldl (fun s l => s ||| sigBit l) 0

/-- `(first.sig() & ~second.sig()) != 0`, src/Subsumption.cpp:34, negated: all bits of the first
signature are in the second. -/
def sigSubset (a b : Nat) : Bool := a &&& b == a

/-- `subsumes`, src/Subsumption.cpp:32-58. -/
def subsumes (first : Clause) (sig1 : Nat) (second : Clause) (sig2 : Nat) : Bool :=
  sigSubset sig1 sig2 && decide (first.length < second.length) &&
    first.all fun l => decide (l ∈ second)

/-- Occurrence lists: position of the clause in the database and signature at indexing time,
src/Subsumption.h:78-79. -/
abbrev Occur := Lit → List (Nat × Nat)

/-- `index`, src/Subsumption.cpp:87-104, for the clauses at positions `lo ≤ i < hi`. A clause is
listed once per occurrence of the literal. -/
def occurIndex (db : List Clause) (lo hi : Nat) : Occur := fun l =>
  (List.range hi).flatMap fun i =>
    if lo ≤ i then
      ((db.getD i []).filter (· = l)).map fun _ => (i, sigOf (db.getD i []))
    else []

/-- Literal with the shortest occurrence list, src/Subsumption.cpp:113-123. -/
def bestLit (occ : Occur) : Lit → List Lit → Lit
  | best, [] => best
  | best, l :: ls =>
    if (occ l).length < (occ best).length then bestLit occ l ls else bestLit occ best ls

/-- One iteration of the loop at src/Subsumption.cpp:126-132 for the clause at position `i` with
signature `sig`. -/
def removeStep (i sig : Nat) (db : List Clause) (o : Nat × Nat) : List Clause :=
  if o.1 ≠ i ∧ subsumes (db.getD i []) sig (db.getD o.1 []) o.2 then db.set o.1 [] else db

/-- `remove_subsumed(clause)`, src/Subsumption.cpp:106-133, for the clause at position `i`. -/
def removeSubsumedBy (occ : Occur) (db : List Clause) (i : Nat) : List Clause :=
  match db.getD i [] with
  | [] => db
  | l :: ls => (occ (bestLit occ l ls)).foldl (removeStep i (sigOf (db.getD i []))) db

/-- `remove_subsumed(db)`, src/Subsumption.cpp:135-158: the learned clauses afterwards (their number
is the new `old_size`). Precondition: `oldSize ≤ learned.length`. -/
def removeSubsumed (learned : List Clause) (oldSize : Nat) : List Clause :=
  let db1 := ((List.range learned.length).drop oldSize).foldl
    (removeSubsumedBy (occurIndex learned 0 oldSize)) learned
  let db2 := (List.range learned.length).foldl
    (removeSubsumedBy (occurIndex db1 oldSize learned.length)) db1
  db2.filter fun c => !c.isEmpty

end Yaga
