/-
Model of the DIMACS reader in `main`, src/sat_solver.cpp:44-125.

A file is the list of its lines (`std::getline`), a line a list of characters.
-/
import Verif.Model.Literal

namespace Yaga

/-- `std::isspace` in the "C" locale, src/sat_solver.cpp:50; also what `>>` skips. -/
def isSpace (c : Char) : Bool :=
  c == ' ' || c == '\t' || c == '\n' || c == '\r' || c.toNat == 11 || c.toNat == 12

/-- Decimal digits. -/
def isDig (c : Char) : Bool := decide (48 ≤ c.toNat) && decide (c.toNat ≤ 57)

/-- Value of a string of digits. -/
def digitsNat (cs : List Char) : Nat := cs.foldl (fun n c => 10 * n + (c.toNat - 48)) 0

/-- `stream >> var` for an `int` of 32 bits (contract of the standard library): skips spaces, reads an
optional sign and the longest sequence of digits. `none` when it fails, which it does for a missing number
and also for a number that does not fit. -/
def readInt (cs : List Char) : Option (Int × List Char) :=
  let cs := cs.dropWhile isSpace
  let neg := cs.head? == some '-'
  let cs := if cs.head? == some '-' || cs.head? == some '+' then cs.drop 1 else cs
  let ds := cs.takeWhile isDig
  if ds.isEmpty then none
  else
    let v : Int := if neg then -(digitsNat ds : Int) else digitsNat ds
    if v < -2147483648 || 2147483647 < v then none else some (v, cs.dropWhile isDig)

/-- The numbers read by `while (stream >> var)`, src/sat_solver.cpp:79, until it fails. Every number
consumes a character, which bounds the number of iterations. -/
def readInts : Nat → List Char → List Int
  | 0, _ => []
  | fuel + 1, cs =>
    match readInt cs with
    | none => []
    | some (v, cs) => v :: readInts fuel cs

/-- How the program goes on after reading. -/
inductive Dimacs where
  /-- An error message and `return -1`. -/
  | error
  /-- "UNSAT" for an empty clause, src/sat_solver.cpp:96-100. -/
  | unsat
  /-- The solver is called, src/sat_solver.cpp:128. -/
  | solve (numVars : Nat) (clauses : List (List Lit))
  deriving DecidableEq

/-- The local variables, src/sat_solver.cpp:42-45, and the clauses given to the solver. `num_clauses` is
unbounded here (an `int` that is decremented in the code). -/
structure DState where
  ready : Bool
  numVars : Int
  numClauses : Int
  buffer : List Lit
  clauses : List (List Lit)

/-- Literal of a nonzero number, src/sat_solver.cpp:111. -/
def dimacsLit (v : Int) : Lit := if v < 0 then (Lit.pos (-v - 1).toNat).neg else Lit.pos (v - 1).toNat

/-- The body of the loop over the numbers of a line, src/sat_solver.cpp:81-112. -/
def dimacsInt (s : DState) (v : Int) : Except Dimacs DState :=
  if !s.ready then .error .error
  else if v > s.numVars || v < -s.numVars then .error .error
  else if v = 0 then
    if s.numClauses > 0 && s.buffer.isEmpty then .error .unsat
    else
      .ok { s with
        clauses := if s.numClauses > 0 then s.clauses ++ [s.buffer] else s.clauses
        buffer := []
        numClauses := s.numClauses - 1 }
  else .ok { s with buffer := s.buffer ++ [dimacsLit v] }

/-- `line.starts_with("p cnf")`, src/sat_solver.cpp:59. -/
def isHeader (cs : List Char) : Bool := cs.take 5 == ['p', ' ', 'c', 'n', 'f']

/-- The problem line, src/sat_solver.cpp:61-74. A negative number of variables makes `set_model` throw. -/
def dimacsHeader (s : DState) (cs : List Char) : Except Dimacs DState :=
  if s.ready then .error .error
  else
    match readInt (cs.drop 5) with
    | none => .error .error
    | some (n, cs) =>
      match readInt cs with
      | none => .error .error
      | some (m, _) =>
        if n < 0 then .error .error else .ok { s with ready := true, numVars := n, numClauses := m }

/-- The body of the loop over the lines, src/sat_solver.cpp:49-114. -/
def dimacsLine (s : DState) (line : List Char) : Except Dimacs DState :=
  let line := line.dropWhile isSpace
  if line.head? == some 'c' then .ok s
  else if isHeader line then dimacsHeader s line
  else (readInts line.length line).foldlM dimacsInt s

/-- Reading a file, src/sat_solver.cpp:42-128. -/
def readDimacs (lines : List (List Char)) : Dimacs :=
  match lines.foldlM dimacsLine ⟨false, 0, 0, [], []⟩ with
  | .error r => r
  | .ok s =>
    if !s.ready then .error
    else if s.numClauses > 0 then .error
    else .solve s.numVars.toNat s.clauses

end Yaga
