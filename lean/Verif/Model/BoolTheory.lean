/-
Model of `src/bool/Bool_theory.h`, `src/bool/Bool_theory.cpp` and of `Theory::assigned`,
`src/Theory.cpp`.
-/
import Verif.Model.TrailHistory

namespace Yaga

/-- `Watched_clause`, src/bool/Bool_theory.h:83-94. A `Clause*` is the index of the clause in the
list `asserted ++ learned`. -/
structure Watch where
  ref : Nat
  idx : Nat
  deriving DecidableEq

/-- `Phase`, src/bool/Bool_theory.h:17-27. -/
inductive Phase where
  | positive
  | negative
  | cache
  deriving DecidableEq

/-- State of the Boolean plugin together with the database and the trail it works on.
`cls` is the list of asserted clauses followed by the learned clauses (src/Database.h; `std::deque`
keeps references valid when clauses are appended), `na` the number of asserted clauses. `watched`,
`sat` (the stack `satisfied`, top first), `phase` and `mode` (`var_phase`) are the members of
src/bool/Bool_theory.h:110-117, `nextIndex` and `curLevel` those of src/Theory.h:53-55. -/
structure BS where
  cls : List Clause
  na : Nat
  t : Trail Nat
  watched : Lit → List Watch
  sat : List (Lit × Option Nat)
  phase : Nat → Bool
  mode : Phase
  nextIndex : Nat
  curLevel : Int

namespace BS

/-- State of a new solver. -/
def new : BS := ⟨[], 0, .init, fun _ => [], [], fun _ => true, .positive, 0, 0⟩

/-- The clause behind a pointer. -/
def clause (s : BS) (r : Nat) : Clause := s.cls.getD r []

/-- Write a clause through a pointer. -/
def setClause (s : BS) (r : Nat) (c : Clause) : BS := { s with cls := s.cls.set r c }

/-- `Watched_clause(Clause*)`, src/bool/Bool_theory.h:90-93. -/
def mkWatch (r : Nat) (c : Clause) : Watch := ⟨r, min 2 (c.length - 1)⟩

/-- `watched[lit].emplace_back(...)`. -/
def addWatch (s : BS) (l : Lit) (w : Watch) : BS :=
  { s with watched := Function.update s.watched l (s.watched l ++ [w]) }

/-- `decide`, src/bool/Bool_theory.cpp:5-27. -/
def decide (s : BS) (v : Var) : BS :=
  if v.type = .boolean then
    let b := match s.mode with
      | .positive => true
      | .negative => false
      | .cache => s.phase v.ord
    { s with t := (s.t.setValue v (.b b)).decide v }
  else s

/-- `on_variable_resize` for Boolean variables, src/bool/Bool_theory.cpp:29-36, for a number of
variables that does not shrink below an assigned variable. New variables have phase `true` and an
empty watch list. -/
def onResize (s : BS) (old n : Nat) : BS :=
  { s with
    watched := fun l => if l.ord < old ∧ l.ord < n then s.watched l else []
    phase := fun i => if i < old ∧ i < n then s.phase i else true }

/-- Loop body of `on_before_backtrack`, src/bool/Bool_theory.cpp:47-50. -/
def savePhase (m : PModel Bool) (ph : Nat → Bool) (a : Asg Nat) : Nat → Bool :=
  if a.var.type = .boolean then Function.update ph a.var.ord (m.value a.var.ord) else ph

/-- `on_before_backtrack`, src/bool/Bool_theory.cpp:38-53, with `Theory::on_before_backtrack`,
src/Theory.cpp:5-9. -/
def onBeforeBacktrack (s : BS) (lvl : Nat) : BS :=
  { s with
    phase := ((List.range' (lvl + 1) (s.t.decisionLevel - lvl)).reverse.map s.t.assigned).foldl
      (fun ph as => as.foldl (savePhase s.t.bools) ph) s.phase
    curLevel := -1
    nextIndex := 0 }

/-- `Database::learn_clause`, src/Database.h:30-33, followed by `on_learned_clause`,
src/bool/Bool_theory.cpp:55-70. -/
def learnClause (s : BS) (c : Clause) : BS :=
  let r := s.cls.length
  let s := { s with cls := s.cls ++ [c] }
  match c with
  | [] => s   -- `learned[0]` is undefined behaviour
  | [a] => s.addWatch a (mkWatch r c)
  | a :: b :: _ => (s.addWatch a (mkWatch r c)).addWatch b (mkWatch r c)

/-- Watch one clause of the database, src/bool/Bool_theory.cpp:93-103. -/
def initClause (s : BS) (r : Nat) (c : Clause) : BS :=
  match c with
  | [] => s   -- `clause[0]` is undefined behaviour
  | [a] =>
    let s := s.addWatch a (mkWatch r c)
    { s with sat := (a, some r) :: s.sat }
  | a :: b :: _ => (s.addWatch a (mkWatch r c)).addWatch b (mkWatch r c)

/-- The loop over all clauses of the database, src/bool/Bool_theory.cpp:88-105; `r` is the index of
the first clause of the list. -/
def initClauses : List Clause → Nat → BS → BS
  | [], _, s => s
  | c :: cs, r, s => initClauses cs (r + 1) (s.initClause r c)

/-- `assigned`, src/Theory.cpp:11-17: unprocessed elements and the new state. -/
def assigned (s : BS) : List (Asg Nat) × BS :=
  let recent := s.t.assigned s.t.decisionLevel
  let skip := if (s.t.decisionLevel : Int) = s.curLevel then s.nextIndex else 0
  (recent.drop skip, { s with curLevel := s.t.decisionLevel, nextIndex := recent.length })

/-- Push an assigned variable on the stack, src/bool/Bool_theory.cpp:109-116. -/
def pushAssigned (s : BS) (a : Asg Nat) : BS :=
  if a.var.type = .boolean then
    { s with sat := (Lit.ofVal a.var.ord (s.t.bools.value a.var.ord), a.reason) :: s.sat }
  else s

/-- `satisfied.clear()` (src/bool/Bool_theory.cpp:121) and `initProp`, lines 72-117. -/
def initProp (s : BS) : BS :=
  let s := { s with sat := [] }
  let s := if s.t.isEmpty then initClauses s.cls 0 { s with watched := fun _ => [] } else s
  let (as, s) := s.assigned
  as.foldl pushAssigned s

/-- The do-while loop of `replace_second_watch`, src/bool/Bool_theory.cpp:165-182, on the literals
from index 2: `e` is the start (`end`), `k` the current index (both minus 2), the fuel bounds the
number of iterations. The result is the index of the first literal found that is not false. -/
def findWatch (m : PModel Bool) (rest : List Lit) (e : Nat) : Nat → Nat → Option Nat
  | 0, _ => none
  | fuel + 1, k =>
    match rest[k]? with
    | none => none   -- out of range, excluded by the assert at line 164
    | some l =>
      if evalLit m l ≠ some false then some k
      else
        let k' := if k + 1 ≥ rest.length then 0 else k + 1
        if k' = e then none else findWatch m rest e fuel k'

/-- `std::swap(watch, watchlist.back()); watchlist.pop_back();`,
src/bool/Bool_theory.cpp:219-220. -/
def swapRemove {α : Type} (l : List α) (i : Nat) : List α :=
  match l.getLast? with
  | none => l
  | some x => (l.set i x).dropLast

/-- `falsified`, src/bool/Bool_theory.cpp:187-249, from index `i` of the watch list of `f`. The
result is the conflict, if there is one, and the new state. The fuel is the number of watches left;
one is consumed in every iteration. -/
def falsifiedLoop (f : Lit) : Nat → Nat → BS → Option Clause × BS
  | 0, _, s => (none, s)
  | fuel + 1, i, s =>
    match (s.watched f)[i]? with
    | none => (none, s)
    | some w =>
      match s.clause w.ref with
      | [] => (none, s)   -- excluded by the assert at line 198
      | [l] => (some [l], s)
      | a :: b :: rest =>
        -- move the falsified literal to index 1
        let x := if a = f then b else a
        let y := if a = f then a else b
        let s := s.setClause w.ref (x :: y :: rest)
        if evalLit s.t.bools x = some true then falsifiedLoop f fuel (i + 1) s
        else
          match findWatch s.t.bools rest (w.idx - 2) rest.length (w.idx - 2) with
          | some k =>
            let z := rest.getD k y
            let s := s.setClause w.ref (x :: z :: rest.set k y)
            let s := s.addWatch z ⟨w.ref, k + 2⟩
            let s := { s with watched := Function.update s.watched f (swapRemove (s.watched f) i) }
            falsifiedLoop f fuel i s
          | none =>
            if evalLit s.t.bools x = some false then (some (x :: y :: rest), s)
            else falsifiedLoop f fuel (i + 1) { s with sat := (x, some w.ref) :: s.sat }

/-- `falsified`, src/bool/Bool_theory.cpp:187-249. -/
def falsified (s : BS) (f : Lit) : Option Clause × BS := falsifiedLoop f (s.watched f).length 0 s

/-- Assignment of a popped literal, src/bool/Bool_theory.cpp:136-140. (`set_value` and
`Trail::propagate` change different members and are called in the other order.) -/
def assignPopped (s : BS) (lit : Lit) (reason : Option Nat) : BS :=
  match reason with
  | none => s
  | some r =>
    if s.t.bools.defined lit.ord then s
    else { s with t := (s.t.propagate lit.var (some r) s.t.decisionLevel).setValue lit.var (.b (!lit.isNeg)) }

/-- The loop of `propagate`, src/bool/Bool_theory.cpp:127-151. `none`: the fuel is used up. -/
def propLoop : Nat → BS → Option (Option Clause × BS)
  | 0, _ => none
  | fuel + 1, s =>
    match s.sat with
    | [] => some (none, s)
    | (lit, reason) :: rest =>
      let s := assignPopped { s with sat := rest } lit reason
      match s.falsified lit.neg with
      | (some c, s) => some (some c, s)
      | (none, s) => propLoop fuel s

/-- `propagate`, src/bool/Bool_theory.cpp:119-153: the loop ends with this conflict (or none) and
this state. -/
def Propagates (s : BS) (conflict : Option Clause) (s' : BS) : Prop :=
  ∃ fuel, propLoop fuel s.initProp = some (conflict, s')

end BS
end Yaga
