/-
`Bool_theory::propagate` with every memory access and every assertion checked,
src/bool/Bool_theory.cpp:72-249.
-/
import Verif.Model.BoolTheory

namespace Yaga
namespace BS

/-- Continue only if the condition holds: an assertion, an index in range, or a pointer to an
existing clause. `none` is a failed assertion or undefined behaviour. -/
def need {α : Type} (p : Prop) [Decidable p] (x : Option α) : Option α := if p then x else none

/-- The literal may be used as an index of the model (src/Model.h) and of the watch lists
(src/bool/Bool_theory.h:110). -/
def InRange (s : BS) (l : Lit) : Prop := l.ord < s.t.bools.num

instance (s : BS) (l : Lit) : Decidable (s.InRange l) := inferInstanceAs (Decidable (_ < _))

/-- All these literals may be evaluated and are false (src/Model.h, `eval`). -/
def AllFalse (s : BS) (c : Clause) : Prop :=
  ∀ l ∈ c, s.InRange l ∧ evalLit s.t.bools l = some false

instance (s : BS) (c : Clause) : Decidable (s.AllFalse c) :=
  inferInstanceAs (Decidable (∀ l ∈ c, _))

/-- The assertion in src/bool/Bool_theory.cpp:229-231: all these literals have a level and none
has a level above that of `y`. (`std::max_element` returns the first of the greatest elements.) -/
def levelsOk (t : Trail Nat) (y : Lit) (rest : Clause) : Bool :=
  match t.level y.var with
  | none => false
  | some k => rest.all fun m =>
    match t.level m.var with
    | none => false
    | some j => Nat.ble j k

/-- The do-while loop of `replace_second_watch`, src/bool/Bool_theory.cpp:165-182, like
`BS.findWatch`; `none` is an index out of range, or a loop that does not end. -/
def findWatchC (s : BS) (rest : List Lit) (e : Nat) : Nat → Nat → Option (Option Nat)
  | 0, _ => none
  | fuel + 1, k =>
    match rest[k]? with
    | none => none
    | some l =>
      need (s.InRange l) <|
      if evalLit s.t.bools l ≠ some false then some (some k)
      else
        let k' := if k + 1 ≥ rest.length then 0 else k + 1
        if k' = e then some none else findWatchC s rest e fuel k'

/-- `replace_second_watch`, src/bool/Bool_theory.cpp:155-185, on a clause `x :: y :: rest`: the
assertions in lines 159-164 and the loop. -/
def replaceC (s : BS) (y : Lit) (rest : List Lit) (idx : Nat) : Option (Option Nat) :=
  need (s.InRange y ∧ evalLit s.t.bools y = some false) <|
  if rest = [] then some none
  else need (2 ≤ idx ∧ idx < rest.length + 2) (findWatchC s rest (idx - 2) rest.length (idx - 2))

/-- The loop of `falsified`, src/bool/Bool_theory.cpp:192-248, like `BS.falsifiedLoop`. The
watched literal found in line 172 must be in range and different from `f`: otherwise `push_back` in
line 173 would write to the watch list that is traversed and `watch` would dangle. With `lv` the
assertion in lines 229-231 is checked as well. The fuel must not run out before the list is
traversed. -/
def falsifiedLoopC (lv : Bool) (f : Lit) : Nat → Nat → BS → Option (Option Clause × BS)
  | 0, i, s => need ((s.watched f).length ≤ i) (some (none, s))
  | fuel + 1, i, s =>
    match (s.watched f)[i]? with
    | none => some (none, s)
    | some w =>
      match s.cls[w.ref]? with
      | none => none
      | some [] => none
      | some [l] => need (s.AllFalse [l]) (some (some [l], s))
      | some (a :: b :: rest) =>
        let x := if a = f then b else a
        let y := if a = f then a else b
        let s := s.setClause w.ref (x :: y :: rest)
        need (y = f ∧ s.InRange x) <|
        if evalLit s.t.bools x = some true then falsifiedLoopC lv f fuel (i + 1) s
        else
          match replaceC s y rest w.idx with
          | none => none
          | some (some k) =>
            let z := rest.getD k y
            need (s.InRange z ∧ z ≠ f) <|
            let s := s.setClause w.ref (x :: z :: rest.set k y)
            let s := s.addWatch z ⟨w.ref, k + 2⟩
            let s := { s with watched := Function.update s.watched f (swapRemove (s.watched f) i) }
            falsifiedLoopC lv f fuel i s
          | some none =>
            need (lv = true → levelsOk s.t y rest = true) <|
            if evalLit s.t.bools x = some false then
              need (s.AllFalse (x :: y :: rest)) (some (some (x :: y :: rest), s))
            else
              need (evalLit s.t.bools x = none ∧ s.AllFalse (y :: rest)) <|
              falsifiedLoopC lv f fuel (i + 1) { s with sat := (x, some w.ref) :: s.sat }

/-- `falsified`, src/bool/Bool_theory.cpp:187-249, with the assertion in line 190. -/
def falsifiedC (lv : Bool) (s : BS) (f : Lit) : Option (Option Clause × BS) :=
  need (s.InRange f ∧ evalLit s.t.bools f = some false) <|
  falsifiedLoopC lv f (s.watched f).length 0 s

/-- The assertion in src/bool/Bool_theory.cpp:141-144: the reason exists and all its other literals
are false. -/
def ReasonFits (s : BS) (lit : Lit) (reason : Option Nat) : Prop :=
  ∀ r ∈ reason, r < s.cls.length ∧ ∀ m ∈ s.clause r, m = lit ∨
    (s.InRange m ∧ evalLit s.t.bools m = some false)

instance (s : BS) (l : Lit) (r : Option Nat) : Decidable (s.ReasonFits l r) :=
  inferInstanceAs (Decidable (∀ _ ∈ r, _))

/-- The loop of `propagate`, src/bool/Bool_theory.cpp:127-151, like `BS.propLoop` (whose result
`none` means that the fuel is used up). -/
def propLoopC (lv : Bool) : Nat → BS → Option (Option (Option Clause × BS))
  | 0, _ => some none
  | fuel + 1, s =>
    match s.sat with
    | [] => some (some (none, s))
    | (lit, reason) :: rest =>
      need (s.InRange lit) <|
      let s := assignPopped { s with sat := rest } lit reason
      need (evalLit s.t.bools lit = some true ∧ s.ReasonFits lit reason) <|
      match falsifiedC lv s lit.neg with
      | none => none
      | some (some c, s) => some (some (some c, s))
      | some (none, s) => propLoopC lv fuel s

/-- Watch one clause of the database, src/bool/Bool_theory.cpp:93-103, like `BS.initClause`. -/
def initClauseC (s : BS) (r : Nat) (c : Clause) : Option BS :=
  match c with
  | [] => none
  | [a] => need (s.InRange a) (some (s.initClause r c))
  | a :: b :: _ => need (s.InRange a ∧ s.InRange b) (some (s.initClause r c))

/-- The loop over all clauses of the database, src/bool/Bool_theory.cpp:88-105. -/
def initClausesC : List Clause → Nat → BS → Option BS
  | [], _, s => some s
  | c :: cs, r, s => (s.initClauseC r c).bind (initClausesC cs (r + 1))

/-- Push an assigned variable on the stack, src/bool/Bool_theory.cpp:109-116, like
`BS.pushAssigned`. -/
def pushAssignedC (s : BS) (a : Asg Nat) : Option BS :=
  need (a.var.type = .boolean → a.var.ord < s.t.bools.num) (some (s.pushAssigned a))

/-- The loop in src/bool/Bool_theory.cpp:109-116. -/
def pushAllC : List (Asg Nat) → BS → Option BS
  | [], s => some s
  | a :: as, s => (s.pushAssignedC a).bind (pushAllC as)

/-- `initialize`, src/bool/Bool_theory.cpp:72-117 (and line 121), like `BS.initProp`.
(`std::views::drop` in src/Theory.cpp:16 accepts a number greater than the size.) -/
def initPropC (s : BS) : Option BS :=
  let s := { s with sat := [] }
  (if s.t.isEmpty then initClausesC s.cls 0 { s with watched := fun _ => [] } else some s).bind
    fun s => pushAllC s.assigned.1 s.assigned.2

/-- `propagate`, src/bool/Bool_theory.cpp:119-153, with all checks; the loop runs at most `fuel`
times. -/
def propagateC (lv : Bool) (fuel : Nat) (s : BS) : Option (Option (Option Clause × BS)) :=
  s.initPropC.bind (propLoopC lv fuel)

end BS
end Yaga
