/-
The solver as configured by `Propositional::setup`, src/Yaga.cpp:7-14: Boolean plugin only, EVSIDS.
-/
import Verif.Model.Check
import Verif.Model.VarOrder

namespace Yaga
namespace Check

/-- Event that is not a change of the number of variables. -/
def EvOp.noResize : EvOp → Prop
  | .resize _ => False
  | _ => True

/-- The Boolean plugin alone: no other plugin assigns, declares or reports anything; variables are
picked by `Evsids::pick`, and between picks its scores change by the events of conflict analysis and
learning (any sequence of them). -/
def propEnv (S : Type) [LinearOrder S] [ScoreOps S] : Env (Evsids S) where
  assign _ _ _ _ := False
  resize _ _ _ := False
  conflict _ _ := False
  choose _ _ _ := False
  pick o s v o' := v = o.pick s.t.bools ∧ o' = o
  events o o' := ∃ ops : List EvOp, (∀ op ∈ ops, EvOp.noResize op) ∧ o' = ops.foldl Evsids.step o

/-- State at the first call of `check` after `init` (src/Solver.cpp:159-176): the order knows the
number of variables and saw the clauses. -/
structure PropStart {S : Type} [LinearOrder S] [ScoreOps S] (A : List Clause) (c : CS (Evsids S)) :
    Prop where
  start : Start A c
  order : c.o = (Evsids.new.step (.resize c.s.t.bools.num)).step (.init A)

/-- State at the beginning of the loop of a later call of `check`: clauses `A'` were asserted
(src/Database.h:19-22) since the last call ended in the state `s`; `init` (src/Solver.cpp:159-176)
announces the number of variables and the clauses to the order. The trail and the watch lists are
those of the last call. For a database without learned clauses (`s.cls.length = s.na`), so that
asserting appends to the list; `old` is `old_size` of the subsumption. -/
def nextCheck {S : Type} [LinearOrder S] [ScoreOps S] (s : BS) (old : Nat) (o : Evsids S)
    (A' : List Clause) : CS (Evsids S) :=
  ⟨{ s with cls := s.cls ++ A', na := s.na + A'.length }, old,
    (o.step (.resize s.t.bools.num)).step (.init (s.cls ++ A'))⟩

end Check
end Yaga
