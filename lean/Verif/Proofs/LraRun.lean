/-
Concrete histories of the plugin for linear arithmetic.
-/
import Verif.Proofs.LraGood

set_option linter.unusedSimpArgs false
set_option linter.unusedVariables false

namespace Yaga
open Spec

namespace LA

/-- One step of a history. -/
inductive Act where
  | resize (ty : VType) (n : Nat)
  | cons (ts : List (Nat × ℚ)) (p : Pred) (r : ℚ)
  | derive (ts : List (Nat × ℚ)) (p : Pred) (r : ℚ)
  | setBool (v : Nat) (b : Bool) (lvl : Nat)
  | decideBool (v : Nat) (b : Bool)
  | decideRat (x : Nat)
  | propagate
  | backtrack (k : Nat)
  | split (k v : Nat) (b : Bool)
  | restart

def assignedB (la : LA Nat) (k v : Nat) : Bool :=
  (la.store.varsOf (la.store.get v)).all fun x => (la.level x).any fun l => Decidable.decide (l ≤ k)

theorem assignedB_iff {la : LA Nat} {k v : Nat} (h : assignedB la k v = true) : la.Assigned k v := by
  intro x hx
  have := List.all_eq_true.mp h x hx
  obtain ⟨l, h1, h2⟩ := Option.any_eq_true _ _ |>.mp this
  exact ⟨l, of_decide_eq_true h2, h1⟩

def listedB (t : Trail Nat) (k v : Nat) : Bool :=
  (t.assigned k).any fun a => Decidable.decide (a.var = ⟨.boolean, v⟩)

theorem listedB_of {t : Trail Nat} {k v : Nat} (h : Listed t k v) : listedB t k v = true := by
  obtain ⟨a, h1, h2⟩ := h
  exact List.any_eq_true.mpr ⟨a, h1, decide_eq_true h2⟩

def lateB (la : LA Nat) (k : Nat) : Bool :=
  (la.trail.assigned k).all fun a => a.var.type == .rational || !listedB la.trail (k + 1) a.var.ord ||
    assignedB la k a.var.ord

theorem lateB_iff {la : LA Nat} {k : Nat} (h : lateB la k = true) (v : Nat) (h1 : Listed la.trail k v)
    (h2 : Listed la.trail (k + 1) v) : la.Assigned k v := by
  obtain ⟨a, ha, hav⟩ := h1
  have := List.all_eq_true.mp h a ha
  rw [hav] at this
  simp [listedB_of h2] at this
  exact assignedB_iff this

/-- The step, if its precondition is satisfied. -/
def Act.run (o : LaOpts) (timely : Bool) (a : Act) (la : LA Nat) (s : Stage) : Option (LA Nat × Stage) :=
  match a with
  | .resize ty n => if la.trail.numVars ty ≤ n then some (la.resize ty n, s) else none
  | .cons ts p r =>
    if (ts.map (·.1)).Nodup ∧ (∃ q ∈ ts, q.2 ≠ 0) ∧ (∀ q ∈ ts, q.1 < la.trail.rats.num) ∧
        (∀ q ∈ ts, la.level q.1 = none) then
      some ((la.constraint id (fun _ => 0) ts p r).1, s) else none
  | .derive ts p r =>
    if (s = .settled ∨ s = .changed) ∧ (ts.map (·.1)).Nodup ∧ (∃ q ∈ ts, q.2 ≠ 0) ∧
        (∀ q ∈ ts, (la.level q.1).isSome = true) ∧
        ts.Pairwise (fun a b => la.sortLevel b.1 ≤ la.sortLevel a.1) then
      some (la.derive id (fun _ => 0) ts p r, .changed) else none
  | .setBool v b lvl =>
    if (s = .settled ∨ s = .changed) ∧ v < la.trail.bools.num ∧ la.trail.level ⟨.boolean, v⟩ = none ∧
        lvl ≤ la.trail.decisionLevel ∧
        (timely = false ∨ lvl = la.trail.decisionLevel ∨ assignedB la lvl v = true) then
      some (la.setBool v b none lvl, .changed) else none
  | .decideBool v b =>
    if s = .settled ∧ v < la.trail.bools.num ∧ la.trail.level ⟨.boolean, v⟩ = none then
      some (la.decideBool v b, .changed) else none
  | .decideRat x =>
    if s = .settled ∧ x < la.trail.rats.num ∧ la.level x = none then
      (la.decide 100 x).map fun la' => (la', .decided) else none
  | .propagate =>
    if s ≠ .conflict then
      let r := la.propagate id (fun _ => 0) o
      some (r.1, if r.2 ≠ [] then .conflict
        else if r.1.nextIndex = (r.1.trail.assigned r.1.trail.decisionLevel).length
        then .settled else .changed) else none
  | .backtrack k => if k < la.trail.decisionLevel then some (la.backtrack k, .changed) else none
  | .split k v b =>
    if k < la.trail.decisionLevel ∧ lateB la k = true ∧ v < la.trail.bools.num ∧
        (la.backtrack k).trail.level ⟨.boolean, v⟩ = none then
      some ((la.backtrack k).decideBool v b, .changed) else none
  | .restart => some (la.restart, .changed)

def runActs (o : LaOpts) (timely : Bool) : List Act → LA Nat → Stage → Option (LA Nat × Stage)
  | [], la, s => some (la, s)
  | a :: as, la, s =>
    match a.run o timely la s with
    | none => none
    | some r => runActs o timely as r.1 r.2

theorem Act.reach {o : LaOpts} {timely : Bool} {a : Act} {la la' : LA Nat} {s s' : Stage}
    (h : Reach id (fun _ => 0) o (timely = true) la s) (hr : a.run o timely la s = some (la', s')) :
    Reach id (fun _ => 0) o (timely = true) la' s' := by
  cases a with
  | resize ty n =>
    simp only [Act.run] at hr
    split at hr
    · rename_i h1; cases hr; exact .resize h ty n h1
    · cases hr
  | cons ts p r =>
    simp only [Act.run] at hr
    split at hr
    · rename_i h1; cases hr; exact .cons h ts p r h1.1 h1.2.1 h1.2.2.1 h1.2.2.2
    · cases hr
  | derive ts p r =>
    simp only [Act.run] at hr
    split at hr
    · rename_i h1; cases hr; exact .derive h h1.1 ts p r h1.2.1 h1.2.2.1 h1.2.2.2.1 h1.2.2.2.2
    · cases hr
  | setBool v b lvl =>
    simp only [Act.run] at hr
    split at hr
    · rename_i h1; cases hr
      refine .setBool h h1.1 v b none lvl h1.2.1 h1.2.2.1 h1.2.2.2.1 (fun ht => ?_)
      rcases h1.2.2.2.2 with e | e | e
      · rw [e] at ht; cases ht
      · exact Or.inl e
      · exact Or.inr (assignedB_iff e)
    · cases hr
  | decideBool v b =>
    simp only [Act.run] at hr
    split at hr
    · rename_i h1; cases hr; obtain ⟨rfl, h2, h3⟩ := h1; exact .decideBool h v b h2 h3
    · cases hr
  | decideRat x =>
    simp only [Act.run] at hr
    split at hr
    · rename_i h1
      obtain ⟨rfl, h2, h3⟩ := h1
      obtain ⟨q, h4, h5⟩ := Option.map_eq_some_iff.mp hr
      cases h5
      exact .decideRat h x 100 h2 h3 h4
    · cases hr
  | propagate =>
    simp only [Act.run] at hr
    split at hr
    · rename_i h1
      cases hr
      exact .propagate h h1
    · cases hr
  | backtrack k =>
    simp only [Act.run] at hr
    split at hr
    · rename_i h1; cases hr; exact .backtrack h k h1
    · cases hr
  | split k v b =>
    simp only [Act.run] at hr
    split at hr
    · rename_i h1; cases hr
      exact .split h k h1.1 (lateB_iff h1.2.1) v b h1.2.2.1 h1.2.2.2
    · cases hr
  | restart =>
    simp only [Act.run] at hr
    cases hr
    exact .restart h

theorem runActs_reach {o : LaOpts} {timely : Bool} (as : List Act) : ∀ {la la' : LA Nat} {s s' : Stage},
    Reach id (fun _ => 0) o (timely = true) la s → runActs o timely as la s = some (la', s') →
    Reach id (fun _ => 0) o (timely = true) la' s' := by
  induction as with
  | nil => intro la la' s s' h hr; cases hr; exact h
  | cons a as ih =>
    intro la la' s s' h hr
    unfold runActs at hr
    split at hr
    · cases hr
    · rename_i r hra
      exact ih (Act.reach h hra) hr

/-- A history from the start, or nothing. -/
def start (o : LaOpts) (timely : Bool) (as : List Act) : Option (LA Nat × Stage) :=
  runActs o timely as LA.init .changed

theorem start_reach {o : LaOpts} {timely : Bool} {as : List Act} {la : LA Nat} {s : Stage}
    (h : start o timely as = some (la, s)) : Reach id (fun _ => 0) o (timely = true) la s :=
  runActs_reach as .init h

/-- The state at the end of a history whose preconditions hold. -/
theorem start_get {o : LaOpts} {timely : Bool} {as : List Act} {s : Stage}
    (h : (start o timely as).map (·.2) = some s) :
    ∃ la, start o timely as = some (la, s) ∧ Reach id (fun _ => 0) o (timely = true) la s := by
  obtain ⟨⟨la, s'⟩, h1, h2⟩ := Option.map_eq_some_iff.mp h
  dsimp only at h2
  subst h2
  exact ⟨la, h1, start_reach h1⟩

end LA
end Yaga
