/-
Concrete histories of the arithmetic theory.
-/
import Verif.Proofs.LraConflict

namespace Yaga
open Spec

namespace Lra

instance (s : LinStore) (c : LinCons) : Decidable (IsCons s c) := by unfold IsCons; infer_instance

/-- Decision procedure for the precondition of `update`. -/
def updateOkB (st : St) (c : LinCons) : Bool :=
  decide (IsCons st.store c) && st.models.bools.defined c.lit.ord &&
  match st.store.varsOf c with
  | [] => false
  | x :: vs => !st.models.rats.defined x && vs.all fun y => st.models.rats.defined y

/-- Decision procedure for the preconditions. -/
def okB (st : St) : Op → Bool
  | .resizeBool n => decide (st.models.bools.num ≤ n)
  | .resizeRat n => decide (st.models.rats.num ≤ n)
  | .setBool ord _ => decide (ord < st.models.bools.num) && !st.models.bools.defined ord
  | .setRat x q => decide (x < st.models.rats.num) && !st.models.rats.defined x &&
      ((st.bnd.vb x).isAllowed st.store st.models q).2
  | .constraint ts _ _ => decide (ts.map (·.1)).Nodup
  | .swap ord i j => decide (i < (st.store.get ord).size) && decide (j < (st.store.get ord).size) &&
      (decide (i = j) || (decide (0 < i) && decide (0 < j)))
  | .update c => updateOkB st c
  | .deduce c => decide (IsCons st.store c) && decide (evalLit st.models.bools c.lit = some true)
  | _ => true

theorem ok_of_okB {st : St} {op : Op} (h : okB st op = true) : op.Ok st := by
  cases op with
  | resizeBool n => simpa [okB, Op.Ok] using h
  | resizeRat n => simpa [okB, Op.Ok] using h
  | setBool o v => simpa [okB, Op.Ok] using h
  | setRat x q =>
    simp only [okB, Bool.and_eq_true, decide_eq_true_eq, Bool.not_eq_true'] at h
    exact ⟨h.1.1, h.1.2, h.2⟩
  | constraint ts p r => simpa [okB, Op.Ok] using h
  | swap o i j =>
    simp only [okB, Bool.and_eq_true, Bool.or_eq_true, decide_eq_true_eq] at h
    refine ⟨h.1.1, h.1.2, ?_⟩
    rcases h.2 with h | h
    · exact Or.inl h
    · exact Or.inr (Or.inl h)
  | update c =>
    simp only [okB, updateOkB, Bool.and_eq_true, decide_eq_true_eq] at h
    refine ⟨h.1.1, h.1.2, ?_⟩
    cases e : st.store.varsOf c with
    | nil => rw [e] at h; simp at h
    | cons x vs =>
      rw [e] at h
      simp only [Bool.and_eq_true, Bool.not_eq_true', List.all_eq_true] at h
      exact ⟨x, vs, rfl, h.2.1, h.2.2⟩
  | deduce c => simpa [okB, Op.Ok] using h
  | _ => trivial

/-- Run operations, `none` if a precondition fails. -/
def runOps (hv : Nat → Nat) (hc : ℚ → Nat) (st : St) : List (St → Op) → Option St
  | [] => some st
  | f :: ops => if okB st (f st) then runOps hv hc ((f st).run hv hc st) ops else none

theorem steps_of_runOps {hv : Nat → Nat} {hc : ℚ → Nat} (ops : List (St → Op)) :
    ∀ {st t : St}, runOps hv hc st ops = some t → Steps hv hc st t := by
  induction ops with
  | nil =>
    intro st t h
    simp only [runOps, Option.some.injEq] at h
    subst h; exact Steps.refl _
  | cons f ops ih =>
    intro st t h
    rw [runOps] at h
    split at h
    · rename_i hok
      exact steps_trans (Steps.step (f st) (Steps.refl st) (ok_of_okB hok)) (ih h)
    · cases h

/-- The state after the operations. -/
def after (ops : List (St → Op)) : St := (runOps id (fun _ => 0) St.init ops).getD St.init

theorem reach_after {ops : List (St → Op)} (h : (runOps id (fun _ => 0) St.init ops).isSome = true) :
    Reach id (fun _ => 0) (after ops) := by
  obtain ⟨t, ht⟩ := Option.isSome_iff_exists.mp h
  unfold after
  rw [ht]
  exact steps_of_runOps ops ht

/-- `x₀ + x₁ ≤ 1`, `x₁ < 2`, `x₀ < 0`, the first is true and the others are false. The bound `x₀ ≤ -1`
is derived from the first constraint and `x₁ ≥ 2`. -/
def exDerived : List (St → Op) :=
  [fun _ => .resizeRat 2, fun _ => .constraint [(0, 1), (1, 1)] .leq 1,
    fun _ => .constraint [(1, 1)] .lt 2, fun _ => .constraint [(0, 1)] .lt 0,
    fun _ => .setBool 0 true, fun _ => .setBool 1 false, fun _ => .setBool 2 false,
    fun st => .update (st.store.get 1), fun st => .deduce (st.store.get 0),
    fun st => .update (st.store.get 2)]

/-- As before, but `x₁ = 2` has been decided, so that the first constraint is unit. -/
def exUnit : List (St → Op) :=
  [fun _ => .resizeRat 2, fun _ => .constraint [(0, 1), (1, 1)] .leq 1,
    fun _ => .constraint [(0, 1)] .lt 0,
    fun _ => .setRat 1 2,
    fun _ => .setBool 0 true, fun _ => .setBool 1 false,
    fun st => .update (st.store.get 0), fun st => .update (st.store.get 1)]

/-- `x₀ ≤ x₁`, `x₀ ≥ 3`, `x₀ + 2 x₁ ≠ 9` with `x₁ = 3`. -/
def exNeq : List (St → Op) :=
  [fun _ => .resizeRat 2, fun _ => .constraint [(0, 1), (1, -1)] .leq 0,
    fun _ => .constraint [(0, 1)] .lt 3, fun _ => .constraint [(0, 1), (1, 2)] .eq 9,
    fun _ => .setRat 1 3,
    fun _ => .setBool 0 true, fun _ => .setBool 1 false, fun _ => .setBool 2 false,
    fun st => .update (st.store.get 0), fun st => .update (st.store.get 1),
    fun st => .update (st.store.get 2)]

/-- `x₀ ≤ x₁`, `x₁ ≤ x₂`, `x₂ < 5`. -/
def exChain : List (St → Op) :=
  [fun _ => .resizeRat 3, fun _ => .constraint [(0, 1), (1, -1)] .leq 0,
    fun _ => .constraint [(1, 1), (2, -1)] .leq 0, fun _ => .constraint [(2, 1)] .lt 5,
    fun _ => .setBool 0 true, fun _ => .setBool 1 true, fun _ => .setBool 2 true,
    fun st => .update (st.store.get 2), fun st => .deduce (st.store.get 1),
    fun st => .deduce (st.store.get 0)]

theorem reach_exDerived : Reach id (fun _ => 0) (after exDerived) := reach_after (by decide +kernel)
theorem reach_exUnit : Reach id (fun _ => 0) (after exUnit) := reach_after (by decide +kernel)
theorem reach_exNeq : Reach id (fun _ => 0) (after exNeq) := reach_after (by decide +kernel)
theorem reach_exChain : Reach id (fun _ => 0) (after exChain) := reach_after (by decide +kernel)

/-- `x₀ ≤ 5`, and the constraint `x₀ = 5` is not assigned. -/
def exEq : List (St → Op) :=
  [fun _ => .resizeRat 1, fun _ => .constraint [(0, 1)] .leq 5, fun _ => .constraint [(0, 1)] .eq 5,
    fun _ => .setBool 0 true, fun st => .update (st.store.get 0)]

/-- `x₀ ≥ 4`, and the constraint `x₀ = 5` is not assigned. -/
def exNe : List (St → Op) :=
  [fun _ => .resizeRat 1, fun _ => .constraint [(0, 1)] .lt 4, fun _ => .constraint [(0, 1)] .eq 5,
    fun _ => .setBool 0 false, fun st => .update (st.store.get 0)]

/-- `x₀ ≤ 2`, `x₁ < 3`, and `x₀ + x₁ ≤ 6` is not assigned. -/
def exImplied : List (St → Op) :=
  [fun _ => .resizeRat 2, fun _ => .constraint [(0, 1)] .leq 2, fun _ => .constraint [(1, 1)] .lt 3,
    fun _ => .constraint [(0, 1), (1, 1)] .leq 6,
    fun _ => .setBool 0 true, fun _ => .setBool 1 true, fun st => .update (st.store.get 0),
    fun st => .update (st.store.get 1)]

theorem reach_exEq : Reach id (fun _ => 0) (after exEq) := reach_after (by decide +kernel)
theorem reach_exNe : Reach id (fun _ => 0) (after exNe) := reach_after (by decide +kernel)
theorem reach_exImplied : Reach id (fun _ => 0) (after exImplied) := reach_after (by decide +kernel)

/-- Decision procedure for `ValuesConsistent`. -/
def consistentB (s : LinStore) (m : LModels) : Bool :=
  s.set.all fun e => [e, e.neg].all fun c =>
    !((s.terms c).all fun p => m.rats.defined p.1) ||
      (match evalLit m.bools c.lit with | none => true | some v => v == s.eval m.rats c)

theorem consistent_of_consistentB {s : LinStore} {m : LModels} (h : consistentB s m = true) :
    ValuesConsistent s m := by
  intro c hc hall v hv
  obtain ⟨e, he, hce⟩ := hc
  unfold consistentB at h
  rw [List.all_eq_true] at h
  have h1 := h e he
  rw [List.all_eq_true] at h1
  have h2 := h1 c (by rcases hce with rfl | rfl <;> simp)
  rw [hv] at h2
  have h3 : ((s.terms c).all fun p => m.rats.defined p.1) = true := by
    rw [List.all_eq_true]; exact hall
  rw [h3] at h2
  simp only [Bool.not_true, Bool.false_or, beq_iff_eq] at h2
  rw [h2, LinStore.eval_iff]
  exact Iff.rfl

end Lra
end Yaga
