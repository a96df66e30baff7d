/-
C92: the trail stays inside its vectors.
-/
import Verif.Proofs.TrailMemory
import Verif.Props.C03

namespace Yaga
variable {R : Type}

/-- `MLegal P t os P' t'`: the calls `os`, each made when its precondition holds, lead from `t` to `t'`; `P` and `P'` are the
types that have a model. `set_model` is called once for a type, before its variables are used. -/
inductive MLegal : (VType → Bool) → Trail R → List (MOp R) → (VType → Bool) → Trail R → Prop where
  | nil (P t) : MLegal P t [] P t
  | setModel {P P' t t' ty n os} : P ty = false → MLegal (Function.update P ty true) (t.resize ty n) os P' t' →
      MLegal P t (.setModel ty n :: os) P' t'
  | resize {P P' t t' ty n os} : P ty = true → t.Pre (.resize ty n) → MLegal P (t.resize ty n) os P' t' →
      MLegal P t (.op (.resize ty n) :: os) P' t'
  | op {P P' t t' o os} : (∀ ty n, o ≠ .resize ty n) → t.Pre o → MLegal P (t.step o) os P' t' →
      MLegal P t (.op o :: os) P' t'

namespace TMem

theorem init_sim : Sim (fun _ => false) (init : TMem R) Trail.init := by
  refine ⟨rfl, rfl, ⟨fun _ h => (by cases h), fun _ _ r hr => (by simp [init] at hr)⟩,
    ⟨fun _ h => (by cases h), fun _ _ r hr => (by simp [init] at hr)⟩,
    ⟨fun _ h => (by cases h), fun _ _ => (by simp [init])⟩, fun ty _ => ?_⟩
  cases ty <;> exact ⟨rfl, rfl⟩

theorem op_sim {P : VType → Bool} {m : TMem R} {t : Trail R} (h : Sim P m t) (hi : t.Inv) {o : TOp R}
    (ho : ∀ ty n, o ≠ .resize ty n) (hp : t.Pre o) : ∃ m', m.step (.op o) = some m' ∧ Sim P m' (t.step o) := by
  cases o with
  | resize ty n => exact absurd rfl (ho ty n)
  | decide v x =>
    obtain ⟨m1, e1, e2⟩ := decide_sim h hp.1
    obtain ⟨m2, f1, f2⟩ := setValue_sim e2 (v := v) (x := x) hp.1 hp.2.2
    exact ⟨m2, by simp only [step]; rw [e1]; exact f1, f2⟩
  | propagate v r lvl x =>
    have hl := hi.length_pos
    obtain ⟨m1, e1, e2⟩ := propagate_sim h hp.1 r (List.length_pos_iff.1 hl) hp.2.2.2
    obtain ⟨m2, f1, f2⟩ := setValue_sim e2 (v := v) (x := x) hp.1 hp.2.2.1
    exact ⟨m2, by simp only [step]; rw [e1]; exact f1, f2⟩
  | backtrack lvl => exact backtrack_sim h hi hp
  | clear => exact ⟨_, rfl, clear_sim h⟩

theorem run_sim {P P' : VType → Bool} {t t' : Trail R} {os : List (MOp R)} (hr : MLegal P t os P' t') :
    ∀ {m : TMem R}, Sim P m t → t.Inv → ∃ m', run os m = some m' ∧ Sim P' m' t' ∧ t'.Inv := by
  induction hr with
  | nil P t => exact fun h hi => ⟨_, rfl, h, hi⟩
  | @setModel P P' t t' ty n os hP _ ih =>
    intro m h hi
    obtain ⟨m1, e1, e2⟩ := setModel_sim h hP n
    obtain ⟨m2, f1, f2, f3⟩ := ih e2 (Trail.resize_inv hi ty n fun v l hv hl => by
      have := hi.range v l hl
      rw [hv, (h.none ty hP).1] at this; omega)
    exact ⟨m2, by simp only [run, step]; rw [e1]; exact f1, f2, f3⟩
  | @resize P P' t t' ty n os hP hp _ ih =>
    intro m h hi
    obtain ⟨m1, e1, e2⟩ := resize_sim h hP n
    obtain ⟨m2, f1, f2, f3⟩ := ih e2 (Trail.resize_inv hi ty n hp)
    exact ⟨m2, by simp only [run, step]; rw [e1]; exact f1, f2, f3⟩
  | @op P P' t t' o os ho hp _ ih =>
    intro m h hi
    obtain ⟨m1, e1, e2⟩ := op_sim h hi ho hp
    obtain ⟨m2, f1, f2, f3⟩ := ih e2 (Trail.step_inv hi o hp)
    exact ⟨m2, by simp only [run]; rw [e1]; exact f1, f2, f3⟩

end TMem

/-- C92. After every legal history of calls no assertion has failed, no vector has been accessed outside its bounds and no
missing model has been used; and what the vectors store for each variable of the trail is its level, reason,
definedness, value and time stamp: `decision_level(v)`, `reason(v)`, `is_defined`, `value` and `timestamp` stay inside the
vectors too. -/
theorem C92_memory (os : List (MOp R)) (P : VType → Bool) (t : Trail R)
    (hr : MLegal (fun _ => false) Trail.init os P t) :
    ∃ m, TMem.run os TMem.init = some m ∧ m.trail = t.levels ∧
      ∀ v, v.ord < t.numVars v.type →
        m.levelOf v = some ((t.level v).map Int.ofNat) ∧ TMem.cell m.varReason v = some (t.reason v) ∧
        ∃ M, m.model v.type = some M ∧ M.defined[v.ord]? = some (t.isDefined v) ∧
          M.values[v.ord]? = some (t.valueOf v) ∧ M.ts[v.ord]? = some (t.tsOf v) := by
  obtain ⟨m, h1, h2, -⟩ := TMem.run_sim hr TMem.init_sim Trail.init_inv
  refine ⟨m, h1, h2.trail, fun v ho => ?_⟩
  have hv := h2.has ho
  obtain ⟨M, e1, hM⟩ := TMem.model_eq h2 hv
  refine ⟨?_, h2.reason.cell hv ho, M, e1, by rw [hM.defined v.ord, if_pos ho], by rw [hM.values v.ord, if_pos ho],
    by rw [hM.ts v.ord, if_pos ho]⟩
  unfold TMem.levelOf
  rw [h2.level.cell hv ho]
  cases t.level v with
  | none => simp [encLevel]
  | some l =>
    have : ¬ ((l : Int) < 0) := by omega
    simp [encLevel, this]

/-- The levels in the assertions cannot be dropped: after a legal history, `backtrack` and `propagate` fail for a level above
the current one. -/
theorem C92_levels (os : List (MOp R)) (P : VType → Bool) (t : Trail R)
    (hr : MLegal (fun _ => false) Trail.init os P t) (lvl : Nat) (hl : t.decisionLevel < lvl) :
    ∃ m, TMem.run os TMem.init = some m ∧ m.step (.op (.backtrack lvl)) = none ∧
      ∀ v r x, m.step (.op (.propagate v r lvl x)) = none := by
  obtain ⟨m, h1, h2, hi⟩ := TMem.run_sim hr TMem.init_sim Trail.init_inv
  have hlen := hi.length_pos
  have hd : t.decisionLevel = t.levels.length - 1 := rfl
  refine ⟨m, h1, ?_, fun v r x => ?_⟩
  · simp only [TMem.step, TMem.backtrack]
    rw [if_pos (by omega)]
    unfold TMem.popLevels
    rw [if_neg (by rw [h2.trail]; omega)]
    simp only [Option.bind_some]
    rw [if_neg (by rw [h2.trail]; omega)]
  · simp only [TMem.step, TMem.propagate]
    rw [if_neg (by rw [h2.trail]; omega)]
    rfl

/-- `set_model` cannot be dropped: after a legal history, a variable of a type without a model cannot be given a
value by a decision, and the number of variables of the type cannot be changed. -/
theorem C92_model_needed (os : List (MOp R)) (P : VType → Bool) (t : Trail R)
    (hr : MLegal (fun _ => false) Trail.init os P t) (ty : VType) (hP : P ty = false) :
    ∃ m, TMem.run os TMem.init = some m ∧ (∀ n, m.step (.op (.resize ty n)) = none) ∧
      ∀ o x, m.step (.op (.decide ⟨ty, o⟩ x)) = none := by
  obtain ⟨m, h1, h2, hi⟩ := TMem.run_sim hr TMem.init_sim Trail.init_inv
  have hm : m.model ty = none := h2.models.absent ty hP
  refine ⟨m, h1, fun n => ?_, fun o x => ?_⟩
  · simp only [TMem.step, TMem.resize]
    rw [hm]
  · simp only [TMem.step]
    cases hd : m.decide ⟨ty, o⟩ with
    | none => rfl
    | some m' =>
      have he : m'.models = m.models := by
        unfold TMem.decide at hd
        split_ifs at hd
        obtain ⟨a, -, ha⟩ := Option.bind_eq_some_iff.1 hd
        obtain ⟨b, -, hb⟩ := Option.map_eq_some_iff.1 ha
        cases hb; rfl
      have : m'.model ty = none := by rw [← hm]; unfold TMem.model; rw [he]
      simp only [Option.bind_some, TMem.setValue]
      rw [this]

/-- Two types, a late propagation and backtracking. -/
example : ∃ (P : VType → Bool) (t : Trail Nat), MLegal (fun _ => false) Trail.init
    [.setModel .rational 1, .setModel .boolean 3, .op (.decide (Var.bool 0) (.b true)),
     .op (.decide (Var.rat 0) (.q 2)), .op (.propagate (Var.bool 2) (some 7) 1 (.b false)), .op (.backtrack 1)] P t ∧
    t.level (Var.bool 2) = some 1 ∧ t.level (Var.rat 0) = none := by
  refine ⟨_, _, .setModel rfl (.setModel rfl (.op ?_ ?_ (.op ?_ ?_ (.op ?_ ?_ (.op ?_ ?_ (.nil _ _)))))), ?_⟩
  all_goals first | (intro ty n h; cases h; done) | decide | (simp only [Trail.Pre]; decide)

/-- The vectors of the type without a model are those of the type with one: the assertions of `decide` hold, and the null
pointer is dereferenced. -/
example : ((TMem.run [.setModel .rational 2] (TMem.init : TMem Nat)).bind fun m => m.decide (Var.bool 1)).isSome = true ∧
    ((TMem.run [.setModel .rational 2] (TMem.init : TMem Nat)).bind fun m =>
      m.step (.op (.decide (Var.bool 1) (.b true)))).isSome = false := by decide

#print axioms C92_memory
#print axioms C92_levels
#print axioms C92_model_needed

end Yaga
