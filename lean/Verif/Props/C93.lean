/-
C93: `Literal_map` is a map from literals.
-/
import Verif.Spec.LiteralMap
import Verif.Proofs.TrailMemory

namespace Yaga
open Spec
variable {T : Type}

/-- The literal with an index. -/
def Lit.ofIndex (i : Nat) : Lit := if i % 2 = 0 then Lit.pos (i / 2) else (Lit.pos (i / 2)).neg

theorem Lit.ord_ofIndex (i : Nat) : (Lit.ofIndex i).ord = i / 2 := by
  unfold Lit.ofIndex
  split_ifs <;> simp [Lit.pos, Lit.neg, Lit.ord] <;> omega

theorem Lit.index_ofIndex (i : Nat) : (Lit.ofIndex i).index = i := by
  unfold Lit.index
  rw [Lit.ord_ofIndex]
  have h1 : ∀ k, (Lit.pos k).isNeg = false := fun k => decide_eq_false (by simp only [Lit.pos]; omega)
  have h2 : ∀ k, (Lit.pos k).neg.isNeg = true := fun k => decide_eq_true (by simp only [Lit.pos, Lit.neg]; omega)
  unfold Lit.ofIndex
  by_cases h : i % 2 = 0
  · rw [if_pos h, h1, if_neg (by simp)]; omega
  · rw [if_neg h, h2, if_pos rfl]; omega

theorem Lit.ofIndex_index (l : Lit) : Lit.ofIndex l.index = l := by
  obtain ⟨v, hv⟩ := l
  unfold Lit.ofIndex Lit.index Lit.isNeg Lit.ord
  by_cases h : v < 0
  · simp only [h, decide_true, if_true]
    rw [if_neg (by omega)]
    simp only [Lit.pos, Lit.neg, Lit.mk.injEq]
    omega
  · simp only [h, decide_false]
    rw [if_pos (by simp)]
    simp only [Lit.pos, Lit.mk.injEq]
    simp
    omega

namespace LMap

/-- The vector stores the map. -/
def Sim (m : LMap T) (n : Nat) (f : Lit → T) : Prop := Row m.values (n * 2) fun i => f (Lit.ofIndex i)

theorem index_lt {l : Lit} {n : Nat} : l.index < n * 2 ↔ l.ord < n := by
  unfold Lit.index
  split_ifs <;> omega

theorem run_sim (z : T) {n n' : Nat} {f f' : Lit → T} {os : List (LMOp T)} (hr : MapRun z n f os n' f') :
    ∀ {m : LMap T}, m.Sim n f → ∃ m', run z os m = some m' ∧ m'.Sim n' f' := by
  induction hr with
  | nil n f => exact fun h => ⟨_, rfl, h⟩
  | @write n n' f f' os l x hl _ ih =>
    intro m h
    have hi := index_lt.2 hl
    obtain ⟨m', e1, e2⟩ := ih (m := ⟨m.values.set l.index x⟩) (Row.set h hi
      (by rw [Lit.ofIndex_index, Function.update_self]) fun k hk => Function.update_of_ne (fun e => hk (by
        rw [← e, Lit.index_ofIndex])) _ _)
    refine ⟨m', ?_, e2⟩
    simp only [run, step, write]
    rw [if_pos (by rw [Row.length h]; simpa using hi)]
    exact e1
  | @assign n n' f f' os x _ ih =>
    intro m h
    exact ih (m := ⟨List.replicate m.values.length x⟩) (by
      unfold Sim; rw [Row.length h]; exact Row.replicate _ _)
  | @resize n n' f f' os k _ ih =>
    intro m h
    refine ih (m := ⟨resizeL m.values (k * 2) z⟩) ((Row.resize h (k * 2) z).congr fun i hi => ?_)
    simp only
    rw [Lit.ord_ofIndex]
    by_cases e : i / 2 < n
    · rw [if_pos e, if_pos ⟨by omega, hi⟩]
    · rw [if_neg e, if_neg (fun e' => e (by omega))]

theorem run_legal (z : T) : ∀ (os : List (LMOp T)) (n : Nat) (f : Lit → T) (m m' : LMap T), m.Sim n f →
    run z os m = some m' → ∃ n' f', MapRun z n f os n' f'
  | [], n, f, _, _, _, _ => ⟨n, f, .nil n f⟩
  | o :: os, n, f, m, m', h, hr => by
    obtain ⟨m1, e1, e2⟩ := Option.bind_eq_some_iff.1 hr
    cases o with
    | write l x =>
      by_cases hl : l.ord < n
      · obtain ⟨m2, g1, g2⟩ := run_sim z (.write l x hl (.nil _ _)) h
        have : m2 = m1 := by
          simp only [run, e1] at g1
          exact (Option.some.inj g1).symm
        subst this
        obtain ⟨n', f', k⟩ := run_legal z os _ _ m2 m' g2 e2
        exact ⟨n', f', .write l x hl k⟩
      · have hi : ¬ l.index < n * 2 := fun e => hl (index_lt.1 e)
        simp only [step, write] at e1
        rw [if_neg (by rw [Row.length h]; simpa using hi)] at e1
        cases e1
    | assign x =>
      obtain ⟨m2, g1, g2⟩ := run_sim z (.assign x (.nil _ _)) h
      have : m2 = m1 := by
        simp only [run, e1] at g1
        exact (Option.some.inj g1).symm
      subst this
      obtain ⟨n', f', k⟩ := run_legal z os _ _ m2 m' g2 e2
      exact ⟨n', f', .assign x k⟩
    | resize k =>
      obtain ⟨m2, g1, g2⟩ := run_sim z (.resize k (.nil _ _)) h
      have : m2 = m1 := by
        simp only [run, e1] at g1
        exact (Option.some.inj g1).symm
      subst this
      obtain ⟨n', f', k'⟩ := run_legal z os _ _ m2 m' g2 e2
      exact ⟨n', f', .resize k k'⟩

theorem make_sim (n : Nat) (x : T) : (make n x).Sim n fun _ => x := Row.replicate _ _

end LMap

/-- C93. A sequence of calls on a map made for `n` variables stays inside the vector exactly if it only writes literals of the
variables the map has at that time. -/
theorem C93_memory (z x : T) (n : Nat) (os : List (LMOp T)) :
    (∃ m, LMap.run z os (LMap.make n x) = some m) ↔ ∃ n' f', MapRun z n (fun _ => x) os n' f' := by
  constructor
  · rintro ⟨m, h⟩
    exact LMap.run_legal z os n _ _ m (LMap.make_sim n x) h
  · rintro ⟨n', f', h⟩
    obtain ⟨m, h1, -⟩ := LMap.run_sim z h (LMap.make_sim n x)
    exact ⟨m, h1⟩

/-- C93. Afterwards `num_vars` is the number of variables, each literal of a variable is read with its value, no other literal
is inside the vector, and the range from `begin` to `end` has the value of each literal once, the negation of a variable
after the variable. -/
theorem C93_contents (z x : T) (n n' : Nat) (f' : Lit → T) (os : List (LMOp T))
    (h : MapRun z n (fun _ => x) os n' f') :
    ∃ m, LMap.run z os (LMap.make n x) = some m ∧ m.numVars = n' ∧
      (∀ l : Lit, m.read l = if l.ord < n' then some (f' l) else none) ∧
      m.values = (List.range n').flatMap fun o => [f' (Lit.pos o), f' (Lit.pos o).neg] := by
  obtain ⟨m, h1, h2⟩ := LMap.run_sim z h (LMap.make_sim n x)
  refine ⟨m, h1, ?_, fun l => ?_, ?_⟩
  · unfold LMap.numVars
    rw [Row.length h2]; omega
  · unfold LMap.read
    rw [h2 l.index]
    simp only [LMap.index_lt, Lit.ofIndex_index]
  · have hf : ∀ k, Row ((List.range k).flatMap fun o => [f' (Lit.pos o), f' (Lit.pos o).neg]) (k * 2)
        fun i => f' (Lit.ofIndex i) := by
      intro k
      induction k with
      | zero => exact Row.nil _
      | succ k ih =>
        rw [List.range_succ, List.flatMap_append]
        have hl := ih.length
        intro i
        by_cases hi : i < k * 2
        · rw [List.getElem?_append_left (by omega), ih i, if_pos hi, if_pos (by omega)]
        · rw [List.getElem?_append_right (by omega), hl]
          by_cases h0 : i = k * 2
          · subst h0
            rw [if_pos (by omega)]
            simp [Lit.ofIndex]
          · by_cases h3 : i = k * 2 + 1
            · subst h3
              rw [if_pos (by omega)]
              have e1 : (k * 2 + 1) / 2 = k := by omega
              have e2 : ¬ (k * 2 + 1) % 2 = 0 := by omega
              simp [Lit.ofIndex, e1]
            · rw [if_neg (by omega), List.getElem?_eq_none]
              simp; omega
    exact List.ext_getElem? fun i => by rw [h2 i, hf n' i]

/-- Writes of a variable and its negation, shrinking and growing again. -/
example : ∃ f', MapRun 0 2 (fun _ => 9) [.write (Lit.pos 0).neg 5, .write (Lit.pos 1) 6, .resize 1, .resize 2] 2 f' ∧
    f' (Lit.pos 0) = 9 ∧ f' (Lit.pos 0).neg = 5 ∧ f' (Lit.pos 1) = 0 := by
  refine ⟨_, .write _ _ (by decide) (.write _ _ (by decide) (.resize 1 (.resize 2 (.nil _ _)))), ?_⟩
  decide

/-- The first literal outside the map. -/
example : (LMap.run 0 [.write (Lit.pos 2) 1] (LMap.make 2 0)).isNone = true ∧
    (LMap.run 0 [.write (Lit.pos 1).neg 1] (LMap.make 2 0)).isSome = true := by decide

#print axioms C93_memory
#print axioms C93_contents

end Yaga
