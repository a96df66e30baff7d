/-
Which bounds `update` and `deduce` record, and that they note the variable.
-/
import Verif.Proofs.LraComp

set_option linter.unusedSimpArgs false
set_option linter.unusedVariables false

namespace Yaga
open Spec
open LinStore (delta WfTerms Inv Kept Made)

namespace Lra

/-- Upper bounds, lower bounds, and disallowed values. -/
def lst (b : BState) : Option Bool → Nat → List Bnd
  | some up, x => stk b up x
  | none, x => (b.vb x).dis

/-- Elements that are new satisfy `P`, and their variable is noted. -/
def NewIn (P : Bnd → Prop) (b b' : BState) : Prop :=
  (∀ x ∈ b.updated, x ∈ b'.updated) ∧
  ∀ k x, ∀ e ∈ lst b' k x, e ∈ lst b k x ∨ (x ∈ b'.updated ∧ P e)

theorem NewIn.refl (P : Bnd → Prop) (b : BState) : NewIn P b b := ⟨fun _ h => h, fun _ _ _ h => Or.inl h⟩

theorem NewIn.trans {P : Bnd → Prop} {a b c : BState} (h1 : NewIn P a b) (h2 : NewIn P b c) : NewIn P a c := by
  refine ⟨fun x hx => h2.1 x (h1.1 x hx), fun k x e he => ?_⟩
  rcases h2.2 k x e he with h | h
  · rcases h1.2 k x e h with h | ⟨h, hp⟩
    · exact Or.inl h
    · exact Or.inr ⟨h2.1 x h, hp⟩
  · exact Or.inr h

theorem NewIn.mono {P Q : Bnd → Prop} {a b : BState} (h : NewIn P a b) (hp : ∀ e, P e → Q e) : NewIn Q a b :=
  ⟨h.1, fun k x e he => (h.2 k x e he).imp id fun ⟨h1, h2⟩ => ⟨h1, hp e h2⟩⟩

theorem Shrunk.lst {s : LinStore} {m : LModels} {b b' : BState} (h : Shrunk s m b b') (k : Option Bool) (x : Nat) :
    ∀ e ∈ lst b' k x, e ∈ lst b k x := by
  intro e he
  cases k with
  | none => exact h.dis x e he
  | some up => exact (h.sub up x).subset he

theorem popObs_sub (s : LinStore) (m : LModels) (l : List Bnd) : ∀ e ∈ VBounds.popObs s m l, e ∈ l := by
  induction l with
  | nil => intro e he; exact he
  | cons b l ih =>
    intro e he
    unfold VBounds.popObs at he
    split at he
    · exact List.mem_cons_of_mem _ (ih e he)
    · exact he

theorem lst_put (b : BState) (x : Nat) (v : VBounds) (k : Option Bool) (y : Nat) :
    lst (b.put x v) k y = if y = x then (match k with
      | some true => v.ub
      | some false => v.lb
      | none => v.dis) else lst b k y := by
  rcases k with _ | _ | _
  · show ((b.put x v).vb y).dis = _
    rw [vb_put]; split <;> rfl
  · show stk (b.put x v) false y = _
    rw [stk_put]; rfl
  · show stk (b.put x v) true y = _
    rw [stk_put]; rfl

theorem add_new (s : LinStore) (m : LModels) (b : BState) (up : Bool) (x : Nat) (v : Bnd) :
    (if up then b.addUpper s m x v else b.addLower s m x v).1.updated = b.updated ∧
    ∀ k y, ∀ e ∈ lst (if up then b.addUpper s m x v else b.addLower s m x v).1 k y, e ∈ lst b k y ∨
      (y = x ∧ e = v ∧ (if up then b.addUpper s m x v else b.addLower s m x v).2 = true) := by
  have key : ∀ (w : VBounds) (f : Bool), (∀ e ∈ w.ub, e ∈ (b.vb x).ub ∨ (e = v ∧ f = true)) →
      (∀ e ∈ w.lb, e ∈ (b.vb x).lb ∨ (e = v ∧ f = true)) → (∀ e ∈ w.dis, e ∈ (b.vb x).dis) →
      ∀ k y, ∀ e ∈ lst (b.put x w) k y, e ∈ lst b k y ∨ (y = x ∧ e = v ∧ f = true) := by
    intro w f h1 h2 h3 k y e he
    rw [lst_put] at he
    by_cases hy : y = x
    · subst hy
      rw [if_pos rfl] at he
      rcases k with _ | _ | _
      · exact Or.inl (h3 e he)
      · exact (h2 e he).imp id fun h => ⟨rfl, h⟩
      · exact (h1 e he).imp id fun h => ⟨rfl, h⟩
    · rw [if_neg hy] at he
      exact Or.inl he
  cases up
  · simp only [Bool.false_eq_true, if_false]
    refine ⟨rfl, key _ _ ?_ ?_ ?_⟩
    · intro e he
      unfold VBounds.addLower at he
      simp only at he
      split at he <;> exact Or.inl he
    · intro e he
      unfold BState.addLower; unfold VBounds.addLower at he ⊢
      simp only at he ⊢
      split at he
      · rename_i hc
        rcases List.mem_cons.mp he with rfl | he
        · exact Or.inr ⟨rfl, by rw [if_pos hc]⟩
        · exact Or.inl (popObs_sub _ _ _ e he)
      · exact Or.inl (popObs_sub _ _ _ e he)
    · intro e he
      unfold VBounds.addLower at he
      simp only at he
      split at he <;> exact he
  · simp only [if_true]
    refine ⟨rfl, key _ _ ?_ ?_ ?_⟩
    · intro e he
      unfold BState.addUpper; unfold VBounds.addUpper at he ⊢
      simp only at he ⊢
      split at he
      · rename_i hc
        rcases List.mem_cons.mp he with rfl | he
        · exact Or.inr ⟨rfl, by rw [if_pos hc]⟩
        · exact Or.inl (popObs_sub _ _ _ e he)
      · exact Or.inl (popObs_sub _ _ _ e he)
    · intro e he
      unfold VBounds.addUpper at he
      simp only at he
      split at he <;> exact Or.inl he
    · intro e he
      unfold VBounds.addUpper at he
      simp only at he
      split at he <;> exact he

theorem addInequality_new (s : LinStore) (m : LModels) (b : BState) (x : Nat) (v : Bnd) :
    (b.addInequality s m x v).1.updated = b.updated ∧
    ∀ k y, ∀ e ∈ lst (b.addInequality s m x v).1 k y, e ∈ lst b k y ∨ (y = x ∧ e = v) := by
  refine ⟨rfl, fun k y e he => ?_⟩
  cases k with
  | some up => left; show e ∈ stk b up y; rw [← stk_addInequality s m b x v]; exact he
  | none =>
    have he' : e ∈ ((b.put x ((b.vb x).addInequality s m v).1).vb y).dis := he
    rw [vb_put] at he'
    by_cases hy : y = x
    · subst hy
      rw [if_pos rfl] at he'
      unfold VBounds.addInequality at he'
      simp only at he'
      split at he'
      · rcases List.mem_append.mp he' with h | h
        · exact Or.inl (List.mem_of_mem_filter h)
        · exact Or.inr ⟨rfl, List.mem_singleton.mp h⟩
      · exact Or.inl (List.mem_of_mem_filter he')
    · rw [if_neg hy] at he'
      exact Or.inl he'

theorem lst_note (b : BState) (x : Nat) (c : Bool) (k : Option Bool) (y : Nat) :
    lst (b.note x c) k y = lst b k y := by
  unfold BState.note
  split
  · rcases k with _ | _ | _ <;> rfl
  · rfl

theorem updated_note (b : BState) (x : Nat) (c : Bool) :
    (∀ y ∈ b.updated, y ∈ (b.note x c).updated) ∧ (c = true → x ∈ (b.note x c).updated) := by
  unfold BState.note
  split
  · exact ⟨fun y hy => List.mem_append_left _ hy, fun _ => List.mem_append_right _ (List.mem_singleton.mpr rfl)⟩
  · rename_i h; exact ⟨fun y hy => hy, fun hc => absurd hc h⟩

/-- One bound is added and its variable noted. -/
theorem newIn_add {P : Bnd → Prop} (s : LinStore) (m : LModels) (b : BState) (up : Bool) (x : Nat) (v : Bnd)
    (hp : P v) : NewIn P b ((if up then b.addUpper s m x v else b.addLower s m x v).1.note x
      (if up then b.addUpper s m x v else b.addLower s m x v).2) := by
  obtain ⟨h1, h2⟩ := add_new s m b up x v
  generalize (if up then b.addUpper s m x v else b.addLower s m x v) = r at *
  obtain ⟨u1, u2⟩ := updated_note r.1 x r.2
  refine ⟨fun y hy => u1 y (by rw [h1]; exact hy), fun k y e he => ?_⟩
  rw [lst_note] at he
  rcases h2 k y e he with h | ⟨rfl, rfl, h⟩
  · exact Or.inl h
  · exact Or.inr ⟨u2 h, hp⟩

theorem newIn_update (s : LinStore) (m : LModels) (b : BState) (c : LinCons) :
    NewIn (fun e => (e.reason = c ∨ e.reason = c.neg) ∧ e.deps = [] ∧
      e.var = ((s.terms c).head?.getD (0, 1)).1) b (b.update s m c) := by
  unfold BState.update
  simp only
  set p := (s.terms c).head?.getD (0, 1) with hp
  set d := (if evalLit m.bools c.lit = some true then c else c.neg) with hd
  set v := Bnd.make s m p.1 (s.impliedValue m.rats c / p.2) d [] with hv
  have hP : (v.reason = c ∨ v.reason = c.neg) ∧ v.deps = [] ∧ v.var = p.1 := by
    refine ⟨?_, rfl, rfl⟩
    show d = c ∨ d = c.neg
    rw [hd]; split
    · exact Or.inl rfl
    · exact Or.inr rfl
  split
  · obtain ⟨h1, h2⟩ := add_new s m b false p.1 v
    simp only [Bool.false_eq_true, if_false] at h1 h2
    generalize b.addLower s m p.1 v = r at *
    obtain ⟨h3, h4⟩ := add_new s m r.1 true p.1 v
    simp only [if_true] at h3 h4
    generalize r.1.addUpper s m p.1 v = r2 at *
    obtain ⟨u1, u2⟩ := updated_note r2.1 p.1 (r.2 || r2.2)
    refine ⟨fun y hy => u1 y (by rw [h3, h1]; exact hy), fun k y e he => ?_⟩
    rw [lst_note] at he
    rcases h4 k y e he with h | ⟨hy, hv2, h⟩
    · rcases h2 k y e h with h | ⟨hy, hv2, h⟩
      · exact Or.inl h
      · rw [hy, hv2]; exact Or.inr ⟨u2 (by rw [h]; rfl), hP⟩
    · rw [hy, hv2]; exact Or.inr ⟨u2 (by rw [h]; simp), hP⟩
  · split
    · obtain ⟨h1, h2⟩ := addInequality_new s m b p.1 v
      generalize b.addInequality s m p.1 v = r at *
      obtain ⟨u1, u2⟩ := updated_note r.1 p.1 true
      refine ⟨fun y hy => u1 y (by rw [h1]; exact hy), fun k y e he => ?_⟩
      rw [lst_note] at he
      rcases h2 k y e he with h | ⟨rfl, rfl⟩
      · exact Or.inl h
      · exact Or.inr ⟨u2 rfl, hP⟩
    · split
      · exact newIn_add s m b false p.1 v hP
      · exact newIn_add s m b true p.1 v hP

/-! ### Deduced bounds -/

theorem newIn_query (P : Bnd → Prop) (s : LinStore) (m : LModels) (b : BState) (x : Nat) :
    NewIn P b (b.upper s m x).1 ∧ NewIn P b (b.lower s m x).1 := by
  constructor
  · exact ⟨fun _ h => h, fun k y e he => Or.inl ((shrunk_query s m b true x).lst k y e he)⟩
  · exact ⟨fun _ h => h, fun k y e he => Or.inl ((shrunk_query s m b false x).lst k y e he)⟩

theorem ineqLoop_new (P : Bnd → Prop) (s : LinStore) (m : LModels) (c : LinCons) : ∀ (ts : List (Nat × ℚ)) (b : BState)
    (d : BState.Ded), NewIn P b (BState.ineqLoop s m c ts b d).1 ∧
      ∀ d', (BState.ineqLoop s m c ts b d).2 = some d' → d'.num = d.num ∨ ∃ p ∈ ts, m.rats.defined p.1 = false := by
  intro ts
  induction ts with
  | nil => intro b d; exact ⟨NewIn.refl P b, fun d' h => by cases h; exact Or.inl rfl⟩
  | cons p ts ih =>
    intro b d
    unfold BState.ineqLoop
    by_cases hp : m.rats.defined p.1 = true
    · rw [if_pos hp]
      obtain ⟨h1, h2⟩ := ih b (d.assigned p.2 (m.rats.value p.1))
      refine ⟨h1, fun d' hd' => ?_⟩
      rcases h2 d' hd' with h | ⟨q, hq, h⟩
      · exact Or.inl h
      · exact Or.inr ⟨q, List.mem_cons_of_mem _ hq, h⟩
    · rw [if_neg hp]
      have hr : NewIn P b (if BState.upward c p.2 then b.lower s m p.1 else b.upper s m p.1).1 := by
        split
        · exact (newIn_query P s m b p.1).2
        · exact (newIn_query P s m b p.1).1
      generalize (if BState.upward c p.2 then b.lower s m p.1 else b.upper s m p.1) = r at *
      simp only
      split
      · exact ⟨hr, fun d' h => by cases h⟩
      · exact ⟨hr.trans (ih _ _).1, fun d' h => Or.inr ⟨p, List.mem_cons_self, by simpa using hp⟩⟩

theorem eqLoop_new (P : Bnd → Prop) (s : LinStore) (m : LModels) (c : LinCons) : ∀ (ts : List (Nat × ℚ)) (b : BState)
    (d0 d1 : BState.Ded), NewIn P b (BState.eqLoop s m c ts b d0 d1).1 ∧
      ∀ d', (BState.eqLoop s m c ts b d0 d1).2 = some d' →
        (d'.1.num = d0.num ∧ d'.2.num = d1.num) ∨ ∃ p ∈ ts, m.rats.defined p.1 = false := by
  intro ts
  induction ts with
  | nil => intro b d0 d1; exact ⟨NewIn.refl P b, fun d' h => by cases h; exact Or.inl ⟨rfl, rfl⟩⟩
  | cons p ts ih =>
    intro b d0 d1
    unfold BState.eqLoop
    by_cases hp : m.rats.defined p.1 = true
    · rw [if_pos hp]
      obtain ⟨h1, h2⟩ := ih b (d0.assigned p.2 (m.rats.value p.1)) (d1.assigned p.2 (m.rats.value p.1))
      refine ⟨h1, fun d' hd' => ?_⟩
      rcases h2 d' hd' with h | ⟨q, hq, h⟩
      · exact Or.inl h
      · exact Or.inr ⟨q, List.mem_cons_of_mem _ hq, h⟩
    · rw [if_neg hp]
      have hr := (newIn_query P s m b p.1).1
      generalize b.upper s m p.1 = r at *
      have hr2 := (newIn_query P s m r.1 p.1).2
      simp only
      generalize r.1.lower s m p.1 = r2 at *
      split <;> split
      all_goals first
        | exact ⟨hr.trans hr2, fun d' h => by cases h⟩
        | exact ⟨(hr.trans hr2).trans (ih _ _ _).1, fun d' h => Or.inr ⟨p, List.mem_cons_self, by simpa using hp⟩⟩

theorem newIn_deduce (s : LinStore) (m : LModels) (b : BState) (c : LinCons) :
    NewIn (fun e => e.reason = c ∧ ∃ p ∈ s.terms c, m.rats.defined p.1 = false) b (b.deduce s m c) := by
  set P : Bnd → Prop := fun e => e.reason = c ∧ ∃ p ∈ s.terms c, m.rats.defined p.1 = false with hP
  unfold BState.deduce
  split
  · exact NewIn.refl _ _
  · split
    · split
      · exact NewIn.refl _ _
      · unfold BState.deduceEq
        simp only
        obtain ⟨h1, h2⟩ := eqLoop_new P s m c (s.terms c) b ⟨c.rhs, [], 0, 0, 0⟩ ⟨c.rhs, [], 0, 0, 0⟩
        generalize BState.eqLoop s m c (s.terms c) b ⟨c.rhs, [], 0, 0, 0⟩ ⟨c.rhs, [], 0, 0, 0⟩ = r at *
        have fin : ∀ (b : BState) (d : BState.Ded) (f : Bool), (d.num = 1 → ∃ p ∈ s.terms c, m.rats.defined p.1 = false) →
            NewIn P b (BState.eqFinish s m c b d f) := by
          intro b d f hd
          unfold BState.eqFinish
          split
          · rename_i hc
            have hv : P (Bnd.make s m d.var (d.bound / d.coef) c d.deps) := ⟨rfl, hd hc.2⟩
            dsimp only
            split
            · exact newIn_add s m b false _ _ hv
            · exact newIn_add s m b true _ _ hv
          · exact NewIn.refl _ _
        cases hr : r.2 with
        | none => exact h1
        | some d =>
          have h3 := h2 d hr
          refine (h1.trans (fin _ _ _ ?_)).trans (fin _ _ _ ?_)
          · intro hn
            rcases h3 with ⟨h, _⟩ | h
            · rw [hn] at h; cases h
            · exact h
          · intro hn
            rcases h3 with ⟨_, h⟩ | h
            · rw [hn] at h; cases h
            · exact h
    · unfold BState.deduceIneq
      simp only
      obtain ⟨h1, h2⟩ := ineqLoop_new P s m c (s.terms c) b ⟨c.rhs, [], 0, 0, 0⟩
      generalize BState.ineqLoop s m c (s.terms c) b ⟨c.rhs, [], 0, 0, 0⟩ = r at *
      cases hr : r.2 with
      | none => exact h1
      | some d =>
        dsimp only
        split
        · rename_i hc
          have hv : P (Bnd.make s m d.var (d.bound / d.coef) c d.deps) := by
            refine ⟨rfl, ?_⟩
            rcases h2 d hr with h | h
            · rw [hc.2] at h; cases h
            · exact h
          refine h1.trans ?_
          split
          · exact newIn_add s m r.1 true _ _ hv
          · exact newIn_add s m r.1 false _ _ hv
        · exact h1

end Lra
end Yaga
