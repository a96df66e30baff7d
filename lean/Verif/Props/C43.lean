/-
C43: scoping of `let`.
-/
import Verif.Proofs.Let

namespace Yaga

open Spec

variable {τ : Type}

/-- C43: after any sequence of entering scopes, binding names (with any shadowing, also in the same
scope) and leaving scopes, every name has the value of its innermost binding in scope, and the operations
fail exactly when a scope is left that was not entered. -/
theorem C43_innermost (ops : List (LetOp τ)) :
    match (Scopes.mk [] [] : Scopes τ).after ops with
    | none => (LetRecords.init : LetRecords τ).after ops = none
    | some s => ∃ r, (LetRecords.init : LetRecords τ).after ops = some r ∧
        ∀ n, r.get n = innermost s.all n := by
  have := rep_init.after ops
  revert this
  cases (Scopes.mk [] [] : Scopes τ).after ops with
  | none => exact id
  | some s => rintro ⟨r, h1, h2⟩; exact ⟨r, h1, h2.get⟩

/-- C43: whatever happened before, a `let` whose bindings are `names`, with any balanced operations in its
body, gives every name inside the body its value from `names` (the last one) or else its value before,
and leaving it restores exactly the values before — also for all further operations. -/
theorem C43_let (before : List (LetOp τ)) {r : LetRecords τ}
    (hr : (LetRecords.init : LetRecords τ).after before = some r) (names : List (String × τ))
    {inner : List (LetOp τ)} (hi : Balanced inner) :
    ∃ r1 r2, (r.addLetBindings names).after inner = some r1 ∧
      (∀ n, r1.get n = (innermost names.reverse n).or (r.get n)) ∧
      r1.popFrame = some r2 ∧
      ∀ later n, (r2.after later).map (fun x => x.get n) = (r.after later).map (fun x => x.get n) := by
  have h0 := rep_init.after (τ := τ) before
  cases hs : (Scopes.mk [] [] : Scopes τ).after before with
  | none => rw [hs] at h0; rw [hr] at h0; cases h0
  | some s =>
    rw [hs] at h0
    obtain ⟨r', h1, h2⟩ := h0
    rw [hr] at h1
    cases h1
    have e : ∀ (bs : List (String × τ)) (x : LetRecords τ),
        x.after (bs.map fun b => .add b.1 b.2) = some (bs.foldl (fun r b => r.addBinding b.1 b.2) x) := by
      intro bs
      induction bs with
      | nil => intro x; rfl
      | cons b bs ih => intro x; exact ih _
    have ha : (r.pushFrame).after (names.map fun b => .add b.1 b.2) = some (r.addLetBindings names) :=
      e names _
    have hp : Rep r.pushFrame ⟨[] :: s.frames, s.top⟩ := by
      obtain ⟨r', g1, g2⟩ := h2.step .push
      cases g1
      exact g2
    have hq := hp.after (names.map fun b => .add b.1 b.2)
    rw [after_adds] at hq
    obtain ⟨r', g1, g2⟩ := hq
    rw [ha] at g1
    cases g1
    have hin := g2.after inner
    rw [balanced_after hi] at hin
    obtain ⟨r1, k1, k2⟩ := hin
    obtain ⟨r2, p1, p2⟩ := k2.step .pop
    refine ⟨r1, r2, k1, ?_, p1, ?_⟩
    · intro n
      rw [k2.get, h2.get]
      simp only [Scopes.all, List.flatten_cons, List.append_nil, List.append_assoc]
      generalize names.reverse = l
      induction l with
      | nil => simp [innermost]
      | cons b l ih =>
        rw [List.cons_append, innermost, innermost]
        split
        · simp
        · exact ih
    · intro later n
      have a1 := p2.after later
      have a2 := h2.after later
      have : (⟨s.frames, s.top⟩ : Scopes τ) = s := rfl
      rw [this] at a1
      cases hl : s.after later with
      | none => rw [hl] at a1 a2; rw [a1, a2]
      | some s' =>
        rw [hl] at a1 a2
        obtain ⟨x, x1, x2⟩ := a1
        obtain ⟨y, y1, y2⟩ := a2
        rw [x1, y1]
        simp only [Option.map_some]
        rw [x2.get, y2.get]

/-- Hypotheses of `C43_let`: `x` bound outside, a `let` that binds `y` and shadows `x`, with an inner `let`
that shadows `x` again. -/
example : let before : List (LetOp Nat) := [.push, .add "x" 1]
    let inner : List (LetOp Nat) := [.push, .add "x" 4, .pop]
    Balanced inner ∧
    (((LetRecords.init : LetRecords Nat).after before).map fun r => r.get "x") = some (some 1) ∧
    ((((LetRecords.init : LetRecords Nat).after before).bind fun r =>
      (r.addLetBindings [("x", 2), ("y", 3)]).after inner).map fun r => (r.get "x", r.get "y")) =
        some (some 2, some 3) ∧
    ((((LetRecords.init : LetRecords Nat).after before).bind fun r =>
      ((r.addLetBindings [("x", 2), ("y", 3)]).after inner).bind fun r => r.popFrame).map
        fun r => (r.get "x", r.get "y")) = some (some 1, none) := by
  refine ⟨?_, by decide, by decide, by decide⟩
  exact Balanced.scope [("x", 4)] .nil .nil

#print axioms C43_innermost
#print axioms C43_let

end Yaga
