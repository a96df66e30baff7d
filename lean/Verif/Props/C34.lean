/-
C34: implied constraints are implied.
-/
import Verif.Proofs.LraExample
import Verif.Proofs.LraImplied

namespace Yaga
open Spec

/-- C34. In every state the theory can reach, an inequality (or the negation of one) whose literal is not
assigned and that is reported as implied is true under every valuation that agrees with the assigned
variables and respects the bounds that are not obsolete.
What is missing: constraints with the predicate `=`, for which the claim is false
(`C34_equality_wrong`, `C34_disequality_wrong`). -/
theorem C34_inequalities_partial (hv : Nat → Nat) (hc : ℚ → Nat) (st : Lra.St) (h : Lra.Reach hv hc st)
    (c : LinCons) (hcons : IsCons st.store c) (hp : c.pred ≠ .eq)
    (hev : evalLit st.models.bools c.lit = none)
    (hi : (st.bnd.isImplied st.store st.models c).2 = true) (σ : Nat → ℚ)
    (hσ : AgreesWith st.models σ)
    (hub : ∀ x, ∀ b ∈ (st.bnd.vb x).ub, b.isObsolete st.store st.models = false → σ x ≤ b.value)
    (hlb : ∀ x, ∀ b ∈ (st.bnd.vb x).lb, b.isObsolete st.store st.models = false → b.value ≤ σ x) :
    ConsTrue st.store c σ := by
  refine Lra.isImplied_sound (Lra.reach_linv h) hcons hp hev hi hσ ?_
  intro up x b hb hl
  cases up with
  | true => have := hub x b hb hl; simp only [dq, if_true, one_mul]; linarith
  | false =>
    have := hlb x b hb hl
    simp only [dq, Bool.false_eq_true, if_false]; linarith

/-- C34. In particular it is true under every valuation that agrees with the assigned variables and
satisfies the constraints on the trail. -/
theorem C34_trail_partial (hv : Nat → Nat) (hc : ℚ → Nat) (st : Lra.St) (h : Lra.Reach hv hc st)
    (c : LinCons) (hcons : IsCons st.store c) (hp : c.pred ≠ .eq)
    (hi : (st.bnd.isImplied st.store st.models c).2 = true) (σ : Nat → ℚ)
    (hσ : AgreesWith st.models σ) (hS : SatTrail st.store st.models σ) :
    ConsTrue st.store c σ := by
  cases hev : evalLit st.models.bools c.lit with
  | none =>
    exact Lra.isImplied_sound (Lra.reach_linv h) hcons hp hev hi hσ
      (fun up x b hb hl => (Lra.bound_sound (Lra.reach_linv h) hb hl hσ hS).1)
  | some v =>
    unfold BState.isImplied at hi
    rw [hev] at hi
    simp only at hi
    rw [hi] at hev
    exact hS c hcons hev

/-- A constraint whose literal has a value is reported as implied if and only if its literal is true. -/
theorem C34_assigned (st : Lra.St) (c : LinCons) (v : Bool)
    (hev : evalLit st.models.bools c.lit = some v) :
    (st.bnd.isImplied st.store st.models c).2 = v := by
  unfold BState.isImplied; rw [hev]

/-- C34 is false for equalities: with `x₀ ≤ 5` on the trail, `x₀ = 5` is reported as implied. -/
theorem C34_equality_wrong :
    ∃ (st : Lra.St) (c : LinCons), Lra.Reach id (fun _ => 0) st ∧ IsCons st.store c ∧
      (st.bnd.isImplied st.store st.models c).2 = true ∧
      ∃ σ, AgreesWith st.models σ ∧ SatTrail st.store st.models σ ∧ ¬ ConsTrue st.store c σ := by
  refine ⟨Lra.after Lra.exEq, (Lra.after Lra.exEq).store.get 1, Lra.reach_exEq, by decide +kernel,
    by decide +kernel, ((Lra.after Lra.exEq).models.rats.setValue 0 0).value, ?_, ?_, ?_⟩
  · intro y hy
    have h0 : (Lra.after Lra.exEq).models.rats.defined 0 = false := by decide +kernel
    have : y ≠ 0 := by rintro rfl; rw [h0] at hy; cases hy
    simp [PModel.setValue, this]
  · intro c hc ht
    have key : ∀ e ∈ (Lra.after Lra.exEq).store.set, ∀ c ∈ [e, e.neg],
        evalLit (Lra.after Lra.exEq).models.bools c.lit = some true →
        (Lra.after Lra.exEq).store.eval ((Lra.after Lra.exEq).models.rats.setValue 0 0) c = true := by decide +kernel
    obtain ⟨e, he, hce⟩ := hc
    have := key e he c (by rcases hce with rfl | rfl <;> simp) ht
    rw [LinStore.eval_iff] at this
    exact this
  · have key : ¬ (Lra.after Lra.exEq).store.eval ((Lra.after Lra.exEq).models.rats.setValue 0 0) ((Lra.after Lra.exEq).store.get 1) = true := by
      decide +kernel
    rw [LinStore.eval_iff] at key
    exact key

/-- C34 is false for disequalities: with `x₀ ≥ 4` on the trail, `x₀ ≠ 5` is reported as implied. -/
theorem C34_disequality_wrong :
    ∃ (st : Lra.St) (c : LinCons), Lra.Reach id (fun _ => 0) st ∧ IsCons st.store c ∧
      (st.bnd.isImplied st.store st.models c).2 = true ∧
      ∃ σ, AgreesWith st.models σ ∧ SatTrail st.store st.models σ ∧ ¬ ConsTrue st.store c σ := by
  refine ⟨Lra.after Lra.exNe, ((Lra.after Lra.exNe).store.get 1).neg, Lra.reach_exNe, by decide +kernel,
    by decide +kernel, ((Lra.after Lra.exNe).models.rats.setValue 0 5).value, ?_, ?_, ?_⟩
  · intro y hy
    have h0 : (Lra.after Lra.exNe).models.rats.defined 0 = false := by decide +kernel
    have : y ≠ 0 := by rintro rfl; rw [h0] at hy; cases hy
    simp [PModel.setValue, this]
  · intro c hc ht
    have key : ∀ e ∈ (Lra.after Lra.exNe).store.set, ∀ c ∈ [e, e.neg],
        evalLit (Lra.after Lra.exNe).models.bools c.lit = some true →
        (Lra.after Lra.exNe).store.eval ((Lra.after Lra.exNe).models.rats.setValue 0 5) c = true := by decide +kernel
    obtain ⟨e, he, hce⟩ := hc
    have := key e he c (by rcases hce with rfl | rfl <;> simp) ht
    rw [LinStore.eval_iff] at this
    exact this
  · have key : ¬ (Lra.after Lra.exNe).store.eval ((Lra.after Lra.exNe).models.rats.setValue 0 5)
        ((Lra.after Lra.exNe).store.get 1).neg = true := by
      decide +kernel
    rw [LinStore.eval_iff] at key
    exact key

/-- `x₀ ≤ 2` and `x₁ < 3` imply `x₀ + x₁ ≤ 6`. -/
example : IsCons (Lra.after Lra.exImplied).store ((Lra.after Lra.exImplied).store.get 2) ∧
    ((Lra.after Lra.exImplied).store.get 2).pred ≠ .eq ∧
    evalLit (Lra.after Lra.exImplied).models.bools ((Lra.after Lra.exImplied).store.get 2).lit = none ∧
    ((Lra.after Lra.exImplied).bnd.isImplied (Lra.after Lra.exImplied).store
      (Lra.after Lra.exImplied).models ((Lra.after Lra.exImplied).store.get 2)).2 = true := by
  decide +kernel

#print axioms C34_inequalities_partial
#print axioms C34_trail_partial
#print axioms C34_assigned
#print axioms C34_equality_wrong
#print axioms C34_disequality_wrong

end Yaga
