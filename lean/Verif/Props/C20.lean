/-
C20: rational canonical form.
-/
import Verif.Proofs.LongFractionMisc

namespace Yaga
open Spec

/-- C20. Every computation that does not divide by zero runs without undefined behaviour, yields an
object in canonical form (lowest terms, positive denominator, word representation whenever the value
fits, both parts equal when both are valid) and denotes the exact value. The computation may be any
nesting of constructors, operators, assigning operators and rounding functions. -/
theorem C20_computations_canonical : ∀ (e : FExpr) (v : ℚ), fden e = some v →
    ∃ c, e.run = some c ∧ Canonical c ∧ fval c = v := by
  have bin : ∀ {a b : FExpr} {f : LF → LF → Option LF} {g : ℚ → ℚ → ℚ} {v : ℚ},
      (∀ v, fden a = some v → ∃ c, a.run = some c ∧ Canonical c ∧ fval c = v) →
      (∀ v, fden b = some v → ∃ c, b.run = some c ∧ Canonical c ∧ fval c = v) →
      (∀ x y : LF, Canonical x → Canonical y → ∃ c, f x y = some c ∧ Canonical c ∧
        fval c = g (fval x) (fval y)) →
      (do pure (g (← fden a) (← fden b)) : Option ℚ) = some v →
      ∃ c, (do f (← a.run) (← b.run) : Option LF) = some c ∧ Canonical c ∧ fval c = v := by
    intro a b f g v ha hb hf h
    simp only [Option.bind_eq_bind, Option.bind_eq_some_iff, Option.pure_def, Option.some.injEq] at h
    obtain ⟨x, hx, y, hy, h⟩ := h
    obtain ⟨p, p1, p2, p3⟩ := ha x hx
    obtain ⟨q, q1, q2, q3⟩ := hb y hy
    obtain ⟨c, c1, c2, c3⟩ := hf p q p2 q2
    refine ⟨c, ?_, c2, ?_⟩
    · rw [p1, q1]; exact c1
    · rw [c3, p3, q3, h]
  have bindiv : ∀ {a b : FExpr} {f : LF → LF → Option LF} {v : ℚ},
      (∀ v, fden a = some v → ∃ c, a.run = some c ∧ Canonical c ∧ fval c = v) →
      (∀ v, fden b = some v → ∃ c, b.run = some c ∧ Canonical c ∧ fval c = v) →
      (∀ x y : LF, Canonical x → Canonical y → fval y ≠ 0 → ∃ c, f x y = some c ∧ Canonical c ∧
        fval c = fval x / fval y) →
      (do
        let x ← fden a
        let y ← fden b
        if y = 0 then none else pure (x / y) : Option ℚ) = some v →
      ∃ c, (do f (← a.run) (← b.run) : Option LF) = some c ∧ Canonical c ∧ fval c = v := by
    intro a b f v ha hb hf h
    simp only [Option.bind_eq_bind, Option.bind_eq_some_iff] at h
    obtain ⟨x, hx, y, hy, h⟩ := h
    by_cases hy0 : y = 0
    · rw [if_pos hy0] at h; cases h
    · rw [if_neg hy0] at h
      simp only [Option.pure_def, Option.some.injEq] at h
      obtain ⟨p, p1, p2, p3⟩ := ha x hx
      obtain ⟨q, q1, q2, q3⟩ := hb y hy
      obtain ⟨c, c1, c2, c3⟩ := hf p q p2 q2 (by rw [q3]; exact hy0)
      refine ⟨c, ?_, c2, ?_⟩
      · rw [p1, q1]; exact c1
      · rw [c3, p3, q3, h]
  have un : ∀ {a : FExpr} {f : LF → Option LF} {g : ℚ → ℚ} {v : ℚ},
      (∀ v, fden a = some v → ∃ c, a.run = some c ∧ Canonical c ∧ fval c = v) →
      (∀ x : LF, Canonical x → ∃ c, f x = some c ∧ Canonical c ∧ fval c = g (fval x)) →
      (do pure (g (← fden a)) : Option ℚ) = some v →
      ∃ c, (do f (← a.run) : Option LF) = some c ∧ Canonical c ∧ fval c = v := by
    intro a f g v ha hf h
    simp only [Option.bind_eq_bind, Option.bind_eq_some_iff, Option.pure_def, Option.some.injEq] at h
    obtain ⟨x, hx, h⟩ := h
    obtain ⟨p, p1, p2, p3⟩ := ha x hx
    obtain ⟨c, c1, c2, c3⟩ := hf p p2
    refine ⟨c, ?_, c2, ?_⟩
    · rw [p1]; exact c1
    · rw [c3, p3, h]
  intro e
  induction e with
  | word n =>
    intro v h
    simp only [fden] at h
    by_cases hr : -2 ^ 31 ≤ n ∧ n < 2 ^ 31
    · rw [if_pos hr] at h
      have hr' : LF.wmin ≤ n ∧ n ≤ LF.wmax := by unfold LF.wmin LF.wmax; omega
      obtain ⟨g1, g2⟩ := LF.ofWord_canonical hr'.1 hr'.2
      refine ⟨_, ?_, g1, by rw [g2]; exact Option.some.inj h⟩
      simp only [FExpr.run]
      rw [if_pos hr']
    · rw [if_neg hr] at h; cases h
  | uword n =>
    intro v h
    simp only [fden] at h
    by_cases hr : 0 ≤ n ∧ n < 2 ^ 32
    · rw [if_pos hr] at h
      have hr' : 0 ≤ n ∧ n ≤ LF.uwmax := by unfold LF.uwmax; omega
      obtain ⟨g1, g2⟩ := LF.ofUword_canonical hr.1 hr.2
      refine ⟨_, ?_, g1, by rw [g2]; exact Option.some.inj h⟩
      simp only [FExpr.run]
      rw [if_pos hr']
    · rw [if_neg hr] at h; cases h
  | str r =>
    intro v h
    obtain ⟨g1, g2⟩ := LF.ofString_canonical r
    exact ⟨_, rfl, g1, by rw [g2]; exact Option.some.inj h⟩
  | add a b iha ihb => intro v h; exact bin iha ihb (fun x y hx hy => LF.add_exact hx hy) h
  | sub a b iha ihb => intro v h; exact bin iha ihb (fun x y hx hy => LF.sub_exact hx hy) h
  | mul a b iha ihb => intro v h; exact bin iha ihb (fun x y hx hy => LF.mul_exact hx hy) h
  | addA a b iha ihb => intro v h; exact bin iha ihb (fun x y hx hy => LF.addA_exact hx hy) h
  | subA a b iha ihb => intro v h; exact bin iha ihb (fun x y hx hy => LF.subA_exact hx hy) h
  | mulA a b iha ihb => intro v h; exact bin iha ihb (fun x y hx hy => LF.mulA_exact hx hy) h
  | div a b iha ihb => intro v h; exact bindiv iha ihb (fun x y hx hy h0 => LF.div_exact hx hy h0) h
  | divA a b iha ihb => intro v h; exact bindiv iha ihb (fun x y hx hy h0 => LF.divA_exact hx hy h0) h
  | neg a ih => intro v h; exact un (g := fun x => -x) ih (fun x hx => LF.neg_exact hx) h
  | negate a ih =>
    intro v h
    exact un (f := fun x => some x.negate) (g := fun x => -x) ih
      (fun x hx => ⟨_, rfl, LF.negate_exact hx⟩) h
  | inverse a ih =>
    intro v h
    simp only [fden, Option.bind_eq_bind, Option.bind_eq_some_iff] at h
    obtain ⟨x, hx, h⟩ := h
    by_cases hx0 : x = 0
    · rw [if_pos hx0] at h; cases h
    · rw [if_neg hx0] at h
      simp only [Option.pure_def, Option.some.injEq] at h
      obtain ⟨p, p1, p2, p3⟩ := ih x hx
      obtain ⟨c, c1, c2, c3⟩ := LF.inverse_exact p2 (by rw [p3]; exact hx0)
      refine ⟨c, ?_, c2, by rw [c3, p3, h]⟩
      simp only [FExpr.run, p1]
      exact c1
  | floor a ih =>
    intro v h
    exact un (g := fun x => ((⌊x⌋ : Int) : ℚ)) ih (fun x hx => LF.floor_exact hx) h
  | ceil a ih =>
    intro v h
    exact un (g := fun x => ((⌈x⌉ : Int) : ℚ)) ih (fun x hx => LF.ceil_exact hx) h
  | copy a ih =>
    intro v h
    obtain ⟨p, p1, p2, p3⟩ := ih v h
    obtain ⟨g1, g2⟩ := LF.copy_canonical p2
    refine ⟨_, ?_, g1, g2.trans p3⟩
    simp only [FExpr.run, p1]
    rfl
  | cached a ih =>
    intro v h
    obtain ⟨p, p1, p2, p3⟩ := ih v h
    obtain ⟨g1, g2⟩ := LF.ensureMpq_canonical p2
    refine ⟨_, ?_, g1, g2.trans p3⟩
    simp only [FExpr.run, p1]
    rfl

/-- C20. In canonical form equal values have equal representations: both use words, with the same
numerator and denominator, or both use GMP with the same parts; and they hash equally. -/
theorem C20_representation_unique (a b : LF) (ha : Canonical a) (hb : Canonical b)
    (e : fval a = fval b) (limbs : Int → List Nat) :
    a.wv = b.wv ∧ (a.wv = true → a.num = b.num ∧ a.den = b.den) ∧ (a.wv = false → a.q = b.q) ∧
    LF.hash limbs a = LF.hash limbs b := by
  obtain ⟨h1, h2, h3⟩ := LF.canonical_unique ha hb e
  refine ⟨h1, h2, fun hw => ?_, LF.hash_eq limbs ha hb e⟩
  have hma : a.mv = true := by
    rcases ha.valid with g | g
    · rw [g] at hw; cases hw
    · exact g
  have hmb : b.mv = true := by
    rcases hb.valid with g | g
    · rw [h1, g] at hw; cases hw
    · exact g
  unfold LF.ensureMpq at h3
  rw [if_pos hma, if_pos hmb] at h3
  exact h3

/-- C20. `isZero` and `isOne` are exact. -/
theorem C20_tests_exact (a : LF) (ha : Canonical a) :
    (a.isZero = true ↔ fval a = 0) ∧ (a.isOne = true ↔ fval a = 1) :=
  ⟨LF.isZero_exact ha, LF.isOne_exact ha⟩

/-- An instance: (2^31 - 1 + 1) / 2^31 goes through the GMP representation and comes back as the word
1/1, on which `isOne` answers true. -/
example : (FExpr.div (.add (.word 2147483647) (.word 1)) (.neg (.word (-2147483648)))).run.map LF.isOne =
    some true := by decide +kernel

example : fden (.div (.add (.word 2147483647) (.word 1)) (.uword 2147483648)) = some 1 := by
  norm_num [fden]

#print axioms C20_computations_canonical
#print axioms C20_representation_unique
#print axioms C20_tests_exact

end Yaga
