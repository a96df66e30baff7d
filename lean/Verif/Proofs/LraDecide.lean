/-
The search for a value of a rational variable ends with an allowed value.
-/
import Verif.Model.LraDecide
import Verif.Spec.Lra
import Mathlib.Algebra.Order.Archimedean.Basic
import Mathlib.Tactic.Linarith
import Mathlib.Tactic.FieldSimp
import Mathlib.Tactic.Ring

set_option linter.unusedVariables false
set_option linter.unusedSimpArgs false

namespace Yaga
open Spec
namespace VBounds

variable {s : LinStore} {m : LModels}

/-- The two have the same live contents. -/
structure Eqv (s : LinStore) (m : LModels) (v w : VBounds) : Prop where
  ub : popObs s m v.ub = popObs s m w.ub
  lb : popObs s m v.lb = popObs s m w.lb
  dis : dropObs s m v.dis = dropObs s m w.dis

theorem Eqv.refl (v : VBounds) : Eqv s m v v := ⟨rfl, rfl, rfl⟩
theorem Eqv.symm {v w : VBounds} (h : Eqv s m v w) : Eqv s m w v := ⟨h.ub.symm, h.lb.symm, h.dis.symm⟩
theorem Eqv.trans {v w z : VBounds} (h : Eqv s m v w) (h2 : Eqv s m w z) : Eqv s m v z :=
  ⟨h.ub.trans h2.ub, h.lb.trans h2.lb, h.dis.trans h2.dis⟩

theorem popObs_idem (l : List Bnd) : popObs s m (popObs s m l) = popObs s m l := by
  induction l with
  | nil => rfl
  | cons b l ih =>
    simp only [popObs]
    split
    · exact ih
    · rename_i h
      simp only [popObs]
      rw [if_neg h]

theorem dropObs_idem (l : List Bnd) : dropObs s m (dropObs s m l) = dropObs s m l := by
  unfold dropObs; simp

theorem eqv_lower (v : VBounds) : Eqv s m v (v.lower s m).1 := ⟨rfl, (popObs_idem _).symm, rfl⟩
theorem eqv_upper (v : VBounds) : Eqv s m v (v.upper s m).1 := ⟨(popObs_idem _).symm, rfl, rfl⟩
theorem eqv_inequality (v : VBounds) (q : ℚ) : Eqv s m v (v.inequality s m q).1 :=
  ⟨rfl, rfl, (dropObs_idem _).symm⟩

theorem Eqv.lower {v w : VBounds} (h : Eqv s m v w) : (w.lower s m).2 = (v.lower s m).2 := by
  unfold VBounds.lower; simp only [h.lb]
theorem Eqv.upper {v w : VBounds} (h : Eqv s m v w) : (w.upper s m).2 = (v.upper s m).2 := by
  unfold VBounds.upper; simp only [h.ub]

theorem eqv_isAllowed (v : VBounds) (q : ℚ) : Eqv s m v (v.isAllowed s m q).1 := by
  unfold isAllowed
  simp only
  have h1 := eqv_inequality (s := s) (m := m) v q
  split
  · exact h1
  · unfold checkLower
    simp only
    have h2 := h1.trans (eqv_lower _)
    split
    · exact h2.trans (eqv_upper _)
    · exact h2

/-- The answer of `is_allowed`. -/
theorem isAllowed_iff (v : VBounds) (q : ℚ) : (v.isAllowed s m q).2 = true ↔ Allows s m v q := by
  have e1 := (eqv_inequality (s := s) (m := m) v q)
  have hdis : ((v.inequality s m q).2.isSome = true) ↔
      ¬ ∀ d ∈ v.dis, d.isObsolete s m = false → d.value ≠ q := by
    unfold inequality
    simp only [List.find?_isSome, dropObs, List.mem_filter, Bool.not_eq_true', decide_eq_true_eq]
    push Not
    constructor
    · rintro ⟨d, ⟨h1, h2⟩, h3⟩; exact ⟨d, h1, h2, h3⟩
    · rintro ⟨d, h1, h2, h3⟩; exact ⟨d, ⟨h1, h2⟩, h3⟩
  have hlo : (((v.inequality s m q).1.checkLower s m q).2 = true) ↔
      ∀ b, (v.lower s m).2 = some b → b.value < q ∨ b.value = q ∧ b.isStrict = false := by
    unfold checkLower
    simp only [e1.lower]
    cases (v.lower s m).2 with
    | none => simp
    | some b => simp
  have hup : ((((v.inequality s m q).1.checkLower s m q).1.checkUpper s m q).2 = true) ↔
      ∀ b, (v.upper s m).2 = some b → q < b.value ∨ b.value = q ∧ b.isStrict = false := by
    unfold checkUpper
    have e2 : Eqv s m v ((v.inequality s m q).1.checkLower s m q).1 := e1.trans (eqv_lower _)
    simp only [e2.upper]
    cases (v.upper s m).2 with
    | none => simp
    | some b => simp
  unfold isAllowed Allows
  simp only
  by_cases h1 : (v.inequality s m q).2.isSome = true
  · rw [if_pos h1]
    have := hdis.mp h1
    constructor
    · intro h; cases h
    · intro h; exact absurd h.2.2 this
  · rw [if_neg h1]
    have h1' : ∀ d ∈ v.dis, d.isObsolete s m = false → d.value ≠ q := by
      by_contra hn; exact h1 (hdis.mpr hn)
    by_cases h2 : ((v.inequality s m q).1.checkLower s m q).2 = true
    · rw [if_pos h2, hup]
      exact ⟨fun h => ⟨hlo.mp h2, h, h1'⟩, fun h => h.2.1⟩
    · rw [if_neg h2]
      constructor
      · intro h; cases h
      · intro h; exact absurd (hlo.mpr h.1) h2

theorem Eqv.allows {v w : VBounds} (h : Eqv s m v w) (q : ℚ) : Allows s m w q ↔ Allows s m v q := by
  unfold Allows
  rw [h.lower, h.upper]
  have : (∀ d ∈ w.dis, d.isObsolete s m = false → d.value ≠ q) ↔
      ∀ d ∈ v.dis, d.isObsolete s m = false → d.value ≠ q := by
    have e : ∀ d, (d ∈ w.dis ∧ d.isObsolete s m = false) ↔ (d ∈ v.dis ∧ d.isObsolete s m = false) := by
      intro d
      have h1 : d ∈ dropObs s m v.dis ↔ d ∈ dropObs s m w.dis := by rw [h.dis]
      simpa [dropObs] using h1.symm
    constructor
    · intro hw d h1 h2; exact hw d ((e d).mpr ⟨h1, h2⟩).1 h2
    · intro hw d h1 h2; exact hw d ((e d).mp ⟨h1, h2⟩).1 h2
  rw [this]

/-! ### The loops -/

theorem around_spec (n : Nat) : ∀ (x : ℚ) (v : VBounds),
    Eqv s m v (around s m n x v).1 ∧
    (∀ q, (around s m n x v).2 = some q → Allows s m v q ∧ ∃ k < n, q = x + k ∨ q = -(x + k)) ∧
    ((around s m n x v).2 = none → ∀ k < n, ¬ Allows s m v (x + k) ∧ ¬ Allows s m v (-(x + k))) := by
  induction n with
  | zero =>
    intro x v
    refine ⟨Eqv.refl _, ?_, ?_⟩
    · intro q h; cases h
    · intro _ k hk; omega
  | succ n ih =>
    intro x v
    unfold around
    simp only
    have a1 := isAllowed_iff (s := s) (m := m) v x
    have e1 := eqv_isAllowed (s := s) (m := m) v x
    by_cases h1 : (v.isAllowed s m x).2 = true
    · rw [if_pos h1]
      refine ⟨e1, ?_, ?_⟩
      · intro q h
        simp only [Option.some.injEq] at h
        subst h
        exact ⟨a1.mp h1, 0, by omega, Or.inl (by simp)⟩
      · intro h; cases h
    · rw [if_neg h1]
      have a2 := isAllowed_iff (s := s) (m := m) (v.isAllowed s m x).1 (-x)
      have e2 := e1.trans (eqv_isAllowed (s := s) (m := m) (v.isAllowed s m x).1 (-x))
      rw [e1.allows] at a2
      by_cases h2 : ((v.isAllowed s m x).1.isAllowed s m (-x)).2 = true
      · rw [if_pos h2]
        refine ⟨e2, ?_, ?_⟩
        · intro q h
          simp only [Option.some.injEq] at h
          subst h
          exact ⟨a2.mp h2, 0, by omega, Or.inr (by simp)⟩
        · intro h; cases h
      · rw [if_neg h2]
        obtain ⟨i1, i2, i3⟩ := ih (x + 1) ((v.isAllowed s m x).1.isAllowed s m (-x)).1
        refine ⟨e2.trans i1, ?_, ?_⟩
        · intro q h
          obtain ⟨j1, k, hk, j2⟩ := i2 q h
          refine ⟨(e2.allows q).mp j1, k + 1, by omega, ?_⟩
          push_cast
          rcases j2 with j2 | j2
          · left; rw [j2]; ring
          · right; rw [j2]; ring
        · intro h k hk
          rcases Nat.eq_zero_or_pos k with rfl | hpos
          · simp only [Nat.cast_zero, add_zero]
            exact ⟨fun h => h1 (a1.mpr h), fun h => h2 (a2.mpr h)⟩
          · obtain ⟨k, rfl⟩ : ∃ j, k = j + 1 := ⟨k - 1, by omega⟩
            have := i3 h k (by omega)
            rw [e2.allows, e2.allows] at this
            have ex : x + ((k + 1 : Nat) : ℚ) = x + 1 + k := by push_cast; ring
            rw [ex]
            exact this

theorem walk_spec (st : ℚ) (n : Nat) : ∀ (x : ℚ) (v : VBounds),
    Eqv s m v (walk s m st n x v).1 ∧
    (∀ q, (walk s m st n x v).2 = some q → Allows s m v q ∧ ∃ k < n, q = x + k * st) ∧
    ((walk s m st n x v).2 = none → ∀ k < n, ¬ Allows s m v (x + k * st)) := by
  induction n with
  | zero =>
    intro x v
    refine ⟨Eqv.refl _, ?_, ?_⟩
    · intro q h; cases h
    · intro _ k hk; omega
  | succ n ih =>
    intro x v
    unfold walk
    simp only
    have a1 := isAllowed_iff (s := s) (m := m) v x
    have e1 := eqv_isAllowed (s := s) (m := m) v x
    by_cases h1 : (v.isAllowed s m x).2 = true
    · rw [if_pos h1]
      refine ⟨e1, ?_, ?_⟩
      · intro q h
        simp only [Option.some.injEq] at h
        subst h
        exact ⟨a1.mp h1, 0, by omega, by simp⟩
      · intro h; cases h
    · rw [if_neg h1]
      obtain ⟨i1, i2, i3⟩ := ih (x + st) (v.isAllowed s m x).1
      refine ⟨e1.trans i1, ?_, ?_⟩
      · intro q h
        obtain ⟨j1, k, hk, j2⟩ := i2 q h
        refine ⟨(e1.allows q).mp j1, k + 1, by omega, ?_⟩
        push_cast
        rw [j2]; ring
      · intro h k hk
        rcases Nat.eq_zero_or_pos k with rfl | hpos
        · simp only [Nat.cast_zero, zero_mul, add_zero]
          exact fun h => h1 (a1.mpr h)
        · obtain ⟨k, rfl⟩ : ∃ j, k = j + 1 := ⟨k - 1, by omega⟩
          have := i3 h k (by omega)
          rw [e1.allows] at this
          have ex : x + ((k + 1 : Nat) : ℚ) * st = x + st + k * st := by push_cast; ring
          rw [ex]
          exact this

theorem halve_spec (lb : ℚ) (n : Nat) : ∀ (x : ℚ) (v : VBounds),
    Eqv s m v (halve s m lb n x v).1 ∧
    (∀ q, (halve s m lb n x v).2 = some q → Allows s m v q) ∧
    ((halve s m lb n x v).2 = none → ∀ k < n, ¬ Allows s m v (lb + (x - lb) / 2 ^ k)) := by
  induction n with
  | zero =>
    intro x v
    refine ⟨Eqv.refl _, ?_, ?_⟩
    · intro q h; cases h
    · intro _ k hk; omega
  | succ n ih =>
    intro x v
    unfold halve
    simp only
    have a1 := isAllowed_iff (s := s) (m := m) v x
    have e1 := eqv_isAllowed (s := s) (m := m) v x
    by_cases h1 : (v.isAllowed s m x).2 = true
    · rw [if_pos h1]
      refine ⟨e1, ?_, ?_⟩
      · intro q h
        simp only [Option.some.injEq] at h
        subst h
        exact a1.mp h1
      · intro h; cases h
    · rw [if_neg h1]
      obtain ⟨i1, i2, i3⟩ := ih ((x + lb) / 2) (v.isAllowed s m x).1
      refine ⟨e1.trans i1, ?_, ?_⟩
      · intro q h
        exact (e1.allows q).mp (i2 q h)
      · intro h k hk
        rcases Nat.eq_zero_or_pos k with rfl | hpos
        · simp only [pow_zero, div_one, add_sub_cancel]
          exact fun h => h1 (a1.mpr h)
        · obtain ⟨k, rfl⟩ : ∃ j, k = j + 1 := ⟨k - 1, by omega⟩
          have := i3 h k (by omega)
          rw [e1.allows] at this
          have ex : lb + (x - lb) / 2 ^ (k + 1) = lb + ((x + lb) / 2 - lb) / 2 ^ k := by
            rw [pow_succ]; field_simp; ring
          rw [ex]
          exact this

/-! ### Escaping finitely many values -/

theorem escape (f : Nat → ℚ) (D : List ℚ) (h : ∀ d ∈ D, ∃ K, ∀ k ≥ K, f k ≠ d) :
    ∃ K, ∀ k ≥ K, ∀ d ∈ D, f k ≠ d := by
  induction D with
  | nil => exact ⟨0, by simp⟩
  | cons d D ih =>
    obtain ⟨K1, h1⟩ := ih fun e he => h e (List.mem_cons_of_mem _ he)
    obtain ⟨K2, h2⟩ := h d List.mem_cons_self
    refine ⟨max K1 K2, fun k hk e he => ?_⟩
    rcases List.mem_cons.mp he with rfl | he
    · exact h2 k (le_trans (le_max_right _ _) hk)
    · exact h1 k (le_trans (le_max_left _ _) hk) e he

theorem escape_lin (x st : ℚ) (hs : st ≠ 0) (d : ℚ) : ∃ K : Nat, ∀ k ≥ K, x + (k : ℚ) * st ≠ d := by
  obtain ⟨K, hK⟩ := exists_nat_gt ((d - x) / st)
  refine ⟨K, fun k hk e => ?_⟩
  have : (k : ℚ) = (d - x) / st := by rw [← e]; field_simp; ring
  have h2 : (K : ℚ) ≤ k := by exact_mod_cast hk
  rw [this] at h2
  linarith

theorem escape_halve (lb x : ℚ) (h : lb < x) (d : ℚ) :
    ∃ K : Nat, ∀ k ≥ K, lb + (x - lb) / 2 ^ k ≠ d := by
  by_cases hd : d ≤ lb
  · refine ⟨0, fun k _ e => ?_⟩
    have : 0 < (x - lb) / 2 ^ k := div_pos (by linarith) (by positivity)
    linarith
  · push Not at hd
    obtain ⟨K, hK⟩ := exists_nat_gt ((x - lb) / (d - lb))
    refine ⟨K, fun k hk e => ?_⟩
    have h1 : (k : ℚ) < 2 ^ k := by exact_mod_cast Nat.lt_two_pow_self
    have h2 : (K : ℚ) ≤ k := by exact_mod_cast hk
    have hp : (0 : ℚ) < 2 ^ k := by positivity
    have h3 : (x - lb) / 2 ^ k = d - lb := by linarith
    rw [div_eq_iff hp.ne'] at h3
    rw [div_lt_iff₀ (by linarith)] at hK
    have h4 : (K : ℚ) * (d - lb) ≤ 2 ^ k * (d - lb) :=
      mul_le_mul_of_nonneg_right (by linarith) (by linarith)
    rw [h3] at hK
    linarith

/-- Enough values far up are allowed if there is no upper bound. -/
theorem up_allowed (v : VBounds) (hu : (v.upper s m).2 = none) (x : ℚ) :
    ∃ K : Nat, ∀ k ≥ K, Allows s m v (x + (k : ℚ) * 1) := by
  obtain ⟨K1, h1⟩ := escape (fun k => x + (k : ℚ) * 1) (v.dis.map Bnd.value)
    (fun d _ => escape_lin x 1 one_ne_zero d)
  have h2 : ∃ K2 : Nat, ∀ k ≥ K2, ∀ b, (v.lower s m).2 = some b → b.value < x + (k : ℚ) * 1 := by
    cases hl : (v.lower s m).2 with
    | none => exact ⟨0, fun _ _ b h => by cases h⟩
    | some b =>
      obtain ⟨K, hK⟩ := exists_nat_gt (b.value - x)
      refine ⟨K, fun k hk c h => ?_⟩
      simp only [Option.some.injEq] at h
      subst h
      have : (K : ℚ) ≤ k := by exact_mod_cast hk
      linarith
  obtain ⟨K2, h2⟩ := h2
  refine ⟨max K1 K2, fun k hk => ⟨?_, ?_, ?_⟩⟩
  · intro b hb; exact Or.inl (h2 k (le_trans (le_max_right _ _) hk) b hb)
  · intro b hb; rw [hu] at hb; cases hb
  · intro d hd _ e
    exact h1 k (le_trans (le_max_left _ _) hk) d.value (List.mem_map_of_mem hd) e.symm

theorem down_allowed (v : VBounds) (hl : (v.lower s m).2 = none) (x : ℚ) :
    ∃ K : Nat, ∀ k ≥ K, Allows s m v (x + (k : ℚ) * (-1)) := by
  obtain ⟨K1, h1⟩ := escape (fun k => x + (k : ℚ) * (-1)) (v.dis.map Bnd.value)
    (fun d _ => escape_lin x (-1) (by norm_num) d)
  have h2 : ∃ K2 : Nat, ∀ k ≥ K2, ∀ b, (v.upper s m).2 = some b → x + (k : ℚ) * (-1) < b.value := by
    cases hu : (v.upper s m).2 with
    | none => exact ⟨0, fun _ _ b h => by cases h⟩
    | some b =>
      obtain ⟨K, hK⟩ := exists_nat_gt (x - b.value)
      refine ⟨K, fun k hk c h => ?_⟩
      simp only [Option.some.injEq] at h
      subst h
      have : (K : ℚ) ≤ k := by exact_mod_cast hk
      linarith
  obtain ⟨K2, h2⟩ := h2
  refine ⟨max K1 K2, fun k hk => ⟨?_, ?_, ?_⟩⟩
  · intro b hb; rw [hl] at hb; cases hb
  · intro b hb; exact Or.inl (h2 k (le_trans (le_max_right _ _) hk) b hb)
  · intro d hd _ e
    exact h1 k (le_trans (le_max_left _ _) hk) d.value (List.mem_map_of_mem hd) e.symm

/-- An allowed value lies between the bounds. -/
theorem allows_ge {v : VBounds} {q : ℚ} (h : Allows s m v q) {b : Bnd} (hb : (v.lower s m).2 = some b) :
    b.value ≤ q := by
  rcases h.1 b hb with h | h
  · exact h.le
  · exact h.1.le
theorem allows_le {v : VBounds} {q : ℚ} (h : Allows s m v q) {b : Bnd} (hb : (v.upper s m).2 = some b) :
    q ≤ b.value := by
  rcases h.2.1 b hb with h | h
  · exact h.le
  · exact h.1.ge

/-- `find_integer` ends, finds only allowed integers, and finds one if there is one. -/
theorem findInteger_spec (v : VBounds) : ∃ n, ∀ fuel ≥ n, ∃ w r,
    findInteger s m fuel v = (w, some r) ∧ Eqv s m v w ∧
    (∀ q, r = some q → Allows s m v q ∧ ∃ z : Int, q = z) ∧
    (r = none → (∃ l u, (v.lower s m).2 = some l ∧ (v.upper s m).2 = some u) ∧
      ∀ z : Int, ¬ Allows s m v z) := by
  unfold findInteger
  simp only
  have e0 : Eqv s m v ((v.lower s m).1.upper s m).1 := (eqv_lower v).trans (eqv_upper _)
  rw [show ((v.lower s m).1.upper s m).2 = (v.upper s m).2 from (eqv_lower v).upper]
  generalize hw : ((v.lower s m).1.upper s m).1 = w at *
  cases hl : (v.lower s m).2 with
  | none =>
    cases hu : (v.upper s m).2 with
    | none =>
      obtain ⟨K, hK⟩ := up_allowed v hu 0
      refine ⟨K + 1, fun fuel hf => ?_⟩
      simp only
      obtain ⟨i1, i2, i3⟩ := around_spec (s := s) (m := m) fuel 0 w
      cases hr : (around s m fuel 0 w).2 with
      | none =>
        have := (i3 hr K (by omega)).1
        rw [e0.allows] at this
        have h2 := hK K le_rfl
        rw [mul_one] at h2
        exact absurd h2 this
      | some q =>
        obtain ⟨j1, k, _, j2⟩ := i2 q hr
        refine ⟨_, some q, rfl, e0.trans i1, ?_, by simp⟩
        intro q' hq
        simp only [Option.some.injEq] at hq
        subst hq
        refine ⟨(e0.allows _).mp j1, ?_⟩
        rcases j2 with j2 | j2
        · exact ⟨k, by rw [j2]; simp⟩
        · exact ⟨-k, by rw [j2]; simp⟩
    | some ub =>
      simp only
      unfold aroundZero
      obtain ⟨i1, i2, i3⟩ :=
        around_spec (s := s) (m := m) (⌊((⌊ub.value⌋ : Int) : ℚ)⌋ + 1).toNat 0 w
      generalize around s m (⌊((⌊ub.value⌋ : Int) : ℚ)⌋ + 1).toNat 0 w = R at *
      cases hr : R.2 with
      | some q =>
        obtain ⟨j1, k, _, j2⟩ := i2 q hr
        refine ⟨0, fun fuel _ => ⟨_, some q, rfl, e0.trans i1, ?_, by simp⟩⟩
        intro q' hq
        simp only [Option.some.injEq] at hq
        subst hq
        refine ⟨(e0.allows _).mp j1, ?_⟩
        rcases j2 with j2 | j2
        · exact ⟨k, by rw [j2]; simp⟩
        · exact ⟨-k, by rw [j2]; simp⟩
      | none =>
        simp only
        generalize hx : (if ((⌊ub.value⌋ : Int) : ℚ) > 0 then -((⌊ub.value⌋ : Int) : ℚ)
          else ((⌊ub.value⌋ : Int) : ℚ)) = x
        have hz : ∃ z : Int, x = z := by
          rw [← hx]
          split
          · exact ⟨-⌊ub.value⌋, by simp⟩
          · exact ⟨_, rfl⟩
        obtain ⟨K, hK⟩ := down_allowed v hl x
        refine ⟨K + 1, fun fuel hf => ?_⟩
        obtain ⟨k1, k2, k3⟩ := walk_spec (s := s) (m := m) (-1) fuel x R.1
        have e1 := e0.trans i1
        cases hr2 : (walk s m (-1) fuel x R.1).2 with
        | none =>
          have := k3 hr2 K (by omega)
          rw [e1.allows] at this
          exact absurd (hK K le_rfl) this
        | some q =>
          obtain ⟨j1, k, _, j2⟩ := k2 q hr2
          refine ⟨_, some q, rfl, e1.trans k1, ?_, by simp⟩
          intro q' hq
          simp only [Option.some.injEq] at hq
          subst hq
          obtain ⟨z, hz⟩ := hz
          exact ⟨(e1.allows _).mp j1, z - k, by rw [j2, hz]; push_cast; ring⟩
  | some lb =>
    cases hu : (v.upper s m).2 with
    | none =>
      simp only
      unfold aroundZero
      obtain ⟨i1, i2, i3⟩ :=
        around_spec (s := s) (m := m) (⌊-((⌈lb.value⌉ : Int) : ℚ)⌋ + 1).toNat 0 w
      generalize around s m (⌊-((⌈lb.value⌉ : Int) : ℚ)⌋ + 1).toNat 0 w = R at *
      cases hr : R.2 with
      | some q =>
        obtain ⟨j1, k, _, j2⟩ := i2 q hr
        refine ⟨0, fun fuel _ => ⟨_, some q, rfl, e0.trans i1, ?_, by simp⟩⟩
        intro q' hq
        simp only [Option.some.injEq] at hq
        subst hq
        refine ⟨(e0.allows _).mp j1, ?_⟩
        rcases j2 with j2 | j2
        · exact ⟨k, by rw [j2]; simp⟩
        · exact ⟨-k, by rw [j2]; simp⟩
      | none =>
        simp only
        generalize hx : (if ((⌈lb.value⌉ : Int) : ℚ) < 0 then -((⌈lb.value⌉ : Int) : ℚ)
          else ((⌈lb.value⌉ : Int) : ℚ)) = x
        have hz : ∃ z : Int, x = z := by
          rw [← hx]
          split
          · exact ⟨-⌈lb.value⌉, by simp⟩
          · exact ⟨_, rfl⟩
        obtain ⟨K, hK⟩ := up_allowed v hu x
        refine ⟨K + 1, fun fuel hf => ?_⟩
        obtain ⟨k1, k2, k3⟩ := walk_spec (s := s) (m := m) 1 fuel x R.1
        have e1 := e0.trans i1
        cases hr2 : (walk s m 1 fuel x R.1).2 with
        | none =>
          have := k3 hr2 K (by omega)
          rw [e1.allows] at this
          exact absurd (hK K le_rfl) this
        | some q =>
          obtain ⟨j1, k, _, j2⟩ := k2 q hr2
          refine ⟨_, some q, rfl, e1.trans k1, ?_, by simp⟩
          intro q' hq
          simp only [Option.some.injEq] at hq
          subst hq
          obtain ⟨z, hz⟩ := hz
          exact ⟨(e1.allows _).mp j1, z + k, by rw [j2, hz]; push_cast; ring⟩
    | some ub =>
      refine ⟨0, fun fuel _ => ?_⟩
      simp only
      -- an allowed integer lies in the range that is searched
      have hrange : ∀ z : Int, Allows s m v z → ⌈lb.value⌉ ≤ z ∧ z ≤ ⌊ub.value⌋ := fun z hz =>
        ⟨Int.ceil_le.mpr (allows_ge hz hl), Int.le_floor.mpr (allows_le hz hu)⟩
      by_cases c1 : lb.value ≥ 0
      · rw [if_pos c1]
        obtain ⟨k1, k2, k3⟩ :=
          walk_spec (s := s) (m := m) 1 (⌊ub.value⌋ - ⌈lb.value⌉ + 1).toNat ⌈lb.value⌉ w
        refine ⟨_, _, rfl, e0.trans k1, ?_, ?_⟩
        · intro q hq
          obtain ⟨j1, k, _, j2⟩ := k2 q hq
          exact ⟨(e0.allows _).mp j1, ⌈lb.value⌉ + k, by rw [j2]; push_cast; ring⟩
        · intro hr
          refine ⟨⟨lb, ub, rfl, rfl⟩, fun z hz => ?_⟩
          obtain ⟨r1, r2⟩ := hrange z hz
          have := k3 hr (z - ⌈lb.value⌉).toNat (by omega)
          rw [e0.allows] at this
          apply this
          have e : ((⌈lb.value⌉ : Int) : ℚ) + (((z - ⌈lb.value⌉).toNat : Nat) : ℚ) * 1 = z := by
            have h1 : (((z - ⌈lb.value⌉).toNat : Nat) : Int) = z - ⌈lb.value⌉ := by omega
            have h2 : (((z - ⌈lb.value⌉).toNat : Nat) : ℚ) = ((z - ⌈lb.value⌉ : Int) : ℚ) := by
              exact_mod_cast h1
            rw [h2]; push_cast; ring
          rw [e]; exact hz
      · rw [if_neg c1]
        by_cases c2 : ub.value ≤ 0
        · rw [if_pos c2]
          obtain ⟨k1, k2, k3⟩ :=
            walk_spec (s := s) (m := m) (-1) (⌊ub.value⌋ - ⌈lb.value⌉ + 1).toNat ⌊ub.value⌋ w
          refine ⟨_, _, rfl, e0.trans k1, ?_, ?_⟩
          · intro q hq
            obtain ⟨j1, k, _, j2⟩ := k2 q hq
            exact ⟨(e0.allows _).mp j1, ⌊ub.value⌋ - k, by rw [j2]; push_cast; ring⟩
          · intro hr
            refine ⟨⟨lb, ub, rfl, rfl⟩, fun z hz => ?_⟩
            obtain ⟨r1, r2⟩ := hrange z hz
            have := k3 hr (⌊ub.value⌋ - z).toNat (by omega)
            rw [e0.allows] at this
            apply this
            have e : ((⌊ub.value⌋ : Int) : ℚ) + (((⌊ub.value⌋ - z).toNat : Nat) : ℚ) * (-1) = z := by
              have h1 : (((⌊ub.value⌋ - z).toNat : Nat) : Int) = ⌊ub.value⌋ - z := by omega
              have h2 : (((⌊ub.value⌋ - z).toNat : Nat) : ℚ) = ((⌊ub.value⌋ - z : Int) : ℚ) := by
                exact_mod_cast h1
              rw [h2]; push_cast; ring
            rw [e]; exact hz
        · rw [if_neg c2]
          unfold aroundZero
          generalize hL : (if ub.value > -lb.value then ub.value else -lb.value) = L
          obtain ⟨k1, k2, k3⟩ := around_spec (s := s) (m := m) (⌊L⌋ + 1).toNat 0 w
          refine ⟨_, _, rfl, e0.trans k1, ?_, ?_⟩
          · intro q hq
            obtain ⟨j1, k, _, j2⟩ := k2 q hq
            refine ⟨(e0.allows _).mp j1, ?_⟩
            rcases j2 with j2 | j2
            · exact ⟨k, by rw [j2]; simp⟩
            · exact ⟨-k, by rw [j2]; simp⟩
          · intro hr
            refine ⟨⟨lb, ub, rfl, rfl⟩, fun z hz => ?_⟩
            have hLu : ub.value ≤ L := by rw [← hL]; split <;> linarith
            have hLl : -lb.value ≤ L := by rw [← hL]; split <;> linarith
            have hz1 : z ≤ ⌊L⌋ := Int.le_floor.mpr (le_trans (allows_le hz hu) hLu)
            have hz2 : -z ≤ ⌊L⌋ := Int.le_floor.mpr (by
              push_cast
              have := (allows_ge hz hl)
              linarith)
            have := k3 hr z.natAbs (by omega)
            rw [e0.allows, e0.allows, zero_add] at this
            rcases Int.natAbs_eq z with hzz | hzz
            · apply this.1
              have h1 : ((z.natAbs : Nat) : ℚ) = z := by
                have : (z.natAbs : Int) = z := by omega
                rw [← Int.cast_natCast, this]
              rw [h1]; exact hz
            · apply this.2
              have h1 : ((z.natAbs : Nat) : ℚ) = -z := by
                have : (z.natAbs : Int) = -z := by omega
                rw [← Int.cast_natCast, this]; push_cast; rfl
              rw [h1, neg_neg]; exact hz

/-- Deciding a variable ends with an allowed value if there is one. -/
theorem chooseValue_spec (v : VBounds) (cached : Option ℚ) (hex : ∃ q, Allows s m v q) :
    ∃ n, ∀ fuel ≥ n, ∃ w q, chooseValue s m fuel cached v = (w, some q) ∧ Eqv s m v w ∧
      Allows s m v q ∧
      (q = cached.getD 0 ∨ (∃ z : Int, q = z) ∨ ∀ z : Int, ¬ Allows s m v z) := by
  unfold chooseValue
  simp only
  have a1 := isAllowed_iff (s := s) (m := m) v (cached.getD 0)
  have e1 := eqv_isAllowed (s := s) (m := m) v (cached.getD 0)
  generalize v.isAllowed s m (cached.getD 0) = R at *
  by_cases h1 : R.2 = true
  · refine ⟨0, fun fuel _ => ?_⟩
    rw [if_pos h1]
    exact ⟨_, _, rfl, e1, a1.mp h1, Or.inl rfl⟩
  · obtain ⟨n, hn⟩ := findInteger_spec (s := s) (m := m) R.1
    have hhalve : ∃ N, ∀ l u, (v.lower s m).2 = some l → (v.upper s m).2 = some u →
        ∃ k < N, Allows s m v (l.value + (u.value - l.value) / 2 ^ k) := by
      cases hl : (v.lower s m).2 with
      | none => exact ⟨0, fun l u h => by cases h⟩
      | some l =>
        cases hu : (v.upper s m).2 with
        | none => exact ⟨0, fun l u _ h => by cases h⟩
        | some u =>
          obtain ⟨q, hq⟩ := hex
          have hlq := (allows_ge hq hl)
          have hqu := (allows_le hq hu)
          by_cases heq : l.value = u.value
          · refine ⟨1, fun l' u' h1 h2 => ⟨0, by omega, ?_⟩⟩
            simp only [Option.some.injEq] at h1 h2
            subst h1 h2
            have : l.value + (u.value - l.value) / 2 ^ 0 = q := by
              rw [pow_zero, div_one]; linarith
            rw [this]; exact hq
          · have hlt : l.value < u.value := lt_of_le_of_ne (le_trans hlq hqu) heq
            obtain ⟨K, hK⟩ := escape (fun k => l.value + (u.value - l.value) / 2 ^ k)
              (v.dis.map Bnd.value) (fun d _ => escape_halve l.value u.value hlt d)
            refine ⟨max K 1 + 1, fun l' u' h1 h2 => ⟨max K 1, by omega, ?_⟩⟩
            simp only [Option.some.injEq] at h1 h2
            subst h1 h2
            refine ⟨?_, ?_, ?_⟩
            · intro b hb
              rw [hl, Option.some.injEq] at hb
              subst hb
              left
              have : 0 < (u.value - l.value) / 2 ^ (max K 1) := div_pos (by linarith) (by positivity)
              linarith
            · intro b hb
              rw [hu, Option.some.injEq] at hb
              subst hb
              left
              have h2 : (1 : ℚ) < 2 ^ (max K 1) := one_lt_pow₀ (by norm_num) (by omega)
              have : (u.value - l.value) / 2 ^ (max K 1) < u.value - l.value :=
                div_lt_self (by linarith) h2
              linarith
            · intro d hd _ e
              exact hK (max K 1) (le_max_left _ _) d.value (List.mem_map_of_mem hd) e.symm
    obtain ⟨N, hN⟩ := hhalve
    refine ⟨max n N, fun fuel hf => ?_⟩
    rw [if_neg h1]
    obtain ⟨w, r, f1, f2, f3, f4⟩ := hn fuel (le_trans (le_max_left _ _) hf)
    rw [f1]
    cases r with
    | some q =>
      obtain ⟨g1, g2⟩ := f3 q rfl
      exact ⟨w, q, rfl, e1.trans f2, (e1.allows _).mp g1, Or.inr (Or.inl g2)⟩
    | none =>
      obtain ⟨⟨l, u, hl, hu⟩, hno⟩ := f4 rfl
      have ew := e1.trans f2
      have el : (w.lower s m).2 = some l := by rw [ew.lower, ← e1.lower, hl]
      have eu : ((w.lower s m).1.upper s m).2 = some u := by
        rw [(ew.trans (eqv_lower w)).upper, ← e1.upper, hu]
      simp only [el, eu]
      have eW := (ew.trans (eqv_lower w)).trans (eqv_upper (w.lower s m).1)
      obtain ⟨k1, k2, k3⟩ := halve_spec (s := s) (m := m) l.value fuel u.value
        ((w.lower s m).1.upper s m).1
      generalize halve s m l.value fuel u.value ((w.lower s m).1.upper s m).1 = H at *
      cases hr : H.2 with
      | none =>
        obtain ⟨k, hk, ha⟩ := hN l u (by rw [← e1.lower, hl]) (by rw [← e1.upper, hu])
        have := k3 hr k (lt_of_lt_of_le hk (le_trans (le_max_right _ _) hf))
        rw [eW.allows] at this
        exact absurd ha this
      | some q =>
        refine ⟨H.1, q, by rw [← hr], eW.trans k1, (eW.allows _).mp (k2 q hr), Or.inr (Or.inr ?_)⟩
        intro z hz
        exact hno z ((e1.allows _).mpr hz)

/-- Whatever `find_integer` returns is allowed. -/
theorem findInteger_sound (v : VBounds) (fuel : Nat) : Eqv s m v (findInteger s m fuel v).1 ∧
    ∀ q, (findInteger s m fuel v).2 = some (some q) → Allows s m v q := by
  unfold findInteger
  simp only
  have e0 : Eqv s m v ((v.lower s m).1.upper s m).1 := (eqv_lower v).trans (eqv_upper _)
  generalize ((v.lower s m).1.upper s m).1 = w at *
  have ha : ∀ n x, Eqv s m v (around s m n x w).1 ∧
      ∀ q, (around s m n x w).2 = some q → Allows s m v q := fun n x =>
    ⟨e0.trans (around_spec n x w).1, fun q h => (e0.allows q).mp ((around_spec n x w).2.1 q h).1⟩
  have hw : ∀ st n x, ∀ z, Eqv s m v z → Eqv s m v (walk s m st n x z).1 ∧
      ∀ q, (walk s m st n x z).2 = some q → Allows s m v q := fun st n x z ez =>
    ⟨ez.trans (walk_spec st n x z).1, fun q h => (ez.allows q).mp ((walk_spec st n x z).2.1 q h).1⟩
  split
  · refine ⟨(ha fuel 0).1, fun q h => ?_⟩
    simp only [Option.map_eq_some_iff, Option.some.injEq, exists_eq_right] at h
    exact (ha fuel 0).2 q h
  · rename_i ub _ _
    unfold aroundZero
    have h1 := ha (⌊((⌊ub.value⌋ : Int) : ℚ)⌋ + 1).toNat 0
    generalize around s m (⌊((⌊ub.value⌋ : Int) : ℚ)⌋ + 1).toNat 0 w = R at *
    cases hr : R.2 with
    | some p =>
      refine ⟨h1.1, fun q h => ?_⟩
      simp only [Option.some.injEq] at h
      subst h; exact h1.2 _ hr
    | none =>
      have h2 := hw (-1) fuel (if ((⌊ub.value⌋ : Int) : ℚ) > 0 then -((⌊ub.value⌋ : Int) : ℚ)
          else ((⌊ub.value⌋ : Int) : ℚ)) R.1 h1.1
      refine ⟨h2.1, fun q h => ?_⟩
      simp only [Option.map_eq_some_iff, Option.some.injEq, exists_eq_right] at h
      exact h2.2 q h
  · rename_i lb _ _
    unfold aroundZero
    have h1 := ha (⌊-((⌈lb.value⌉ : Int) : ℚ)⌋ + 1).toNat 0
    generalize around s m (⌊-((⌈lb.value⌉ : Int) : ℚ)⌋ + 1).toNat 0 w = R at *
    cases hr : R.2 with
    | some p =>
      refine ⟨h1.1, fun q h => ?_⟩
      simp only [Option.some.injEq] at h
      subst h; exact h1.2 _ hr
    | none =>
      have h2 := hw 1 fuel (if ((⌈lb.value⌉ : Int) : ℚ) < 0 then -((⌈lb.value⌉ : Int) : ℚ)
          else ((⌈lb.value⌉ : Int) : ℚ)) R.1 h1.1
      refine ⟨h2.1, fun q h => ?_⟩
      simp only [Option.map_eq_some_iff, Option.some.injEq, exists_eq_right] at h
      exact h2.2 q h
  · split
    · refine ⟨(hw _ _ _ w e0).1, fun q h => ?_⟩
      simp only [Option.some.injEq] at h
      exact (hw _ _ _ w e0).2 q h
    · split
      · refine ⟨(hw _ _ _ w e0).1, fun q h => ?_⟩
        simp only [Option.some.injEq] at h
        exact (hw _ _ _ w e0).2 q h
      · refine ⟨(ha _ _).1, fun q h => ?_⟩
        simp only [Option.some.injEq] at h
        exact (ha _ _).2 q h

/-- Whatever value is chosen is allowed. -/
theorem chooseValue_sound (v : VBounds) (fuel : Nat) (cached : Option ℚ) :
    Eqv s m v (chooseValue s m fuel cached v).1 ∧
    ∀ q, (chooseValue s m fuel cached v).2 = some q → Allows s m v q := by
  unfold chooseValue
  simp only
  have a1 := isAllowed_iff (s := s) (m := m) v (cached.getD 0)
  have e1 := eqv_isAllowed (s := s) (m := m) v (cached.getD 0)
  generalize v.isAllowed s m (cached.getD 0) = R at *
  split
  · rename_i h
    refine ⟨e1, fun q hq => ?_⟩
    simp only [Option.some.injEq] at hq
    subst hq; exact a1.mp h
  · obtain ⟨f1, f2⟩ := findInteger_sound (s := s) (m := m) R.1 fuel
    generalize findInteger s m fuel R.1 = F at *
    have e2 := e1.trans f1
    split
    · exact ⟨e2, fun q h => by cases h⟩
    · rename_i p hp
      refine ⟨e2, fun q h => ?_⟩
      simp only [Option.some.injEq] at h
      subst h; exact (e1.allows _).mp (f2 _ hp)
    · have e3 := (e2.trans (eqv_lower F.1)).trans (eqv_upper (F.1.lower s m).1)
      split
      · rename_i lb ub _ _
        obtain ⟨k1, k2, _⟩ := halve_spec (s := s) (m := m) lb.value fuel ub.value
          ((F.1.lower s m).1.upper s m).1
        exact ⟨e3.trans k1, fun q h => (e3.allows _).mp (k2 q h)⟩
      · exact ⟨e3, fun q h => by cases h⟩

end VBounds
end Yaga
