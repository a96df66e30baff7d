/-
Proofs about `Fraction<int>`.
-/
import Verif.Spec.IntFraction
import Mathlib.Data.Rat.Lemmas
import Mathlib.Tactic.FieldSimp
import Mathlib.Tactic.Ring
import Mathlib.Tactic.Linarith
import Mathlib.Tactic.Positivity

namespace Yaga
open Spec

namespace IFrac

theorem i32_some {x y : Int} (h : i32 x = some y) : y = x ∧ imin ≤ x ∧ x ≤ imax := by
  unfold i32 at h
  split at h
  · rename_i hx; cases h; exact ⟨rfl, hx⟩
  · cases h

theorem i32_ok {x : Int} (h1 : imin ≤ x) (h2 : x ≤ imax) : i32 x = some x := if_pos ⟨h1, h2⟩

theorem i64_ok {x : Int} (h1 : lmin ≤ x) (h2 : x ≤ lmax) : i64 x = some x := if_pos ⟨h1, h2⟩

theorem tdiv_gcd {a b g : Int} (hg : (g : Int) = Int.gcd a b) : ∃ q, a = g * q ∧ a.tdiv g = q ∨ g = 0 := by
  by_cases h0 : g = 0
  · exact ⟨0, Or.inr h0⟩
  · have hd : g ∣ a := hg ▸ Int.gcd_dvd_left a b
    obtain ⟨q, rfl⟩ := hd
    exact ⟨q, Or.inl ⟨rfl, Int.mul_tdiv_cancel_left q h0⟩⟩

theorem fok_num {f : IFrac} (h : FOk f) : (ival f).num = f.num := by
  obtain ⟨-, -, h3, -, h5⟩ := h
  exact Rat.num_div_eq_of_coprime h3 (by rwa [Int.gcd] at h5)

theorem fok_den {f : IFrac} (h : FOk f) : ((ival f).den : Int) = f.den := by
  obtain ⟨-, -, h3, -, h5⟩ := h
  exact Rat.den_div_eq_of_coprime h3 (by rwa [Int.gcd] at h5)

/-- A number has only one fraction in lowest terms. -/
theorem fok_unique {f g : IFrac} (hf : FOk f) (hg : FOk g) (h : ival f = ival g) : f = g := by
  have hn : f.num = g.num := by rw [← fok_num hf, ← fok_num hg, h]
  have hd : f.den = g.den := by rw [← fok_den hf, ← fok_den hg, h]
  cases f; cases g
  simp only [mk.injEq]
  exact ⟨hn, hd⟩

theorem fits_iff (q : ℚ) : IFits q ↔ imin ≤ q.num ∧ q.num ≤ imax ∧ (q.den : Int) ≤ imax := by
  constructor
  · rintro ⟨f, hf, rfl⟩
    rw [fok_num hf, fok_den hf]
    exact ⟨hf.1, hf.2.1, hf.2.2.2.1⟩
  · rintro ⟨h1, h2, h3⟩
    refine ⟨⟨q.num, q.den⟩, ⟨h1, h2, Int.natCast_pos.mpr q.pos, h3, ?_⟩, ?_⟩
    · have := q.reduced
      rwa [Int.gcd]
    · exact Rat.num_div_den q

/-- The quotients by the greatest common divisor. -/
theorem gcd_parts (num den : Int) (hd : 0 < den) :
    num.tdiv (Int.gcd num den) = ((num : ℚ) / den).num ∧ den.tdiv (Int.gcd num den) = (((num : ℚ) / den).den : Int) := by
  have hg : (Int.gcd num den : Int) ≠ 0 := by
    intro h
    have : Int.gcd num den = 0 := by exact_mod_cast h
    rw [Int.gcd_eq_zero_iff] at this
    omega
  have hgp : 0 < (Int.gcd num den : Int) := by positivity
  obtain ⟨a, ha⟩ := Int.gcd_dvd_left num den
  obtain ⟨b, hb⟩ := Int.gcd_dvd_right num den
  generalize hG : Int.gcd num den = G at *
  have hb0 : 0 < b := by
    rw [hb] at hd
    exact (mul_pos_iff_of_pos_left hgp).mp hd
  have hc : Int.gcd a b = 1 := by
    have h1 : Int.gcd (G * a) (G * b) = G := by rw [← ha, ← hb]; exact hG
    rw [Int.gcd_mul_left, Int.natAbs_natCast] at h1
    have h2 : G ≠ 0 := by exact_mod_cast hg
    exact Nat.eq_of_mul_eq_mul_left (Nat.pos_of_ne_zero h2) (by rw [h1, mul_one])
  have hv : (num : ℚ) / den = (a : ℚ) / b := by
    have hgq : (G : ℚ) ≠ 0 := by exact_mod_cast hg
    have hbq : (b : ℚ) ≠ 0 := by exact_mod_cast hb0.ne'
    rw [ha, hb]
    push_cast
    field_simp
  rw [hv, Rat.num_div_eq_of_coprime hb0 (by rwa [Int.gcd] at hc), Rat.den_div_eq_of_coprime hb0 (by rwa [Int.gcd] at hc)]
  constructor
  · rw [ha]
    exact Int.mul_tdiv_cancel_left a hg
  · rw [hb]
    exact Int.mul_tdiv_cancel_left b hg

theorem gcd64_ok {num den : Int} (h1 : -lmax ≤ num) (h2 : num ≤ lmax) (hd : 0 < den) (h3 : den ≤ lmax) :
    gcd64 num den = some (Int.gcd num den : Int) := by
  have hle : (Int.gcd num den : Int) ≤ den := Int.le_of_dvd hd (Int.gcd_dvd_right num den)
  unfold gcd64
  rw [i64_ok (by unfold lmin lmax at *; split <;> omega) (by unfold lmax at *; split <;> omega),
    i64_ok (by unfold lmin lmax at *; split <;> omega) (by unfold lmax at *; split <;> omega)]
  exact i64_ok (by unfold lmin; omega) (le_trans hle h3)

theorem natAbs_tdiv_le (a b : Int) : |a.tdiv b| ≤ |a| := by
  have h2 : (a.tdiv b).natAbs ≤ a.natAbs := by
    rw [Int.natAbs_tdiv]
    exact Nat.div_le_self a.natAbs b.natAbs
  rw [← Int.natCast_natAbs, ← Int.natCast_natAbs]
  exact_mod_cast h2

/-- `reduce` gives the fraction for the quotient, and fails if there is none. -/
theorem reduce_spec {num den : Int} (h1 : -lmax ≤ num) (h2 : num ≤ lmax) (hd : 0 < den) (h3 : den ≤ lmax) :
    (∀ c, reduce num den = some c → FOk c ∧ ival c = (num : ℚ) / den) ∧
    ((reduce num den).isSome = true ↔ IFits ((num : ℚ) / den)) := by
  obtain ⟨p1, p2⟩ := gcd_parts num den hd
  have hg : (Int.gcd num den : Int) ≠ 0 := by
    intro h
    have : Int.gcd num den = 0 := by exact_mod_cast h
    rw [Int.gcd_eq_zero_iff] at this
    omega
  have b1 := abs_le.mp ((natAbs_tdiv_le num (Int.gcd num den)).trans (abs_le.mpr ⟨h1, h2⟩))
  have b2 := abs_le.mp ((natAbs_tdiv_le den (Int.gcd num den)).trans (abs_le.mpr ⟨by omega, h3⟩))
  set q : ℚ := (num : ℚ) / den with hq
  have e : reduce num den = if imin ≤ q.num ∧ q.num ≤ imax ∧ imin ≤ (q.den : Int) ∧ (q.den : Int) ≤ imax then
      some ⟨q.num, q.den⟩ else none := by
    unfold reduce
    rw [gcd64_ok h1 h2 hd h3]
    simp only [Option.bind_eq_bind, Option.bind_some, div64, if_neg hg]
    rw [i64_ok (by unfold lmin lmax at *; omega) b1.2, i64_ok (by unfold lmin lmax at *; omega) b2.2]
    simp only [Option.bind_some, p1, p2, Option.pure_def]
  have hmin : imin ≤ (q.den : Int) := by unfold imin; omega
  rw [e]
  refine ⟨fun c hc => ?_, ?_⟩
  · split at hc
    · rename_i hx
      cases hc
      refine ⟨⟨hx.1, hx.2.1, Int.natCast_pos.mpr q.pos, hx.2.2.2, ?_⟩, Rat.num_div_den q⟩
      have := q.reduced
      rwa [Int.gcd]
    · cases hc
  · rw [fits_iff]
    split
    · rename_i hx
      exact ⟨fun _ => ⟨hx.1, hx.2.1, hx.2.2.2⟩, fun _ => rfl⟩
    · rename_i hx
      exact ⟨fun h => by simp at h, fun h => absurd ⟨h.1, h.2.1, hmin, h.2.2⟩ hx⟩

theorem prod_bound {a b A B : Int} (h1 : -A ≤ a) (h2 : a ≤ A) (h3 : 0 ≤ b) (h4 : b ≤ B) (hA : 0 ≤ A) :
    -(A * B) ≤ a * b ∧ a * b ≤ A * B := by
  have hB : 0 ≤ B := h3.trans h4
  constructor <;> nlinarith [mul_nonneg hA hB, mul_nonneg (sub_nonneg.mpr h2) h3, mul_nonneg (by linarith : 0 ≤ a + A) h3,
    mul_nonneg hA (sub_nonneg.mpr h4)]

/-- Bounds of the numerators and denominators of sums and products. -/
theorem cross_bound {a b : IFrac} (ha : FOk a) (hb : FOk b) :
    -4611686016279904256 ≤ a.num * b.den ∧ a.num * b.den ≤ 4611686016279904256 := by
  have := prod_bound (A := 2147483648) (B := 2147483647) (a := a.num) (b := b.den) ha.1
    (by have := ha.2.1; omega) hb.2.2.1.le hb.2.2.2.1 (by omega)
  omega

theorem den_bound {a b : IFrac} (ha : FOk a) (hb : FOk b) :
    0 < a.den * b.den ∧ a.den * b.den ≤ 4611686014132420609 := by
  have := prod_bound (A := 2147483647) (B := 2147483647) (a := a.den) (b := b.den)
    (by have := ha.2.2.1; omega) ha.2.2.2.1 hb.2.2.1.le hb.2.2.2.1 (by omega)
  exact ⟨mul_pos ha.2.2.1 hb.2.2.1, by omega⟩

theorem add_spec {a b : IFrac} (ha : FOk a) (hb : FOk b) :
    (∀ c, add a b = some c → FOk c ∧ ival c = ival a + ival b) ∧
    ((add a b).isSome = true ↔ IFits (ival a + ival b)) := by
  have b1 := cross_bound ha hb
  have b2 := cross_bound hb ha
  have b3 := den_bound ha hb
  have hda : (a.den : ℚ) ≠ 0 := by have := ha.2.2.1; exact_mod_cast this.ne'
  have hdb : (b.den : ℚ) ≠ 0 := by have := hb.2.2.1; exact_mod_cast this.ne'
  have e : add a b = reduce (a.num * b.den + b.num * a.den) (a.den * b.den) := by
    unfold add
    rw [i64_ok (by unfold lmin; omega) (by unfold lmax; omega), i64_ok (by unfold lmin; omega) (by unfold lmax; omega)]
    simp only [Option.bind_eq_bind, Option.bind_some]
    rw [i64_ok (by unfold lmin; omega) (by unfold lmax; omega), i64_ok (by unfold lmin; omega) (by unfold lmax; omega)]
    rfl
  have hv : ((a.num * b.den + b.num * a.den : Int) : ℚ) / ((a.den * b.den : Int) : ℚ) = ival a + ival b := by
    unfold ival
    push_cast
    field_simp
  rw [e, ← hv]
  exact reduce_spec (by unfold lmax; omega) (by unfold lmax; omega) b3.1 (by unfold lmax; omega)

theorem mul_spec {a b : IFrac} (ha : FOk a) (hb : FOk b) :
    (∀ c, mul a b = some c → FOk c ∧ ival c = ival a * ival b) ∧
    ((mul a b).isSome = true ↔ IFits (ival a * ival b)) := by
  have b3 := den_bound ha hb
  have b1 : -4611686018427387904 ≤ a.num * b.num ∧ a.num * b.num ≤ 4611686018427387904 := by
    have h1 := ha.1; have h2 := ha.2.1; have h3 := hb.1; have h4 := hb.2.1
    have : |a.num * b.num| ≤ 2147483648 * 2147483648 := by
      rw [abs_mul]
      exact mul_le_mul (abs_le.mpr ⟨by omega, by omega⟩) (abs_le.mpr ⟨by omega, by omega⟩) (abs_nonneg _) (by omega)
    have := abs_le.mp this
    omega
  have e : mul a b = reduce (a.num * b.num) (a.den * b.den) := by
    unfold mul
    rw [i64_ok (by unfold lmin; omega) (by unfold lmax; omega), i64_ok (by unfold lmin; omega) (by unfold lmax; omega)]
    rfl
  have hv : ((a.num * b.num : Int) : ℚ) / ((a.den * b.den : Int) : ℚ) = ival a * ival b := by
    unfold ival
    push_cast
    rw [div_mul_div_comm]
  rw [e, ← hv]
  exact reduce_spec (by unfold lmax; omega) (by unfold lmax; omega) b3.1 (by unfold lmax; omega)

theorem neg_spec {a : IFrac} (ha : FOk a) :
    (∀ c, neg a = some c → FOk c ∧ ival c = -ival a) ∧ ((neg a).isSome = true ↔ IFits (-ival a)) := by
  obtain ⟨h1, h2, h3, h4, h5⟩ := ha
  have hv : ival ⟨-a.num, a.den⟩ = -ival a := by unfold ival; push_cast; ring
  by_cases hm : imin ≤ -a.num ∧ -a.num ≤ imax
  · have e : neg a = some ⟨-a.num, a.den⟩ := by unfold neg; rw [i32_ok hm.1 hm.2]; rfl
    have hok : FOk ⟨-a.num, a.den⟩ := ⟨hm.1, hm.2, h3, h4, (Int.neg_gcd ..).trans h5⟩
    rw [e]
    refine ⟨fun c hc => ?_, fun _ => ⟨_, hok, hv⟩, fun _ => rfl⟩
    cases hc
    exact ⟨hok, hv⟩
  · have e : neg a = none := by unfold neg i32; rw [if_neg hm]; rfl
    rw [e]
    refine ⟨fun c (hc : none = some c) => (Option.some_ne_none c hc.symm).elim, fun h => absurd h (by simp), fun h => ?_⟩
    rw [fits_iff] at h
    refine absurd ?_ hm
    rw [Rat.num_neg_eq_neg_num, fok_num ⟨h1, h2, h3, h4, h5⟩] at h
    exact ⟨h.1, h.2.1⟩

theorem inv_spec {a : IFrac} (ha : FOk a) (h0 : ival a ≠ 0) :
    (∀ c, inv a = some c → FOk c ∧ ival c = (ival a)⁻¹) ∧ ((inv a).isSome = true ↔ IFits (ival a)⁻¹) := by
  obtain ⟨h1, h2, h3, h4, h5⟩ := ha
  have hn0 : a.num ≠ 0 := by
    intro h
    apply h0
    unfold ival
    rw [h]
    simp
  have hd0 : (a.den : ℚ) ≠ 0 := by exact_mod_cast h3.ne'
  have hnq : (a.num : ℚ) ≠ 0 := by exact_mod_cast hn0
  by_cases hneg : a.num < 0
  · have hv : ival ⟨-a.den, -a.num⟩ = (ival a)⁻¹ := by
      unfold ival
      push_cast
      rw [inv_div, neg_div_neg_eq]
    have hg : Int.gcd (-a.den) (-a.num) = 1 := by
      rw [Int.neg_gcd, Int.gcd_neg, Int.gcd_comm]; exact h5
    by_cases hm : -a.num ≤ imax
    · have e : inv a = some ⟨-a.den, -a.num⟩ := by
        unfold inv abs32
        rw [if_pos hneg, if_pos hneg, i32_ok (by unfold imin; omega) (by unfold imax; omega),
          i32_ok (by unfold imin; omega) hm]
        simp
      have hok : FOk ⟨-a.den, -a.num⟩ := ⟨by simp only; omega, by simp only; omega, by simp only; omega, hm, hg⟩
      rw [e]
      refine ⟨fun c hc => ?_, fun _ => ⟨_, hok, hv⟩, fun _ => rfl⟩
      cases hc
      exact ⟨hok, hv⟩
    · have e : inv a = none := by
        unfold inv abs32
        rw [if_pos hneg, if_pos hneg, i32_ok (by unfold imin; omega) (by unfold imax; omega)]
        unfold i32
        rw [if_neg (fun h => hm h.2)]
        rfl
      rw [e]
      refine ⟨fun c (hc : none = some c) => (Option.some_ne_none c hc.symm).elim, fun h => absurd h (by simp), fun h => ?_⟩
      rw [← hv, fits_iff] at h
      have hd : ((ival ⟨-a.den, -a.num⟩).den : Int) = -a.num :=
        Rat.den_div_eq_of_coprime (a := -a.den) (b := -a.num) (by omega) (by rwa [Int.gcd] at hg)
      rw [hd] at h
      exact absurd h.2.2 hm
  · have hv : ival ⟨a.den, a.num⟩ = (ival a)⁻¹ := by
      unfold ival
      rw [inv_div]
    have e : inv a = some ⟨a.den, a.num⟩ := by
      unfold inv abs32
      rw [if_neg hneg, if_neg hneg, i32_ok (by unfold imin; omega) (by unfold imax; omega),
        i32_ok (by unfold imin; omega) (by unfold imax; omega)]
      simp
    have hok : FOk ⟨a.den, a.num⟩ := ⟨by simp only; omega, h4, by simp only; omega, h2, by rw [Int.gcd_comm]; exact h5⟩
    rw [e]
    refine ⟨fun c hc => ?_, fun _ => ⟨_, hok, hv⟩, fun _ => rfl⟩
    cases hc
    exact ⟨hok, hv⟩

theorem sub_spec {a b : IFrac} (ha : FOk a) (hb : FOk b) (hm : b.num ≠ -2147483648) :
    (∀ c, sub a b = some c → FOk c ∧ ival c = ival a - ival b) ∧
    ((sub a b).isSome = true ↔ IFits (ival a - ival b)) := by
  have hb1 := hb.1
  have hb2 := hb.2.1
  have e : neg b = some ⟨-b.num, b.den⟩ := by
    unfold neg; rw [i32_ok (by unfold imin; omega) (by unfold imax; omega)]; rfl
  obtain ⟨hok, hv⟩ := (neg_spec hb).1 _ e
  have e2 : sub a b = add a ⟨-b.num, b.den⟩ := by unfold sub; rw [e]; rfl
  rw [e2, sub_eq_add_neg, ← hv]
  exact add_spec ha hok

theorem sub_sound {a b c : IFrac} (ha : FOk a) (hb : FOk b) (h : sub a b = some c) :
    FOk c ∧ ival c = ival a - ival b := by
  unfold sub at h
  simp only [Option.bind_eq_bind, Option.bind_eq_some_iff] at h
  obtain ⟨d, hd, h⟩ := h
  obtain ⟨hok, hv⟩ := (neg_spec hb).1 _ hd
  rw [sub_eq_add_neg, ← hv]
  exact (add_spec ha hok).1 _ h

theorem inv_found {b : IFrac} (hb : FOk b) (hm : b.num ≠ -2147483648) : ∃ c, inv b = some c := by
  have hb1 := hb.1
  have hb2 := hb.2.1
  have hb3 := hb.2.2.1
  have hb4 := hb.2.2.2.1
  unfold inv abs32
  split
  · rw [i32_ok (by unfold imin; omega) (by unfold imax; omega), i32_ok (by unfold imin; omega) (by unfold imax; omega)]
    exact ⟨_, rfl⟩
  · rw [i32_ok (by unfold imin; omega) (by unfold imax; omega), i32_ok (by unfold imin; omega) (by unfold imax; omega)]
    exact ⟨_, rfl⟩

theorem div_spec {a b : IFrac} (ha : FOk a) (hb : FOk b) (h0 : ival b ≠ 0) (hm : b.num ≠ -2147483648) :
    (∀ c, div a b = some c → FOk c ∧ ival c = ival a / ival b) ∧
    ((div a b).isSome = true ↔ IFits (ival a / ival b)) := by
  obtain ⟨d, e⟩ := inv_found hb hm
  obtain ⟨hok, hv⟩ := (inv_spec hb h0).1 _ e
  have e2 : div a b = mul a d := by unfold div; rw [e]; rfl
  rw [e2, div_eq_mul_inv, ← hv]
  exact mul_spec ha hok

theorem div_sound {a b c : IFrac} (ha : FOk a) (hb : FOk b) (h0 : ival b ≠ 0) (h : div a b = some c) :
    FOk c ∧ ival c = ival a / ival b := by
  unfold div at h
  simp only [Option.bind_eq_bind, Option.bind_eq_some_iff] at h
  obtain ⟨d, hd, h⟩ := h
  obtain ⟨hok, hv⟩ := (inv_spec hb h0).1 _ hd
  rw [div_eq_mul_inv, ← hv]
  exact (mul_spec ha hok).1 _ h

theorem cross_le {a b : IFrac} (ha : FOk a) (hb : FOk b) : a.num * b.den ≤ b.num * a.den ↔ ival a ≤ ival b := by
  have hda : (0 : ℚ) < (a.den : ℚ) := by exact_mod_cast ha.2.2.1
  have hdb : (0 : ℚ) < (b.den : ℚ) := by exact_mod_cast hb.2.2.1
  unfold ival
  rw [div_le_div_iff₀ hda hdb]
  exact_mod_cast Iff.rfl

theorem lt_spec {a b : IFrac} (ha : FOk a) (hb : FOk b) : lt a b = some (decide (ival a < ival b)) := by
  have b1 := cross_bound ha hb
  have b2 := cross_bound hb ha
  unfold lt
  rw [i64_ok (by unfold lmin; omega) (by unfold lmax; omega), i64_ok (by unfold lmin; omega) (by unfold lmax; omega)]
  have := cross_le hb ha
  simp only [Option.bind_eq_bind, Option.bind_some, Option.pure_def, Option.some.injEq, decide_eq_decide]
  rw [← not_le, ← not_le, this]

theorem le_spec {a b : IFrac} (ha : FOk a) (hb : FOk b) : le a b = some (decide (ival a ≤ ival b)) := by
  have b1 := cross_bound ha hb
  have b2 := cross_bound hb ha
  unfold le
  rw [i64_ok (by unfold lmin; omega) (by unfold lmax; omega), i64_ok (by unfold lmin; omega) (by unfold lmax; omega)]
  have := cross_le ha hb
  simp only [Option.bind_eq_bind, Option.bind_some, Option.pure_def, Option.some.injEq, decide_eq_decide]
  rw [this]

theorem fok_int {n : Int} (h1 : imin ≤ n) (h2 : n ≤ imax) : FOk (ofInt n) :=
  ⟨h1, h2, by simp [ofInt], by simp [ofInt], by simp [ofInt]⟩

theorem ival_int (n : Int) : ival (ofInt n) = n := by simp [ival, ofInt]

theorem leInt_spec {a : IFrac} {n : Int} (ha : FOk a) (h1 : imin ≤ n) (h2 : n ≤ imax) :
    leInt a n = some (decide (ival a ≤ n)) := by
  have b2 := cross_bound (fok_int h1 h2) ha
  have h := cross_le ha (fok_int h1 h2)
  rw [ival_int] at h
  simp only [ofInt, mul_one] at h b2
  unfold leInt
  rw [mul_comm, i64_ok (by unfold lmin; omega) (by unfold lmax; omega)]
  simp only [Option.bind_eq_bind, Option.bind_some, Option.pure_def, Option.some.injEq, decide_eq_decide]
  rw [h]

theorem ltInt_spec {a : IFrac} {n : Int} (ha : FOk a) (h1 : imin ≤ n) (h2 : n ≤ imax) :
    ltInt a n = some (decide (ival a < n)) := by
  have b2 := cross_bound (fok_int h1 h2) ha
  have h := cross_le (fok_int h1 h2) ha
  rw [ival_int] at h
  simp only [ofInt, mul_one] at h b2
  unfold ltInt
  rw [mul_comm, i64_ok (by unfold lmin; omega) (by unfold lmax; omega)]
  simp only [Option.bind_eq_bind, Option.bind_some, Option.pure_def, Option.some.injEq, decide_eq_decide]
  rw [← not_le, ← not_le, h]

theorem eq_spec {a b : IFrac} (ha : FOk a) (hb : FOk b) : eq a b = decide (ival a = ival b) := by
  unfold eq
  rw [← Bool.decide_and, decide_eq_decide]
  constructor
  · rintro ⟨h1, h2⟩
    unfold ival
    rw [h1, h2]
  · intro h
    have := fok_unique ha hb h
    rw [this]
    exact ⟨rfl, rfl⟩

theorem eqInt_spec {a : IFrac} {n : Int} (ha : FOk a) : eqInt a n = decide (ival a = n) := by
  unfold eqInt
  rw [← Bool.decide_and, decide_eq_decide]
  constructor
  · rintro ⟨h1, h2⟩
    unfold ival
    rw [h1, h2]
    simp
  · intro h
    have h1 := fok_num ha
    have h2 := fok_den ha
    rw [h] at h1 h2
    exact ⟨by rw [← h2]; simp, by rw [← h1]; simp⟩

theorem make_spec {n d : Int} (h1 : imin < n) (h2 : n ≤ imax) (h3 : imin < d) (h4 : d ≤ imax) (h0 : d ≠ 0) :
    ∃ f, make n d = some f ∧ FOk f ∧ ival f = (n : ℚ) / d := by
  unfold imin imax at *
  -- the same quotient with positive denominator
  obtain ⟨m, e, hm, he, hn1, hn2, he1, he2, hq, hg⟩ : ∃ m e : Int,
      (if xor (decide (n < 0)) (decide (d < 0)) then -1 else 1) * (if n < 0 then -n else n) = m ∧
      (if d < 0 then -d else d) = e ∧ -2147483647 ≤ m ∧ m ≤ 2147483647 ∧ 0 < e ∧ e ≤ 2147483647 ∧
      (n : ℚ) / d = (m : ℚ) / e ∧ Int.gcd n d = Int.gcd m e := by
    refine ⟨_, _, rfl, rfl, ?_⟩
    by_cases hn : n < 0 <;> by_cases hd : d < 0 <;> simp only [hn, hd, decide_true, decide_false, Bool.xor_self, Bool.xor_false,
      Bool.xor_true, Bool.not_false, if_true, if_false, Bool.false_eq_true, neg_mul, one_mul, neg_neg]
    · refine ⟨by omega, by omega, by omega, by omega, ?_, ?_⟩
      · push_cast; rw [neg_div_neg_eq]
      · rw [Int.neg_gcd, Int.gcd_neg]
    · exact ⟨by omega, by omega, by omega, by omega, by trivial, by trivial⟩
    · refine ⟨by omega, by omega, by omega, by omega, ?_, ?_⟩
      · push_cast; rw [neg_div_neg_eq]
      · rw [Int.neg_gcd, Int.gcd_neg]
    · exact ⟨by omega, by omega, by omega, by omega, by trivial, by trivial⟩
  obtain ⟨p1, p2⟩ := gcd_parts m e he1
  have hgp : (Int.gcd m e : Int) ≠ 0 := by
    intro h
    have : Int.gcd m e = 0 := by exact_mod_cast h
    rw [Int.gcd_eq_zero_iff] at this
    omega
  have hgl : (Int.gcd m e : Int) ≤ e := Int.le_of_dvd he1 (Int.gcd_dvd_right m e)
  have b1 := abs_le.mp ((natAbs_tdiv_le m (Int.gcd m e)).trans (abs_le.mpr ⟨hn1, hn2⟩))
  have b2 := abs_le.mp ((natAbs_tdiv_le e (Int.gcd m e)).trans (abs_le.mpr ⟨by omega, he2⟩))
  have a1 : abs32 n = some (if n < 0 then -n else n) := by
    unfold abs32; split <;> exact i32_ok (by unfold imin; omega) (by unfold imax; omega)
  have a2 : abs32 d = some e := by
    rw [← he]
    unfold abs32; split <;> exact i32_ok (by unfold imin; omega) (by unfold imax; omega)
  have a3 : gcd32 n d = some (Int.gcd m e : Int) := by
    unfold gcd32
    rw [a1, a2, hg]
    exact i32_ok (by unfold imin; omega) (by unfold imax; omega)
  set q : ℚ := (m : ℚ) / e with hqd
  refine ⟨⟨q.num, q.den⟩, ?_, ?_, ?_⟩
  · unfold make
    simp only [a1, a2, a3, Option.bind_eq_bind, Option.bind_some, hm]
    rw [i32_ok (by unfold imin; omega) (by unfold imax; omega)]
    simp only [Option.bind_some, div32, if_neg hgp]
    rw [i32_ok (by unfold imin; omega) (by unfold imax; omega), i32_ok (by unfold imin; omega) (by unfold imax; omega)]
    simp only [Option.bind_some, p1, p2, Option.pure_def]
  · rw [p1] at b1
    rw [p2] at b2
    refine ⟨by simp only; omega, by simp only; omega, Int.natCast_pos.mpr q.pos, b2.2, ?_⟩
    have := q.reduced
    rwa [Int.gcd]
  · rw [hq]
    exact Rat.num_div_den q

theorem make_none {n d : Int} (h : n = imin ∨ d = imin ∨ (n = 0 ∧ d = 0)) : make n d = none := by
  rcases h with rfl | rfl | ⟨rfl, rfl⟩
  · simp [make, abs32, i32, imin, imax]
  · unfold make
    have : gcd32 n imin = none := by
      unfold gcd32
      cases abs32 n <;> simp [abs32, i32, imin, imax]
    rw [this]
    cases abs32 n <;> simp
  · decide

theorem make_sound {n d : Int} {f : IFrac} (h1 : imin ≤ n) (h2 : n ≤ imax) (h3 : imin ≤ d) (h4 : d ≤ imax) (h0 : d ≠ 0)
    (h : make n d = some f) : FOk f ∧ ival f = (n : ℚ) / d := by
  by_cases hn : n = imin
  · rw [make_none (Or.inl hn)] at h; cases h
  by_cases hd : d = imin
  · rw [make_none (Or.inr (Or.inl hd))] at h; cases h
  obtain ⟨g, e, hg⟩ := make_spec (by omega) h2 (by omega) h4 h0
  rw [e] at h
  cases h
  exact hg

theorem toInt_spec {a : IFrac} (ha : FOk a) : ∃ k : Int, toInt a = some k ∧ k = a.num.tdiv a.den := by
  have h0 : |a.num| ≤ 2147483648 := abs_le.mpr ⟨ha.1, by have := ha.2.1; omega⟩
  have h := abs_le.mp ((natAbs_tdiv_le a.num a.den).trans h0)
  refine ⟨_, ?_, rfl⟩
  unfold toInt div32
  rw [if_neg ha.2.2.1.ne']
  apply i32_ok
  · exact h.1
  · by_cases hn : a.num < 0
    · have h3 : a.num.tdiv a.den ≤ 0 := by
        have := Int.tdiv_nonneg (a := -a.num) (b := a.den) (by omega) ha.2.2.1.le
        rw [Int.neg_tdiv] at this
        omega
      unfold imax
      omega
    · have h3 := Int.tdiv_le_self (a := a.num) a.den (by omega)
      have := ha.2.1
      unfold imax
      omega

end IFrac

theorem IExpr.run_spec (e : IExpr) : ∀ q, Spec.IExpr.exact e = some q → ∀ f, e.run = some f → FOk f ∧ ival f = q := by
  induction e with
  | int n =>
    intro q hq f hf
    simp only [Spec.IExpr.exact, Option.some.injEq] at hq
    simp only [IExpr.run, Option.bind_eq_bind, Option.bind_eq_some_iff] at hf
    obtain ⟨m, hm, hf⟩ := hf
    obtain ⟨rfl, h1, h2⟩ := IFrac.i32_some hm
    cases hf
    exact ⟨IFrac.fok_int h1 h2, by rw [IFrac.ival_int, hq]⟩
  | frac n d =>
    intro q hq f hf
    simp only [Spec.IExpr.exact] at hq
    split at hq
    · cases hq
    rename_i h0
    cases hq
    simp only [IExpr.run, Option.bind_eq_bind, Option.bind_eq_some_iff] at hf
    obtain ⟨m, hm, k, hk, hf⟩ := hf
    obtain ⟨rfl, h1, h2⟩ := IFrac.i32_some hm
    obtain ⟨rfl, h3, h4⟩ := IFrac.i32_some hk
    exact IFrac.make_sound h1 h2 h3 h4 h0 hf
  | neg a ih =>
    intro q hq f hf
    simp only [Spec.IExpr.exact, Option.map_eq_some_iff] at hq
    obtain ⟨x, hx, rfl⟩ := hq
    simp only [IExpr.run, Option.bind_eq_bind, Option.bind_eq_some_iff] at hf
    obtain ⟨u, hu, hf⟩ := hf
    obtain ⟨hok, rfl⟩ := ih x hx u hu
    exact (IFrac.neg_spec hok).1 _ hf
  | inv a ih =>
    intro q hq f hf
    simp only [Spec.IExpr.exact, Option.bind_eq_some_iff] at hq
    obtain ⟨x, hx, hq⟩ := hq
    split at hq
    · cases hq
    rename_i h0
    cases hq
    simp only [IExpr.run, Option.bind_eq_bind, Option.bind_eq_some_iff] at hf
    obtain ⟨u, hu, hf⟩ := hf
    obtain ⟨hok, rfl⟩ := ih x hx u hu
    exact (IFrac.inv_spec hok h0).1 _ hf
  | add a b iha ihb =>
    intro q hq f hf
    simp only [Spec.IExpr.exact, Option.bind_eq_some_iff, Option.map_eq_some_iff] at hq
    obtain ⟨x, hx, y, hy, rfl⟩ := hq
    simp only [IExpr.run, Option.bind_eq_bind, Option.bind_eq_some_iff] at hf
    obtain ⟨u, hu, v, hv, hf⟩ := hf
    obtain ⟨hok, rfl⟩ := iha x hx u hu
    obtain ⟨hok', rfl⟩ := ihb y hy v hv
    exact (IFrac.add_spec hok hok').1 _ hf
  | sub a b iha ihb =>
    intro q hq f hf
    simp only [Spec.IExpr.exact, Option.bind_eq_some_iff, Option.map_eq_some_iff] at hq
    obtain ⟨x, hx, y, hy, rfl⟩ := hq
    simp only [IExpr.run, Option.bind_eq_bind, Option.bind_eq_some_iff] at hf
    obtain ⟨u, hu, v, hv, hf⟩ := hf
    obtain ⟨hok, rfl⟩ := iha x hx u hu
    obtain ⟨hok', rfl⟩ := ihb y hy v hv
    exact IFrac.sub_sound hok hok' hf
  | mul a b iha ihb =>
    intro q hq f hf
    simp only [Spec.IExpr.exact, Option.bind_eq_some_iff, Option.map_eq_some_iff] at hq
    obtain ⟨x, hx, y, hy, rfl⟩ := hq
    simp only [IExpr.run, Option.bind_eq_bind, Option.bind_eq_some_iff] at hf
    obtain ⟨u, hu, v, hv, hf⟩ := hf
    obtain ⟨hok, rfl⟩ := iha x hx u hu
    obtain ⟨hok', rfl⟩ := ihb y hy v hv
    exact (IFrac.mul_spec hok hok').1 _ hf
  | div a b iha ihb =>
    intro q hq f hf
    simp only [Spec.IExpr.exact, Option.bind_eq_some_iff] at hq
    obtain ⟨x, hx, y, hy, hq⟩ := hq
    split at hq
    · cases hq
    rename_i h0
    cases hq
    simp only [IExpr.run, Option.bind_eq_bind, Option.bind_eq_some_iff] at hf
    obtain ⟨u, hu, v, hv, hf⟩ := hf
    obtain ⟨hok, rfl⟩ := iha x hx u hu
    obtain ⟨hok', rfl⟩ := ihb y hy v hv
    exact IFrac.div_sound hok hok' h0 hf

end Yaga
