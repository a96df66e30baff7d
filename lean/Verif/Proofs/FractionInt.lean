import Verif.Proofs.LongFractionMisc
import Verif.Proofs.Std
import Verif.Model.FractionInt
import Mathlib.Algebra.GCDMonoid.Nat
import Mathlib.Data.Rat.Floor
import Mathlib.Tactic.LinearCombination

set_option linter.unusedVariables false

namespace Yaga
open Spec
namespace LF

/-! ### Integers -/

theorem int_q {a : LF} (h : Canonical a) {x : Int} (e : fval a = x) :
    a.ensureMpq.q.n = x ∧ a.ensureMpq.q.d = 1 := by
  obtain ⟨h1, h2⟩ := ensureMpq_val h
  have hn := lowest_num h2
  have hd := lowest_den h2
  have hv : (a.ensureMpq.q.n : ℚ) / (a.ensureMpq.q.d : ℚ) = x := by rw [← e, ← h1]; rfl
  rw [hv] at hn hd
  refine ⟨by rw [← hn]; exact Rat.num_intCast x, by rw [← hd]; simp⟩

theorem int_word {a : LF} (h : Canonical a) {x : Int} (e : fval a = x) (hw : a.wv = true) :
    a.num = x ∧ a.den = 1 ∧ wmin ≤ x ∧ x ≤ wmax := by
  have hl := (h.word hw).2
  have hn := lowest_num hl
  have hd := lowest_den hl
  rw [← fval_word hw, e] at hn hd
  have hx : a.num = x := by rw [← hn]; exact Rat.num_intCast x
  have := canonical_low h hw
  exact ⟨hx, by rw [← hd]; simp, hx ▸ this.1, hx ▸ this.2.1⟩

theorem int_isInteger {a : LF} (h : Canonical a) {x : Int} (e : fval a = x) : a.isInteger = true :=
  (isInteger_exact h).2 ⟨x, e⟩

theorem i32_ok {x : Int} (h1 : wmin ≤ x) (h2 : x ≤ wmax) : i32 x = .ok x := by
  unfold i32; rw [if_pos ⟨h1, h2⟩]

/-! ### `gcd` -/

theorem gcd_tmod (a b : Int) : Int.gcd b (Int.tmod a b) = Int.gcd a b := by
  unfold Int.gcd
  rw [Int.natAbs_tmod, Nat.gcd_comm b.natAbs, ← Nat.gcd_rec, Nat.gcd_comm]

theorem gcdLoopW_eq : ∀ (fuel : Nat) (a b : Int), b ≠ 0 → b.natAbs < fuel → ¬(a = wmin ∧ b = -1) →
    ¬(b = wmin ∧ Int.tmod a b = -1) → wmin ≤ b →  b ≤ wmax →
    ∃ g, gcdLoopW fuel a b = some g ∧ g.natAbs = Int.gcd a b ∧ (0 ≤ a → 0 ≤ b → 0 ≤ g) ∧ wmin ≤ g ∧ g ≤ wmax
  | 0, a, b, _, h, _, _, _, _ => by omega
  | fuel + 1, a, b, hb, h, h1, h2, hl, hu => by
    unfold gcdLoopW
    rw [if_neg h1]
    by_cases hr : Int.tmod a b = 0
    · simp only [hr, if_true]
      refine ⟨b, rfl, ?_, fun _ h => h, hl, hu⟩
      have := gcd_tmod a b
      rw [hr, Int.gcd_zero_right] at this
      exact this
    · simp only [hr, if_false]
      have hlt : (Int.tmod a b).natAbs < b.natAbs := by
        rw [Int.natAbs_tmod]; exact Nat.mod_lt _ (by omega)
      have hb2 : b.natAbs ≤ 2147483648 := by unfold wmin at hl; unfold wmax at hu; omega
      have hlt2 : (Int.tmod b (Int.tmod a b)).natAbs < (Int.tmod a b).natAbs := by
        rw [Int.natAbs_tmod b]; exact Nat.mod_lt _ (by omega)
      obtain ⟨g, g1, g2, g3, g4⟩ := gcdLoopW_eq fuel b (Int.tmod a b) hr (by omega) h2
        (by unfold wmin; omega) (by unfold wmin; omega) (by unfold wmax; omega)
      refine ⟨g, g1, by rw [g2, gcd_tmod], fun ha hb => g3 hb (Int.tmod_nonneg _ ha), g4⟩

theorem gcdW_eq {a b : Int} (ha1 : wmin ≤ a) (ha2 : a ≤ wmax) (hb1 : wmin ≤ b) (hb2 : b ≤ wmax)
    (h1 : ¬(a = wmin ∧ b = -1)) (h2 : ¬(b = wmin ∧ a = -1)) :
    ∃ g, gcdW a b = some g ∧ g.natAbs = Int.gcd a b ∧ (0 ≤ a → 0 ≤ b → 0 ≤ g) ∧ wmin ≤ g ∧ g ≤ wmax := by
  have key : ∀ x y : Int, wmin ≤ x → x ≤ wmax → y = wmin → Int.tmod x y = -1 → x = -1 := by
    intro x y hx1 hx2 hy ht
    by_cases hx : x = wmin
    · rw [hx, hy] at ht; exact absurd ht (by decide)
    · have e : x.natAbs < y.natAbs := by unfold wmin at *; unfold wmax at *; omega
      have t := Int.natAbs_tmod x y
      rw [ht, Nat.mod_eq_of_lt e] at t
      rcases Int.natAbs_eq_iff.1 t.symm with g | g
      · rw [g, hy] at ht
        exact absurd ht (by decide)
      · exact g
  unfold gcdW
  by_cases a0 : a = 0
  · rw [if_pos a0]; subst a0
    exact ⟨b, rfl, by simp, fun _ h => h, hb1, hb2⟩
  rw [if_neg a0]
  by_cases b0 : b = 0
  · rw [if_pos b0]; subst b0
    exact ⟨a, rfl, by simp, fun h _ => h, ha1, ha2⟩
  rw [if_neg b0]
  by_cases hc : b > a
  · rw [if_pos hc]
    obtain ⟨g, g1, g2, g3, g4⟩ := gcdLoopW_eq (a.natAbs + 1) b a a0 (by omega) h2
      (fun h => h1 ⟨h.1, key b a hb1 hb2 h.1 h.2⟩) ha1 ha2
    exact ⟨g, g1, by rw [g2, Int.gcd_comm], fun x y => g3 y x, g4⟩
  · rw [if_neg hc]
    obtain ⟨g, g1, g2, g3, g4⟩ := gcdLoopW_eq (b.natAbs + 1) a b b0 (by omega) h1
      (fun h => h2 ⟨h.1, key a b ha1 ha2 h.1 h.2⟩) hb1 hb2
    exact ⟨g, g1, g2, g3, g4⟩

theorem gcdLF_eq {a b : LF} (ha : Canonical a) (hb : Canonical b) {x y : Int} (ea : fval a = x) (eb : fval b = y)
    (h1 : ¬(x = -2 ^ 31 ∧ y = -1)) (h2 : ¬(y = -2 ^ 31 ∧ x = -1)) :
    ∃ (c : LF) (g : Int), gcdLF a b = some c ∧ Canonical c ∧ fval c = g ∧ g.natAbs = Int.gcd x y ∧
      (0 ≤ x → 0 ≤ y → 0 ≤ g) := by
  unfold gcdLF
  rw [int_isInteger ha ea, int_isInteger hb eb]
  by_cases hw : (a.wv && b.wv) = true
  · rw [Bool.and_eq_true] at hw
    obtain ⟨n1, _, l1, u1⟩ := int_word ha ea hw.1
    obtain ⟨n2, _, l2, u2⟩ := int_word hb eb hw.2
    obtain ⟨g, g1, g2, g3, g4, g5⟩ := gcdW_eq l1 u1 l2 u2 (by unfold wmin; omega) (by unfold wmin; omega)
    obtain ⟨c1, c2⟩ := ofWord_canonical g4 g5
    refine ⟨ofWord g, g, ?_, c1, c2, g2, g3⟩
    rw [hw.1, hw.2, n1, n2, g1]
    rfl
  · obtain ⟨c1, c2⟩ := ofMpz_canonical (Int.gcd x y)
    refine ⟨ofMpz (Int.gcd x y), Int.gcd x y, ?_, c1, c2, by simp, by simp⟩
    rw [if_neg (by simp), if_neg hw, (int_q ha ea).1, (int_q hb eb).1]

/-! ### `lcm` -/

theorem lcm_quot {a b g : Int} (hg : g.natAbs = Int.gcd a b) (hb : b ≠ 0) :
    (Int.tdiv b g * a).natAbs = Int.lcm a b ∧ (0 ≤ a → 0 ≤ b → 0 ≤ g → 0 ≤ Int.tdiv b g * a) := by
  refine ⟨?_, fun h1 h2 h3 => mul_nonneg (Int.tdiv_nonneg h2 h3) h1⟩
  rw [Int.natAbs_mul, Int.natAbs_tdiv, hg]
  unfold Int.lcm Int.gcd Nat.lcm
  rw [Nat.mul_div_assoc _ (Nat.gcd_dvd_right _ _), Nat.mul_comm]
  rfl

theorem tdiv_word {b g : Int} (h1 : wmin ≤ b) (h2 : b ≤ wmax) (hg : g ≠ 0) (h : ¬(b = wmin ∧ g = -1)) :
    wmin ≤ Int.tdiv b g ∧ Int.tdiv b g ≤ wmax := by
  have e : (Int.tdiv b g).natAbs = b.natAbs / g.natAbs := Int.natAbs_tdiv _ _
  have hle : b.natAbs / g.natAbs ≤ b.natAbs := Nat.div_le_self _ _
  unfold wmin wmax at *
  by_cases hb : b = -2147483648
  · by_cases h1 : g = 1
    · subst h1; rw [Int.tdiv_one]; omega
    · have : b.natAbs / g.natAbs ≤ b.natAbs / 2 := Nat.div_le_div_left (by omega) (by omega)
      omega
  · omega

theorem lcmW_eq {a b : Int} (ha1 : wmin ≤ a) (ha2 : a ≤ wmax) (hb1 : wmin ≤ b) (hb2 : b ≤ wmax)
    (h1 : ¬(a = wmin ∧ b = -1)) (h2 : ¬(b = wmin ∧ a = -1)) :
    ∃ (c : LF) (l : Int), lcmW a b = some c ∧ Canonical c ∧ fval c = l ∧ l.natAbs = Int.lcm a b ∧
      (0 ≤ a → 0 ≤ b → 0 ≤ l) := by
  have hz : Canonical (ofWord 0) ∧ fval (ofWord 0) = (0 : Int) := ofWord_canonical (by decide) (by decide)
  unfold lcmW
  by_cases a0 : a = 0
  · rw [if_pos a0]; subst a0
    exact ⟨_, 0, rfl, hz.1, hz.2, by simp, by simp⟩
  rw [if_neg a0]
  by_cases b0 : b = 0
  · rw [if_pos b0]; subst b0
    exact ⟨_, 0, rfl, hz.1, hz.2, by simp, by simp⟩
  rw [if_neg b0]
  obtain ⟨g, g1, g2, g3, g4, g5⟩ := gcdW_eq ha1 ha2 hb1 hb2 h1 h2
  have g0 : g ≠ 0 := by
    intro h
    rw [h, Int.natAbs_zero] at g2
    exact a0 (Int.gcd_eq_zero_iff.1 g2.symm).1
  rw [g1]
  by_cases hc : b > a
  · obtain ⟨q1, q2⟩ := tdiv_word hb1 hb2 g0 (by omega)
    obtain ⟨c1, c2⟩ := ofWord_canonical q1 q2
    obtain ⟨d1, d2⟩ := ofWord_canonical ha1 ha2
    obtain ⟨c, e1, e2, e3⟩ := mul_exact c1 d1
    obtain ⟨l1, l2⟩ := lcm_quot g2 b0
    refine ⟨c, Int.tdiv b g * a, ?_, e2, by rw [e3, c2, d2]; push_cast; rfl, l1, fun x y => l2 x y (g3 x y)⟩
    rw [Option.bind_some, if_pos hc, i32_ok q1 q2]
    exact e1
  · have hg' : ¬(a = wmin ∧ g = -1) := by
      rintro ⟨ha, hg⟩
      have hb : b = wmin := by omega
      rw [ha, hb, hg] at g2
      exact absurd g2 (by decide)
    obtain ⟨q1, q2⟩ := tdiv_word ha1 ha2 g0 hg'
    obtain ⟨c1, c2⟩ := ofWord_canonical q1 q2
    obtain ⟨d1, d2⟩ := ofWord_canonical hb1 hb2
    obtain ⟨c, e1, e2, e3⟩ := mul_exact c1 d1
    obtain ⟨l1, l2⟩ := lcm_quot (g2.trans (Int.gcd_comm a b)) a0
    refine ⟨c, Int.tdiv a g * b, ?_, e2, by rw [e3, c2, d2]; push_cast; rfl, by rw [l1, Int.lcm_comm],
      fun x y => l2 y x (g3 x y)⟩
    rw [Option.bind_some, if_neg hc, i32_ok q1 q2]
    exact e1

theorem lcmLF_eq {a b : LF} (ha : Canonical a) (hb : Canonical b) {x y : Int} (ea : fval a = x) (eb : fval b = y)
    (h1 : ¬(x = -2 ^ 31 ∧ y = -1)) (h2 : ¬(y = -2 ^ 31 ∧ x = -1)) :
    ∃ (c : LF) (l : Int), lcmLF a b = some c ∧ Canonical c ∧ fval c = l ∧ l.natAbs = Int.lcm x y ∧
      (0 ≤ x → 0 ≤ y → 0 ≤ l) := by
  unfold lcmLF
  rw [int_isInteger ha ea, int_isInteger hb eb]
  by_cases hw : (a.wv && b.wv) = true
  · have hw' := hw
    rw [Bool.and_eq_true] at hw'
    obtain ⟨n1, _, l1, u1⟩ := int_word ha ea hw'.1
    obtain ⟨n2, _, l2, u2⟩ := int_word hb eb hw'.2
    rw [if_neg (by simp), if_pos hw, n1, n2]
    exact lcmW_eq l1 u1 l2 u2 (by unfold wmin; omega) (by unfold wmin; omega)
  · obtain ⟨c1, c2⟩ := ofMpz_canonical (Int.lcm x y)
    refine ⟨ofMpz (Int.lcm x y), Int.lcm x y, ?_, c1, c2, by simp, by simp⟩
    rw [if_neg (by simp), if_neg hw, (int_q ha ea).1, (int_q hb eb).1]

/-! ### Numerator and denominator -/

theorem getDen_exact {a : LF} (h : Canonical a) : Canonical a.getDen ∧ fval a.getDen = ((fval a).den : Int) := by
  unfold getDen
  split
  · rename_i hc
    simp only [Bool.and_eq_true, decide_eq_true_eq] at hc
    have hl := (h.word hc.1).2
    have hd := lowest_den hl
    rw [← fval_word hc.1] at hd
    obtain ⟨c1, c2⟩ := ofUword_canonical (x := a.den) hl.1.le (by have := hc.2; unfold wmax at this; omega)
    exact ⟨c1, by rw [c2, hd]⟩
  · obtain ⟨h1, h2⟩ := ensureMpq_val h
    have hd := lowest_den h2
    have e : (a.ensureMpq.q.n : ℚ) / (a.ensureMpq.q.d : ℚ) = fval a := h1
    rw [e] at hd
    obtain ⟨c1, c2⟩ := ofMpz_canonical a.ensureMpq.q.d
    exact ⟨c1, by rw [c2, hd]⟩

theorem getNum_exact {a : LF} (h : Canonical a) : Canonical a.getNum ∧ fval a.getNum = ((fval a).num : Int) := by
  unfold getNum
  by_cases hw : a.wv = true
  · rw [if_pos hw]
    have hl := (h.word hw).2
    have hn := lowest_num hl
    rw [← fval_word hw] at hn
    obtain ⟨c1, c2⟩ := ofWord_canonical (canonical_low h hw).1 (canonical_low h hw).2.1
    exact ⟨c1, by rw [c2, hn]⟩
  · rw [if_neg hw]
    have hm : a.mv = true := h.valid.resolve_left hw
    have hn := lowest_num (h.mpq hm)
    have e : fval a = (a.q.n : ℚ) / (a.q.d : ℚ) := by unfold fval; rw [if_neg hw]
    rw [← e] at hn
    obtain ⟨c1, c2⟩ := ofMpz_canonical a.q.n
    exact ⟨c1, by rw [c2, hn]⟩

/-! ### Division -/

theorem floor_words {n d : Int} (h : d ≠ 0) :
    (if Int.tmod n d ≠ 0 ∧ ((n < 0 ∧ d ≥ 0) ∨ (d < 0 ∧ n ≥ 0)) then Int.tdiv n d - 1 else Int.tdiv n d)
      = Int.fdiv n d := by
  have e := Int.mul_tdiv_add_tmod n d
  have hlt : (Int.tmod n d).natAbs < d.natAbs := by
    rw [Int.natAbs_tmod]; exact Nat.mod_lt _ (by omega)
  have key : ∀ q r : Int, d * q + r = n → (0 < d → 0 ≤ r ∧ r < d) → (d < 0 → d < r ∧ r ≤ 0) → q = Int.fdiv n d := by
    intro q r e h1 h2
    rcases lt_or_gt_of_ne h with hd | hd
    · exact ((Int.fdiv_fmod_unique' hd).2 ⟨by rw [add_comm]; exact e, h2 hd⟩).1.symm
    · exact ((Int.fdiv_fmod_unique hd).2 ⟨by rw [add_comm]; exact e, h1 hd⟩).1.symm
  by_cases hn : 0 ≤ n
  · have hr : 0 ≤ Int.tmod n d := Int.tmod_nonneg _ hn
    split
    · refine key _ (Int.tmod n d + d) (by linear_combination e) (by omega) (by omega)
    · refine key _ (Int.tmod n d) e (by omega) (by omega)
  · have hr : Int.tmod n d ≤ 0 := by
      have := Int.tmod_nonneg d (a := -n) (by omega)
      rw [Int.neg_tmod] at this
      omega
    split
    · refine key _ (Int.tmod n d + d) (by linear_combination e) (by omega) (by omega)
    · refine key _ (Int.tmod n d) e (by omega) (by omega)

theorem fdiv_floor (n d : Int) : (Int.fdiv n d : Int) = ⌊(n : ℚ) / d⌋ := by
  rcases lt_trichotomy d 0 with h | h | h
  · obtain ⟨k, hk⟩ := Int.eq_ofNat_of_zero_le (a := -d) (by omega)
    have e : (n : ℚ) / d = ((-n : Int) : ℚ) / ((k : Nat) : ℚ) := by
      have : ((k : Nat) : ℚ) = -(d : ℚ) := by
        have : ((k : Int) : ℚ) = ((-d : Int) : ℚ) := by rw [hk]
        push_cast at this
        exact this
      rw [this]
      push_cast
      rw [neg_div_neg_eq]
    rw [e, Rat.floor_intCast_div_natCast, ← hk, ← Int.fdiv_eq_ediv_of_nonneg _ (by omega), Int.neg_fdiv_neg]
  · subst h
    simp
  · obtain ⟨k, hk⟩ := Int.eq_ofNat_of_zero_le h.le
    subst hk
    rw [Int.fdiv_eq_ediv_of_nonneg _ h.le]
    exact (Rat.floor_intCast_div_natCast n k).symm

theorem fdivQ_exact {n d : LF} (hn : Canonical n) (hd : Canonical d) {x y : Int} (en : fval n = x) (ed : fval d = y)
    (h0 : y ≠ 0) : ∃ c, fdivQ n d = some c ∧ Canonical c ∧ fval c = (⌊(x : ℚ) / y⌋ : Int) := by
  unfold fdivQ
  rw [int_isInteger hn en, int_isInteger hd ed, if_neg (by simp)]
  by_cases hw : (n.wv && d.wv && decide (n.num ≠ wmin)) = true
  · have hw' := hw
    simp only [Bool.and_eq_true, decide_eq_true_eq] at hw'
    obtain ⟨n1, _, l1, u1⟩ := int_word hn en hw'.1.1
    obtain ⟨n2, _, l2, u2⟩ := int_word hd ed hw'.1.2
    rw [if_pos hw, n1, n2, if_neg h0]
    have hx : x ≠ wmin := n1 ▸ hw'.2
    have e := floor_words (n := x) h0
    have hb : wmin ≤ Int.fdiv x y ∧ Int.fdiv x y ≤ wmax := by
      have hle : (Int.tdiv x y).natAbs ≤ x.natAbs := by rw [Int.natAbs_tdiv]; exact Nat.div_le_self _ _
      rw [← e]
      unfold wmin wmax at *
      split <;> omega
    simp only [e, i32_ok hb.1 hb.2]
    obtain ⟨c1, c2⟩ := ofWord_canonical hb.1 hb.2
    exact ⟨_, rfl, c1, by rw [c2, fdiv_floor]⟩
  · obtain ⟨c1, c2⟩ := ofMpz_canonical (Int.fdiv x y)
    rw [if_neg hw, (int_q hn en).1, (int_q hd ed).1, if_neg h0]
    exact ⟨_, rfl, c1, by rw [c2, fdiv_floor]⟩

theorem roundToInt_exact {n : LF} (hn : Canonical n) :
    ∃ c, roundToInt n = some c ∧ Canonical c ∧ fval c = (⌊fval n + 1 / 2⌋ : Int) := by
  have hh : Low 1 2 := ⟨by decide, by decide, by decide, by decide, by decide⟩
  obtain ⟨h1, h2⟩ := word_canonical hh
  obtain ⟨r, r1, r2, r3⟩ := add_exact hn h1
  obtain ⟨n1, n2⟩ := getNum_exact r2
  obtain ⟨d1, d2⟩ := getDen_exact r2
  obtain ⟨c, c1, c2, c3⟩ := fdivQ_exact n1 d1 n2 d2 (by exact_mod_cast (fval r).den_ne_zero)
  refine ⟨c, ?_, c2, ?_⟩
  · unfold roundToInt
    rw [make_coprime hh, Option.bind_some, r1, Option.bind_some, c1]
  · rw [c3]
    have : ((fval r).num : ℚ) / (((fval r).den : Int) : ℚ) = fval r := by
      push_cast; exact Rat.num_div_den _
    rw [this, r3, h2]
    norm_num

theorem divExact_exact {n d : LF} (hn : Canonical n) (hd : Canonical d) {x y : Int} (en : fval n = x) (ed : fval d = y)
    (h0 : y ≠ 0) (hdvd : y ∣ x) (h1 : ¬(x = -2 ^ 31 ∧ y = -1)) :
    ∃ c, divExact n d = some c ∧ Canonical c ∧ fval c = (x : ℚ) / y := by
  have hq : ((Int.tdiv x y : Int) : ℚ) = (x : ℚ) / y := by
    obtain ⟨k, rfl⟩ := hdvd
    rw [Int.mul_tdiv_cancel_left _ h0]
    have : (y : ℚ) ≠ 0 := by exact_mod_cast h0
    push_cast
    field_simp
  have hz : Canonical (ofWord 0) ∧ fval (ofWord 0) = (0 : Int) := ofWord_canonical (by decide) (by decide)
  unfold divExact
  rw [if_neg (by rw [eq_exact hd hz.1, ed, hz.2]; exact_mod_cast h0), int_isInteger hn en, int_isInteger hd ed,
    if_neg (by simp)]
  by_cases hw : (n.wv && d.wv) = true
  · have hw' := hw
    rw [Bool.and_eq_true] at hw'
    obtain ⟨n1, _, l1, u1⟩ := int_word hn en hw'.1
    obtain ⟨n2, _, l2, u2⟩ := int_word hd ed hw'.2
    obtain ⟨q1, q2⟩ := tdiv_word l1 u1 h0 (by unfold wmin; omega)
    rw [if_pos hw, n1, n2, if_neg h0, i32_ok q1 q2]
    obtain ⟨c1, c2⟩ := ofWord_canonical q1 q2
    exact ⟨_, rfl, c1, by rw [c2, hq]⟩
  · rw [if_neg hw, (int_q hn en).1, (int_q hd ed).1, if_pos hdvd]
    obtain ⟨c1, c2⟩ := ofMpz_canonical (Int.tdiv x y)
    exact ⟨_, rfl, c1, by rw [c2, hq]⟩

/-! ### Absolute values -/

theorem sign_cases {a : LF} (h : Canonical a) :
    (a.sign = -1 ∧ fval a < 0) ∨ (a.sign ≥ 0 ∧ a.sign ≠ -1 ∧ 0 ≤ fval a) := by
  have e := sign_exact h
  rcases lt_trichotomy (fval a) 0 with g | g | g
  · rw [if_pos g] at e
    exact .inl ⟨e, g⟩
  · rw [if_neg (by linarith), if_neg (by linarith)] at e
    exact .inr ⟨by omega, by omega, g.ge⟩
  · rw [if_neg (by linarith), if_pos g] at e
    exact .inr ⟨by omega, by omega, g.le⟩

theorem absLF_exact {a : LF} (h : Canonical a) : ∃ c, absLF a = some c ∧ Canonical c ∧ fval c = |fval a| := by
  unfold absLF
  rcases sign_cases h with ⟨e, g⟩ | ⟨e, _, g⟩
  · rw [e, if_neg (by decide)]
    obtain ⟨c, c1, c2, c3⟩ := neg_exact h
    exact ⟨c, c1, c2, by rw [c3, abs_of_neg g]⟩
  · rw [if_pos e]
    exact ⟨_, rfl, (copy_canonical h).1, by rw [(copy_canonical h).2, abs_of_nonneg g]⟩

theorem absArg {a : LF} (h : Canonical a) :
    ∃ c, (if a.sign = -1 then neg a else some a) = some c ∧ Canonical c ∧ fval c = |fval a| := by
  rcases sign_cases h with ⟨e, g⟩ | ⟨_, e, g⟩
  · rw [if_pos e]
    obtain ⟨c, c1, c2, c3⟩ := neg_exact h
    exact ⟨c, c1, c2, by rw [c3, abs_of_neg g]⟩
  · rw [if_neg e]
    exact ⟨_, rfl, h, by rw [abs_of_nonneg g]⟩

theorem cmpAbs_exact {a b : LF} (ha : Canonical a) (hb : Canonical b) :
    cmpAbs a b = some (if |fval a| < |fval b| then -1 else if |fval a| > |fval b| then 1 else 0) := by
  obtain ⟨c, c1, c2, c3⟩ := absArg ha
  obtain ⟨d, d1, d2, d3⟩ := absArg hb
  unfold cmpAbs
  rw [c1, Option.bind_some, d1, Option.bind_some, compare_exact c2 d2, c3, d3]

end LF
end Yaga
