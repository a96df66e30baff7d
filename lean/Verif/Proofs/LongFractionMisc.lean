import Verif.Proofs.LongFractionOps
import Mathlib.Data.Rat.Lemmas

set_option linter.unusedVariables false

namespace Yaga
open Spec
namespace LF

/-! ### Uniqueness of the representation -/

theorem lowest_num {n d : Int} (h : Lowest n d) : ((n : ℚ) / (d : ℚ)).num = n :=
  Rat.num_div_eq_of_coprime h.1 (by have := h.2; unfold Int.gcd at this; exact this)

theorem lowest_den {n d : Int} (h : Lowest n d) : (((n : ℚ) / (d : ℚ)).den : Int) = d :=
  Rat.den_div_eq_of_coprime h.1 (by have := h.2; unfold Int.gcd at this; exact this)

theorem canonical_wv {a : LF} (h : Canonical a) :
    a.wv = true ↔ Fits (fval a).num (fval a).den := by
  by_cases hw : a.wv = true
  · have h1 := h.word hw
    rw [fval_word hw, lowest_num h1.2, lowest_den h1.2]
    exact ⟨fun _ => h1.1, fun _ => hw⟩
  · have hw' : a.wv = false := by simpa using hw
    have hm : a.mv = true := by rcases h.valid with g | g; exact absurd g hw; exact g
    have h1 := h.mpq hm
    have e : fval a = (a.q.n : ℚ) / (a.q.d : ℚ) := by unfold fval; rw [if_neg hw]
    rw [e, lowest_num h1, lowest_den h1]
    exact ⟨fun g => absurd g hw, fun g => absurd g (h.big hw')⟩

theorem canonical_unique {a b : LF} (ha : Canonical a) (hb : Canonical b) (e : fval a = fval b) :
    a.wv = b.wv ∧ (a.wv = true → a.num = b.num ∧ a.den = b.den) ∧ a.ensureMpq.q = b.ensureMpq.q := by
  have hwv : a.wv = b.wv := by
    rw [Bool.eq_iff_iff, canonical_wv ha, canonical_wv hb, e]
  refine ⟨hwv, fun hw => ?_, ?_⟩
  · have hw2 : b.wv = true := hwv ▸ hw
    have h1 := (ha.word hw).2
    have h2 := (hb.word hw2).2
    rw [fval_word hw, fval_word hw2] at e
    exact ⟨by rw [← lowest_num h1, e, lowest_num h2], by rw [← lowest_den h1, e, lowest_den h2]⟩
  · obtain ⟨v1, l1⟩ := ensureMpq_val ha
    obtain ⟨v2, l2⟩ := ensureMpq_val hb
    have e' : a.ensureMpq.q.val = b.ensureMpq.q.val := by rw [v1, v2, e]
    unfold Mpq.val at e'
    have q1 : a.ensureMpq.q.n = b.ensureMpq.q.n := by rw [← lowest_num l1, e', lowest_num l2]
    have q2 : a.ensureMpq.q.d = b.ensureMpq.q.d := by rw [← lowest_den l1, e', lowest_den l2]
    cases h1 : a.ensureMpq.q
    cases h2 : b.ensureMpq.q
    rw [h1, h2] at q1 q2
    simp only at q1 q2
    rw [q1, q2]

theorem eq_exact {a b : LF} (ha : Canonical a) (hb : Canonical b) :
    eq a b = true ↔ fval a = fval b := by
  constructor
  · intro h
    unfold eq at h
    by_cases hw : (a.wv && b.wv) = true
    · rw [if_pos hw] at h
      rw [Bool.and_eq_true] at hw h
      rw [fval_word hw.1, fval_word hw.2, of_decide_eq_true h.1, of_decide_eq_true h.2]
    · rw [if_neg hw] at h
      have h' := of_decide_eq_true h
      rw [← (ensureMpq_val ha).1, ← (ensureMpq_val hb).1, h']
  · intro e
    obtain ⟨h1, h2, h3⟩ := canonical_unique ha hb e
    unfold eq
    by_cases hw : (a.wv && b.wv) = true
    · rw [if_pos hw]
      rw [Bool.and_eq_true] at hw
      rw [(h2 hw.1).1, (h2 hw.1).2]
      simp
    · rw [if_neg hw, h3]; simp

theorem hash_eq (limbs : Int → List Nat) {a b : LF} (ha : Canonical a) (hb : Canonical b)
    (e : fval a = fval b) : hash limbs a = hash limbs b := by
  obtain ⟨h1, h2, h3⟩ := canonical_unique ha hb e
  unfold hash
  by_cases hw : a.wv = true
  · rw [if_pos hw, if_pos (h1 ▸ hw), (h2 hw).1, (h2 hw).2]
  · have hwb : ¬ b.wv = true := by rw [← h1]; exact hw
    have hma : a.mv = true := by rcases ha.valid with g | g; exact absurd g hw; exact g
    have hmb : b.mv = true := by rcases hb.valid with g | g; exact absurd g hwb; exact g
    have qe : a.q = b.q := by
      unfold ensureMpq at h3
      rw [if_pos hma, if_pos hmb] at h3
      exact h3
    rw [if_neg hw, if_neg hwb, qe]

/-! ### Negation and comparison -/

theorem make_coprime {n d : Int} (h : Low n d) : make n d = some (word n d) := by
  unfold make
  have := h.pos
  rw [if_neg (by omega)]
  by_cases h0 : n = 0
  · rw [if_pos h0, h.den_one h0, h0]
  · rw [if_neg h0]
    have e : gcd (absW n) d = 1 := by
      rw [absW_eq h.1 h.2.1, gcd_eq (abs_nonneg _) h.pos.le, gcd_abs, h.2.2.2.2]; rfl
    simp only [e]
    rw [if_neg (by omega)]

theorem lowest_neg {n d : Int} (h : Lowest n d) : Lowest (-n) d :=
  ⟨h.1, by rw [Int.neg_gcd]; exact h.2⟩

theorem neg_exact {a : LF} (ha : Canonical a) :
    ∃ c, neg a = some c ∧ Canonical c ∧ fval c = -fval a := by
  unfold neg
  by_cases c : (a.wv && decide (a.num > wmin)) = true
  · rw [if_pos c]
    rw [Bool.and_eq_true] at c
    have hl := canonical_low ha c.1
    have hc := of_decide_eq_true c.2
    have hl2 : Low (-a.num) a.den := low_neg hl (by unfold wmin wmax at *; omega)
    obtain ⟨g1, g2⟩ := word_canonical hl2
    refine ⟨_, make_coprime hl2, g1, g2.trans ?_⟩
    rw [fval_word c.1]
    push_cast
    ring
  · rw [if_neg c]
    obtain ⟨v1, l1⟩ := ensureMpq_val ha
    obtain ⟨g1, g2⟩ := ofMpq_canonical (ofWord 0) (p := ⟨-a.ensureMpq.q.n, a.ensureMpq.q.d⟩)
      (lowest_neg l1)
    refine ⟨_, rfl, g1, g2.trans ?_⟩
    rw [← v1]
    unfold Mpq.val
    push_cast
    ring

theorem negate_exact {a : LF} (ha : Canonical a) :
    Canonical a.negate ∧ fval a.negate = -fval a := by
  unfold negate
  by_cases c : (a.wv && decide (a.num > wmin)) = true
  · rw [if_pos c]
    rw [Bool.and_eq_true] at c
    have hl := canonical_low ha c.1
    have hc := of_decide_eq_true c.2
    have hl2 : Low (-a.num) a.den := low_neg hl (by unfold wmin wmax at *; omega)
    obtain ⟨g1, g2⟩ := setWord_canonical a hl2
    have e : ({ a with num := -a.num, mv := false } : LF) = a.setWord (-a.num) a.den := by
      unfold setWord
      rw [← c.1]
    rw [e]
    refine ⟨g1, g2.trans ?_⟩
    rw [fval_word c.1]
    push_cast
    ring
  · rw [if_neg c]
    obtain ⟨v1, l1⟩ := ensureMpq_val ha
    obtain ⟨g1, g2⟩ := ofMpq_canonical a (p := ⟨-a.ensureMpq.q.n, a.ensureMpq.q.d⟩)
      (lowest_neg l1)
    refine ⟨g1, g2.trans ?_⟩
    rw [← v1]
    unfold Mpq.val
    push_cast
    ring

theorem cmp_cases {x y : ℚ} {i j : Int} (hl : x < y ↔ i < j) (hg : x > y ↔ i > j) :
    cmpL i j = (if x < y then -1 else if x > y then 1 else 0) := by
  unfold cmpL
  by_cases c : i < j
  · rw [if_pos c, if_pos (hl.mpr c)]
  · rw [if_neg c, if_neg (fun h => c (hl.mp h))]
    by_cases c2 : i > j
    · rw [if_pos c2, if_pos (hg.mpr c2)]
    · rw [if_neg c2, if_neg (fun h => c2 (hg.mp h))]

theorem compare_exact {a b : LF} (ha : Canonical a) (hb : Canonical b) :
    compare a b = some (if fval a < fval b then -1 else if fval a > fval b then 1 else 0) := by
  unfold compare
  by_cases hw : (a.wv && b.wv) = true
  · rw [if_pos hw]
    rw [Bool.and_eq_true] at hw
    have la := canonical_low ha hw.1
    have lb := canonical_low hb hw.2
    have pa : (0 : ℚ) < a.den := by exact_mod_cast la.pos
    have pb : (0 : ℚ) < b.den := by exact_mod_cast lb.pos
    rw [fval_word hw.1, fval_word hw.2]
    by_cases hd : b.den = a.den
    · rw [if_pos hd, hd]
      congr 1
      refine cmp_cases ?_ ?_
      · rw [div_lt_div_iff_of_pos_right pa]; exact Int.cast_lt
      · rw [gt_iff_lt, div_lt_div_iff_of_pos_right pa]; exact Int.cast_lt
    · rw [if_neg hd]
      have hA := prod_lword la.1 la.2.1 lb.pos.le lb.2.2.2.1
      have hB := prod_lword lb.1 lb.2.1 la.pos.le la.2.2.2.1
      unfold i64
      rw [if_pos hA, if_pos hB]
      simp only
      congr 1
      refine cmp_cases ?_ ?_
      · rw [div_lt_div_iff₀ pa pb]; exact_mod_cast Iff.rfl
      · rw [gt_iff_lt, div_lt_div_iff₀ pb pa]; exact_mod_cast Iff.rfl
  · rw [if_neg hw, (ensureMpq_val ha).1, (ensureMpq_val hb).1]

theorem sign_exact {a : LF} (ha : Canonical a) :
    sign a = if fval a < 0 then -1 else if fval a > 0 then 1 else 0 := by
  have key : ∀ n d : Int, 0 < d →
      (if n < 0 then (-1 : Int) else if n > 0 then 1 else 0) =
      (if (n : ℚ) / d < 0 then -1 else if (n : ℚ) / d > 0 then 1 else 0) := by
    intro n d hd
    have hd' : (0 : ℚ) < d := by exact_mod_cast hd
    have h1 : (n : ℚ) / d < 0 ↔ n < 0 := by
      rw [div_lt_iff₀ hd', zero_mul]; exact_mod_cast Iff.rfl
    have h2 : (n : ℚ) / d > 0 ↔ n > 0 := by
      rw [gt_iff_lt, lt_div_iff₀ hd', zero_mul]; exact_mod_cast Iff.rfl
    simp only [h1, h2]
  unfold sign
  by_cases hw : a.wv = true
  · rw [if_pos hw, fval_word hw]
    exact key _ _ (ha.word hw).2.1
  · have hm : a.mv = true := by rcases ha.valid with g | g; exact absurd g hw; exact g
    have e : fval a = (a.q.n : ℚ) / (a.q.d : ℚ) := by unfold fval; rw [if_neg hw]
    rw [if_neg hw, e]
    exact key _ _ (ha.mpq hm).1

theorem isZero_exact {a : LF} (ha : Canonical a) : a.isZero = true ↔ fval a = 0 := by
  unfold isZero
  rw [Bool.and_eq_true]
  constructor
  · rintro ⟨h1, h2⟩; exact fval_zero h1 (of_decide_eq_true h2)
  · intro e
    have hw : a.wv = true := by
      rw [canonical_wv ha, e]
      exact ⟨by decide, by decide, by decide⟩
    refine ⟨hw, ?_⟩
    rw [fval_word hw, div_eq_zero_iff] at e
    have hd := (ha.word hw).2.1
    rcases e with e | e
    · exact decide_eq_true (by exact_mod_cast e)
    · exact absurd e (by exact_mod_cast hd.ne')

theorem isOne_exact {a : LF} (ha : Canonical a) : a.isOne = true ↔ fval a = 1 := by
  unfold isOne
  rw [Bool.and_eq_true, Bool.and_eq_true]
  constructor
  · rintro ⟨⟨h1, h2⟩, h3⟩; exact fval_one h1 (of_decide_eq_true h2) (of_decide_eq_true h3)
  · intro e
    have hw : a.wv = true := by
      rw [canonical_wv ha, e]
      exact ⟨by decide, by decide, by decide⟩
    have hl := (ha.word hw).2
    rw [fval_word hw] at e
    have h1 := lowest_num hl
    have h2 := lowest_den hl
    rw [e] at h1 h2
    exact ⟨⟨hw, decide_eq_true h1.symm⟩, decide_eq_true h2.symm⟩

/-! ### Integers -/

theorem isInteger_exact {a : LF} (ha : Canonical a) :
    a.isInteger = true ↔ ∃ z : Int, fval a = z := by
  have key : ∀ n d : Int, Lowest n d → (d = 1 ↔ ∃ z : Int, (n : ℚ) / d = z) := by
    intro n d h
    constructor
    · rintro rfl; exact ⟨n, by simp⟩
    · rintro ⟨z, hz⟩
      have := lowest_den h
      rw [hz] at this
      simpa using this.symm
  unfold isInteger
  by_cases hw : a.wv = true
  · rw [if_pos hw, fval_word hw, decide_eq_true_iff]
    exact key _ _ (ha.word hw).2
  · have hm : a.mv = true := by rcases ha.valid with g | g; exact absurd g hw; exact g
    have e : fval a = (a.q.n : ℚ) / (a.q.d : ℚ) := by unfold fval; rw [if_neg hw]
    rw [if_neg hw, e, ← key _ _ (ha.mpq hm)]
    simp only [Bool.and_eq_true, decide_eq_true_eq]
    unfold uwmax
    omega

theorem ofMpz_canonical (z : Int) : Canonical (ofMpz z) ∧ fval (ofMpz z) = z := by
  unfold ofMpz
  by_cases h : wmin ≤ z ∧ z ≤ wmax
  · rw [if_pos h]
    obtain ⟨g1, g2⟩ := word_canonical (n := z) (d := 1) ⟨h.1, h.2, by decide, by decide, by simp⟩
    exact ⟨g1, g2.trans (by simp)⟩
  · rw [if_neg h]
    refine ⟨⟨Or.inr rfl, fun g => ?_, fun _ => ⟨by show (0:Int) < 1; decide, by show Int.gcd z 1 = 1; simp⟩, fun g => ?_, fun _ => ?_⟩, ?_⟩
    · cases g
    · cases g
    · rintro ⟨h1, h2, -⟩
      have h1' : -2 ^ 31 ≤ z := h1
      have h2' : z < 2 ^ 31 := h2
      unfold wmin wmax at h
      omega
    · show (z : ℚ) / ((1 : Int) : ℚ) = z
      simp

theorem ofUword_canonical {x : Int} (h1 : 0 ≤ x) (h2 : x < 2 ^ 32) :
    Canonical (ofUword x) ∧ fval (ofUword x) = x := by
  have e : ofUword x = ofMpz x := by
    unfold ofUword ofMpz
    unfold wmin wmax
    by_cases h : x > 2147483647
    · rw [if_pos h, if_neg (by omega)]
    · rw [if_neg h, if_pos (by omega)]
  rw [e]
  exact ofMpz_canonical x

theorem ofWord_canonical {z : Int} (h1 : wmin ≤ z) (h2 : z ≤ wmax) :
    Canonical (ofWord z) ∧ fval (ofWord z) = z := by
  obtain ⟨g1, g2⟩ := word_canonical (n := z) (d := 1) ⟨h1, h2, by decide, by decide, by simp⟩
  exact ⟨g1, g2.trans (by simp)⟩

theorem ofString_canonical (r : ℚ) : Canonical (ofString r) ∧ fval (ofString r) = r := by
  obtain ⟨g1, g2⟩ := ofMpq_canonical (ofWord 0) (ofRat_lowest r)
  rw [ofRat_val] at g2
  unfold ofString
  simp only
  by_cases hw : ((ofWord 0).ofMpq (Mpq.ofRat r)).wv = true
  · rw [if_pos hw]
    obtain ⟨k1, k2⟩ := word_canonical (canonical_low g1 hw)
    exact ⟨k1, k2.trans ((fval_word hw).symm.trans g2)⟩
  · rw [if_neg hw]; exact ⟨g1, g2⟩

theorem ceil_exact {a : LF} (ha : Canonical a) :
    ∃ c, ceil a = some c ∧ Canonical c ∧ fval c = (⌈fval a⌉ : Int) := by
  unfold ceil
  by_cases hi : a.isInteger = true
  · rw [if_pos hi]
    obtain ⟨g1, g2⟩ := copy_canonical ha
    obtain ⟨z, hz⟩ := (isInteger_exact ha).mp hi
    exact ⟨_, rfl, g1, by rw [g2, hz, Int.ceil_intCast]⟩
  rw [if_neg hi]
  by_cases hw : a.wv = true
  · rw [if_pos hw]
    have hl := canonical_low ha hw
    have hden : a.den ≠ 1 := by
      intro h
      exact hi (by unfold isInteger; rw [if_pos hw, h]; simp)
    have hd2 : 2 ≤ a.den := by have := hl.pos; omega
    have hn0 : a.num ≠ 0 := fun h => hden (hl.den_one h)
    have wa := abs_word hl.1 hl.2.1
    have q0 : 0 ≤ |a.num| / a.den := Int.ediv_nonneg (abs_nonneg _) hl.pos.le
    have em := Int.mul_ediv_add_emod |a.num| a.den
    have r0 := Int.emod_nonneg |a.num| hl.pos.ne'
    have r1 := Int.emod_lt_of_pos |a.num| hl.pos
    have q1 : |a.num| / a.den ≤ 1073741824 := by
      by_contra hc
      have : a.den * 1073741825 ≤ a.den * (|a.num| / a.den) :=
        mul_le_mul_of_nonneg_left (by omega) hl.pos.le
      omega
    rw [absW_eq hl.1 hl.2.1, toWord_id (by unfold wmin; omega) (by unfold wmax; omega)]
    have hdq : (0 : ℚ) < a.den := by exact_mod_cast hl.pos
    by_cases hneg : a.num < 0
    · simp only [if_pos hneg]
      have hb : wmin ≤ -(|a.num| / a.den) ∧ -(|a.num| / a.den) ≤ wmax := by
        unfold wmin wmax; omega
      unfold i32
      rw [if_pos hb]
      obtain ⟨g1, g2⟩ := ofWord_canonical hb.1 hb.2
      refine ⟨_, rfl, g1, g2.trans ?_⟩
      congr 1
      symm
      rw [fval_word hw, Int.ceil_eq_iff]
      rw [abs_of_neg hneg] at *
      refine ⟨?_, ?_⟩
      · rw [lt_div_iff₀ hdq]
        have : (-(-a.num / a.den) - 1) * a.den < a.num := by
          have := mul_comm a.den (-a.num / a.den)
          nlinarith
        exact_mod_cast this
      · rw [div_le_iff₀ hdq]
        have : a.num ≤ (-(-a.num / a.den)) * a.den := by
          have := mul_comm a.den (-a.num / a.den)
          nlinarith
        exact_mod_cast this
    · simp only [if_neg hneg]
      have hb : wmin ≤ |a.num| / a.den + 1 ∧ |a.num| / a.den + 1 ≤ wmax := by
        unfold wmin wmax; omega
      unfold i32
      rw [if_pos hb]
      obtain ⟨g1, g2⟩ := ofWord_canonical hb.1 hb.2
      refine ⟨_, rfl, g1, g2.trans ?_⟩
      congr 1
      symm
      rw [fval_word hw, Int.ceil_eq_iff]
      rw [abs_of_nonneg (by omega)] at *
      have hr : a.num % a.den ≠ 0 := by
        intro h
        have hdvd : a.den ∣ a.num := Int.dvd_of_emod_eq_zero h
        have hg : a.den ∣ (Int.gcd a.num a.den : Int) := Int.dvd_coe_gcd hdvd dvd_rfl
        rw [hl.2.2.2.2] at hg
        have := Int.le_of_dvd (by decide) hg
        norm_num at this
        omega
      refine ⟨?_, ?_⟩
      · rw [lt_div_iff₀ hdq]
        have : (a.num / a.den + 1 - 1) * a.den < a.num := by
          have := mul_comm a.den (a.num / a.den)
          have e : (a.num / a.den + 1 - 1) = a.num / a.den := by ring
          rw [e]
          omega
        exact_mod_cast this
      · rw [div_le_iff₀ hdq]
        have : a.num ≤ (a.num / a.den + 1) * a.den := by
          have := mul_comm a.den (a.num / a.den)
          nlinarith
        exact_mod_cast this
  · rw [if_neg hw]
    have hm : a.mv = true := by rcases ha.valid with g | g; exact absurd g hw; exact g
    have e : fval a = a.q.val := by unfold fval Mpq.val; rw [if_neg hw]
    obtain ⟨g1, g2⟩ := ofMpz_canonical ⌈a.q.val⌉
    exact ⟨_, rfl, g1, by rw [g2, e]⟩

theorem floor_exact {a : LF} (ha : Canonical a) :
    ∃ c, floor a = some c ∧ Canonical c ∧ fval c = (⌊fval a⌋ : Int) := by
  unfold floor
  by_cases hi : a.isInteger = true
  · rw [if_pos hi]
    obtain ⟨g1, g2⟩ := copy_canonical ha
    obtain ⟨z, hz⟩ := (isInteger_exact ha).mp hi
    exact ⟨_, rfl, g1, by rw [g2, hz, Int.floor_intCast]⟩
  rw [if_neg hi]
  obtain ⟨c, h1, h2, h3⟩ := ceil_exact ha
  rw [h1]
  obtain ⟨o1, o2⟩ := ofWord_canonical (z := 1) (by decide) (by decide)
  obtain ⟨r, r1, r2, r3⟩ := sub_exact h2 o1
  refine ⟨r, r1, r2, ?_⟩
  rw [r3, h3, o2]
  have hni : ¬ ∃ z : Int, fval a = z := fun g => hi ((isInteger_exact ha).mpr g)
  have : ⌊fval a⌋ = ⌈fval a⌉ - 1 := by
    rw [Int.floor_eq_iff]
    push_cast
    constructor
    · have := Int.ceil_lt_add_one (fval a)
      linarith
    · have h := Int.le_ceil (fval a)
      rcases lt_or_eq_of_le h with g | g
      · linarith
      · exact absurd ⟨_, g⟩ hni
  rw [this]
  push_cast
  ring

/-! ### Reciprocals -/

theorem inverse_exact {a : LF} (ha : Canonical a) (h0 : fval a ≠ 0) :
    ∃ c, inverse a = some c ∧ Canonical c ∧ fval c = (fval a)⁻¹ := by
  unfold inverse
  refine finish_exact (f := fun x _ => x⁻¹) ha ha ?_
  obtain ⟨z1, z2⟩ := fval_ne_zero ha h0
  by_cases hw : a.wv = true
  · rw [if_pos hw, if_neg (z2 hw), fval_word hw]
    have hl := canonical_low ha hw
    have n1 := hl.1
    have n2 := hl.2.1
    have n3 := hl.pos
    have n4 := hl.2.2.2.1
    have e1 : wmin = -2147483648 := rfl
    have e2 : wmax = 2147483647 := rfl
    have e3 : uwmax = 4294967295 := rfl
    have e4 : lmin = -9223372036854775808 := rfl
    have e5 : lmax = 9223372036854775807 := rfl
    have hn := z2 hw
    have hc : Int.gcd a.den a.num = 1 := by rw [Int.gcd_comm]; exact hl.2.2.2.2
    by_cases hp : a.num > 0
    · rw [if_pos hp]
      refine fast_checkWord (by omega) (by omega) fun w1 w2 => fast_checkUword (by omega) (by omega)
        fun u => fast_pure ⟨w1, w2, hp, u, hc⟩ ?_
      rw [inv_div]
    · rw [if_neg hp]
      refine fast_checkWord (by omega) (by omega) fun w1 w2 => fast_checkUword (by omega) (by omega)
        fun u => fast_pure ⟨w1, w2, by omega, u, ?_⟩ ?_
      · rw [Int.neg_gcd, Int.gcd_neg]; exact hc
      · rw [inv_div]; push_cast; rw [neg_div_neg_eq]
  · rw [if_neg hw]
    have hm : a.mv = true := by rcases ha.valid with g | g; exact absurd g hw; exact g
    have : a.q.n ≠ 0 := by
      intro h
      apply h0
      unfold fval
      rw [if_neg hw, h]
      simp
    rw [if_neg this]
    trivial

end LF
end Yaga
