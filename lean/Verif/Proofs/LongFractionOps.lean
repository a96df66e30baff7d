import Verif.Proofs.LongFraction
import Mathlib.Tactic.LinearCombination

set_option linter.unusedVariables false

namespace Yaga
open Spec
namespace LF

/-- A word with a valid canonical word part, as `FastOk` sees it. -/
theorem canonical_low {a : LF} (h : Canonical a) (hw : a.wv = true) : Low a.num a.den := by
  obtain ⟨⟨f1, f2, f3⟩, f4, f5⟩ := h.word hw
  unfold Low wmin wmax uwmax
  refine ⟨by omega, by omega, f4, by omega, f5⟩

theorem fval_word {a : LF} (hw : a.wv = true) : fval a = (a.num : ℚ) / (a.den : ℚ) := by
  unfold fval; rw [if_pos hw]

/-- What `ensure_mpq_valid` provides. -/
theorem ensureMpq_val {a : LF} (h : Canonical a) :
    a.ensureMpq.q.val = fval a ∧ Lowest a.ensureMpq.q.n a.ensureMpq.q.d := by
  unfold ensureMpq Mpq.val fval
  by_cases hm : a.mv = true
  · rw [if_pos hm]
    refine ⟨?_, h.mpq hm⟩
    by_cases hw : a.wv = true
    · rw [if_pos hw, (h.same hw hm).1, (h.same hw hm).2]
    · rw [if_neg hw]
  · rw [if_neg hm]
    have hw : a.wv = true := by rcases h.valid with g | g; exact g; exact absurd g hm
    rw [if_pos hw]
    exact ⟨rfl, (h.word hw).2⟩

theorem ensureMpq_canonical {a : LF} (h : Canonical a) :
    Canonical a.ensureMpq ∧ fval a.ensureMpq = fval a := by
  unfold ensureMpq
  by_cases hm : a.mv = true
  · rw [if_pos hm]; exact ⟨h, rfl⟩
  · rw [if_neg hm]
    have hw : a.wv = true := by rcases h.valid with g | g; exact g; exact absurd g hm
    refine ⟨⟨Or.inr rfl, h.word, fun _ => (h.word hw).2, fun _ _ => ⟨rfl, rfl⟩, fun g => ?_⟩, ?_⟩
    · rw [show ({ a with q := ⟨a.num, a.den⟩, mv := true } : LF).wv = a.wv from rfl, hw] at g
      cases g
    · unfold fval; simp only [hw, if_true]

theorem fitsWord_iff {a : LF} (hd : 0 < a.q.d) : a.fitsWord = true ↔ Fits a.q.n a.q.d := by
  unfold fitsWord Fits wmin wmax uwmax
  simp only [Bool.and_eq_true, decide_eq_true_eq]
  omega

theorem ofMpq_canonical (dst : LF) {p : Mpq} (hp : Lowest p.n p.d) :
    Canonical (dst.ofMpq p) ∧ fval (dst.ofMpq p) = p.val := by
  unfold ofMpq tryFit
  have hf := fitsWord_iff (a := { dst with wv := false, mv := true, q := p }) hp.1
  by_cases hw : ({ dst with wv := false, mv := true, q := p } : LF).fitsWord = true
  · rw [if_pos hw]
    refine ⟨⟨Or.inl rfl, fun _ => ⟨hf.mp hw, hp⟩, fun _ => hp, fun _ _ => ⟨rfl, rfl⟩, fun g => ?_⟩, ?_⟩
    · cases g
    · rfl
  · rw [if_neg hw]
    refine ⟨⟨Or.inr rfl, fun g => ?_, fun _ => hp, fun g => ?_, fun _ => fun g => hw (hf.mpr g)⟩, ?_⟩
    · cases g
    · cases g
    · rfl

theorem ofRat_lowest (r : ℚ) : Lowest (Mpq.ofRat r).n (Mpq.ofRat r).d := by
  refine ⟨Int.natCast_pos.mpr r.pos, ?_⟩
  have := r.reduced
  unfold Nat.Coprime at this
  simpa [Mpq.ofRat, Int.gcd] using this

theorem ofRat_val (r : ℚ) : (Mpq.ofRat r).val = r := by
  unfold Mpq.val Mpq.ofRat
  simpa using r.num_div_den

theorem setWord_canonical (dst : LF) {n d : Int} (h : Low n d) :
    Canonical (dst.setWord n d) ∧ fval (dst.setWord n d) = (n : ℚ) / (d : ℚ) := by
  obtain ⟨h1, h2, h3, h4, h5⟩ := h
  unfold wmin wmax uwmax at *
  refine ⟨⟨Or.inl rfl, fun _ => ⟨⟨?_, ?_, ?_⟩, h3, h5⟩, fun g => ?_, fun _ g => ?_, fun g => ?_⟩, rfl⟩
  · show _ ≤ n; omega
  · show n < _; omega
  · show d < _; omega
  · cases g
  · cases g
  · cases g

theorem word_canonical {n d : Int} (h : Low n d) :
    Canonical (word n d) ∧ fval (word n d) = (n : ℚ) / (d : ℚ) :=
  setWord_canonical ⟨true, 0, 1, false, ⟨0, 1⟩⟩ h

/-- The end of an arithmetic function: canonical and exact. -/
theorem finish_exact {dst a b : LF} {f : ℚ → ℚ → ℚ} {r : R (Int × Int)} (ha : Canonical a)
    (hb : Canonical b) (hr : FastOk (f (fval a) (fval b)) r) :
    ∃ c, finish dst a b f r = some c ∧ Canonical c ∧ fval c = f (fval a) (fval b) := by
  cases r with
  | ok p =>
    obtain ⟨n, d⟩ := p
    obtain ⟨h1, h2⟩ := hr
    obtain ⟨g1, g2⟩ := setWord_canonical dst h1
    exact ⟨_, rfl, g1, g2.trans h2⟩
  | ovf =>
    obtain ⟨g1, g2⟩ := ofMpq_canonical dst (ofRat_lowest (f (fval a) (fval b)))
    refine ⟨_, rfl, ?_⟩
    rw [(ensureMpq_val ha).1, (ensureMpq_val hb).1]
    exact ⟨g1, g2.trans (ofRat_val _)⟩
  | ub => exact hr.elim

theorem fast_ite {a b : LF} {v : ℚ} {r : R (Int × Int)}
    (h : a.wv = true → b.wv = true → FastOk v r) :
    FastOk v (if a.wv && b.wv then r else .ovf) := by
  by_cases hw : (a.wv && b.wv) = true
  · rw [if_pos hw]
    rw [Bool.and_eq_true] at hw
    exact h hw.1 hw.2
  · rw [if_neg hw]; trivial

/-! ### Addition -/

theorem low_zero : Low 0 1 := by unfold Low; decide

/-- `n + b` with an integer `b` over the same denominator stays in lowest terms. -/
theorem low_add_int {n d b : Int} (h : Low n d) (h1 : wmin ≤ n + b * d) (h2 : n + b * d ≤ wmax) :
    Low (n + b * d) d := by
  refine ⟨h1, h2, h.2.2.1, h.2.2.2.1, ?_⟩
  have := h.coprime
  exact Int.isCoprime_iff_gcd_eq_one.mp (IsCoprime.add_mul_right_left this b)

theorem fast_add_int {v : ℚ} {n d b : Int} (h : Low n d) (hb1 : wmin ≤ b) (hb2 : b ≤ wmax)
    (e : (n : ℚ) / d + b = v) : FastOk v (do
      let m ← i64 (b * d)
      let t ← i64 (n + m)
      let n ← checkWord t
      pure (n, d)) := by
  have hm := prod_bound hb1 hb2 h.pos.le h.2.2.2.1
  have hn1 := h.1
  have hn2 := h.2.1
  have hm' := prod_lword hb1 hb2 h.pos.le h.2.2.2.1
  rw [i64_bind hm'.1 hm'.2]
  have hs : lmin ≤ n + b * d ∧ n + b * d ≤ lmax := by
    unfold lmin lmax wmin wmax at *; omega
  rw [i64_bind hs.1 hs.2]
  refine fast_checkWord hs.1 hs.2 fun w1 w2 => fast_pure (low_add_int h w1 w2) ?_
  rw [← e]
  have := h.qne
  push_cast
  field_simp

theorem fast_addFast {a b : LF} (ha : Low a.num a.den) (hb : Low b.num b.den) :
    FastOk ((a.num : ℚ) / a.den + (b.num : ℚ) / b.den) (addFast a b) := by
  unfold addFast
  by_cases c1 : b.num = 0
  · rw [if_pos c1]; exact ⟨ha, by rw [c1]; simp⟩
  rw [if_neg c1]
  by_cases c2 : a.num = 0
  · rw [if_pos c2]; exact ⟨hb, by rw [c2]; simp⟩
  rw [if_neg c2]
  by_cases c3 : a.den = b.den ∧ b.num > wmin ∧ a.num = -b.num
  · rw [if_pos c3]
    refine ⟨low_zero, ?_⟩
    rw [c3.1, c3.2.2]
    push_cast
    ring
  rw [if_neg c3]
  by_cases c4 : b.den = 1
  · rw [if_pos c4]
    exact fast_add_int ha hb.1 hb.2.1 (by rw [c4]; simp)
  rw [if_neg c4]
  by_cases c5 : a.den = 1
  · rw [if_pos c5]
    exact fast_add_int hb ha.1 ha.2.1 (by rw [c5]; simp [add_comm])
  rw [if_neg c5]
  obtain ⟨e1, e2, g, hg, gp, p1, p2, d1, d2, q1, q2, hc, l1, l2, gu⟩ :=
    den_facts ha.pos hb.pos ha.2.2.2.1 hb.2.2.2.1
  have m1 : (if g ≠ 1 then b.den / g else b.den) = e2 := by
    by_cases c : g ≠ 1
    · rw [if_pos c, d2]
    · rw [if_neg c]
      have : g = 1 := by omega
      rw [q2, this, one_mul]
  have m2 : (if g ≠ 1 then a.den / g else a.den) = e1 := by
    by_cases c : g ≠ 1
    · rw [if_pos c, d1]
    · rw [if_neg c]
      have : g = 1 := by omega
      rw [q1, this, one_mul]
  simp only [hg, m1, m2]
  rw [d2]
  have hA := prod_lword ha.1 ha.2.1 p2.le (l2.trans hb.2.2.2.1)
  have hB := prod_lword hb.1 hb.2.1 p1.le (l1.trans ha.2.2.2.1)
  rw [i64_bind hA.1 hA.2, i64_bind hB.1 hB.2]
  refine fast_checkSum (fun s1 s2 => ?_) hA hB
  have hD := uprod_bound ha.pos.le ha.2.2.2.1 p2.le (l2.trans hb.2.2.2.1)
  rw [toUlword_id hD.1 hD.2]
  have hden : a.den * e2 = g * e1 * e2 := by rw [q1]
  have hdvd : (Int.gcd (a.num * e2 + b.num * e1) (a.den * e2) : Int) ∣ g := by
    rw [hden]
    refine gcd_sum_dvd ?_ ?_ hc
    · have := ha.coprime; rw [q1] at this; exact this.of_mul_right_right
    · have := hb.coprime; rw [q2] at this; exact this.of_mul_right_right
  refine fast_reduceW s1 s2 (mul_pos ha.pos p2) hD.2 ((Int.le_of_dvd gp hdvd).trans gu) ?_
  have h1 : (g : ℚ) ≠ 0 := by exact_mod_cast gp.ne'
  have h2 : (e1 : ℚ) ≠ 0 := by exact_mod_cast p1.ne'
  have h3 : (e2 : ℚ) ≠ 0 := by exact_mod_cast p2.ne'
  rw [hden, q1, q2]
  push_cast
  field_simp

theorem add_exact {a b : LF} (ha : Canonical a) (hb : Canonical b) :
    ∃ c, add a b = some c ∧ Canonical c ∧ fval c = fval a + fval b := by
  refine finish_exact ha hb (fast_ite fun hwa hwb => ?_)
  rw [fval_word hwa, fval_word hwb]
  exact fast_addFast (canonical_low ha hwa) (canonical_low hb hwb)

/-! ### Subtraction -/

theorem low_sub_int {n d b : Int} (h : Low n d) (h1 : wmin ≤ n - b * d) (h2 : n - b * d ≤ wmax) :
    Low (n - b * d) d := by
  have e : n - b * d = n + (-b) * d := by ring
  rw [e] at h1 h2 ⊢
  exact low_add_int h h1 h2

theorem low_int_sub {n d b : Int} (h : Low n d) (h1 : wmin ≤ b * d - n) (h2 : b * d - n ≤ wmax) :
    Low (b * d - n) d := by
  refine ⟨h1, h2, h.2.2.1, h.2.2.2.1, ?_⟩
  have h3 : IsCoprime (-n) d := h.coprime.neg_left
  have h4 := IsCoprime.add_mul_right_left h3 b
  rw [show -n + b * d = b * d - n by ring] at h4
  exact Int.isCoprime_iff_gcd_eq_one.mp h4

theorem low_neg {n d : Int} (h : Low n d) (h2 : -n ≤ wmax) : Low (-n) d := by
  refine ⟨?_, h2, h.2.2.1, h.2.2.2.1, by rw [Int.neg_gcd]; exact h.2.2.2.2⟩
  have := h.2.1
  unfold wmin wmax at *
  omega

theorem fast_subFast {a b : LF} (ha : Low a.num a.den) (hb : Low b.num b.den) :
    FastOk ((a.num : ℚ) / a.den - (b.num : ℚ) / b.den) (subFast a b) := by
  have na1 := ha.1
  have na2 := ha.2.1
  have nb1 := hb.1
  have nb2 := hb.2.1
  have ua := ha.2.2.2.1
  have ub := hb.2.2.2.1
  have qa := ha.qne
  have qb := hb.qne
  unfold subFast
  by_cases c1 : b.num = 0
  · rw [if_pos c1]; exact ⟨ha, by rw [c1]; simp⟩
  rw [if_neg c1]
  by_cases c2 : a.num = 0
  · rw [if_pos c2]
    refine fast_checkWord (by unfold lmin wmax wmin at *; omega) (by unfold lmax wmin wmax at *; omega)
      fun w1 w2 => fast_pure (low_neg hb w2) ?_
    rw [c2]
    push_cast
    ring
  rw [if_neg c2]
  by_cases c3 : a.den = b.den ∧ a.num = b.num
  · rw [if_pos c3]
    refine ⟨low_zero, ?_⟩
    rw [c3.1, c3.2]
    push_cast
    ring
  rw [if_neg c3]
  by_cases c4 : b.den = 1
  · rw [if_pos c4]
    have hm := prod_bound nb1 nb2 ha.pos.le ua
    have hm' := prod_lword nb1 nb2 ha.pos.le ua
    rw [i64_bind hm'.1 hm'.2]
    have hs : lmin ≤ a.num - b.num * a.den ∧ a.num - b.num * a.den ≤ lmax := by
      unfold lmin lmax wmin wmax at *; omega
    rw [i64_bind hs.1 hs.2]
    refine fast_checkWord hs.1 hs.2 fun w1 w2 => fast_pure (low_sub_int ha w1 w2) ?_
    rw [c4]
    push_cast
    field_simp
  rw [if_neg c4]
  by_cases c5 : a.den = 1
  · rw [if_pos c5]
    have hm := prod_bound na1 na2 hb.pos.le ub
    have hm' := prod_lword na1 na2 hb.pos.le ub
    rw [i64_bind hm'.1 hm'.2]
    have hs : lmin ≤ a.num * b.den - b.num ∧ a.num * b.den - b.num ≤ lmax := by
      unfold lmin lmax wmin wmax at *; omega
    rw [i64_bind hs.1 hs.2]
    refine fast_checkWord hs.1 hs.2 fun w1 w2 => fast_pure (low_int_sub hb w1 w2) ?_
    rw [c5]
    push_cast
    field_simp
  rw [if_neg c5]
  obtain ⟨e1, e2, g, hg, gp, p1, p2, d1, d2, q1, q2, hc, l1, l2, gu⟩ :=
    den_facts ha.pos hb.pos ua ub
  have hA := prod_lword na1 na2 p2.le (l2.trans ub)
  have hB := prod_lword nb1 nb2 p1.le (l1.trans ua)
  have hD := uprod_bound ha.pos.le ua p2.le (l2.trans ub)
  have hden : a.den * e2 = g * e1 * e2 := by rw [q1]
  have hdvd : (Int.gcd (a.num * e2 - b.num * e1) (a.den * e2) : Int) ∣ g := by
    rw [hden, show a.num * e2 - b.num * e1 = a.num * e2 + (-b.num) * e1 by ring]
    refine gcd_sum_dvd ?_ ?_ hc
    · have := ha.coprime; rw [q1] at this; exact this.of_mul_right_right
    · have := hb.coprime.neg_left; rw [q2] at this; exact this.of_mul_right_right
  have h1 : (g : ℚ) ≠ 0 := by exact_mod_cast gp.ne'
  have h2 : (e1 : ℚ) ≠ 0 := by exact_mod_cast p1.ne'
  have h3 : (e2 : ℚ) ≠ 0 := by exact_mod_cast p2.ne'
  have hval : ((a.num * e2 - b.num * e1 : Int) : ℚ) / ((a.den * e2 : Int) : ℚ) =
      (a.num : ℚ) / a.den - (b.num : ℚ) / b.den := by
    rw [hden, q1, q2]
    push_cast
    field_simp
  simp only [hg]
  by_cases c6 : g ≠ 1
  · rw [if_pos c6, d2, d1, i64_bind hA.1 hA.2, i64_bind hB.1 hB.2]
    have hs : lmin ≤ a.num * e2 - b.num * e1 ∧ a.num * e2 - b.num * e1 ≤ lmax := by
      have g2 : 2 ≤ g := by omega
      have k1' : 2 * e1 ≤ g * e1 := mul_le_mul_of_nonneg_right g2 p1.le
      have k2' : 2 * e2 ≤ g * e2 := mul_le_mul_of_nonneg_right g2 p2.le
      have k1 : e1 ≤ 2147483647 := by unfold uwmax at *; omega
      have k2 : e2 ≤ 2147483647 := by unfold uwmax at *; omega
      unfold lmin lmax wmin wmax at *
      constructor <;> nlinarith
    rw [i64_bind hs.1 hs.2]
    simp only [toUlword_id hD.1 hD.2]
    exact fast_reduceW hs.1 hs.2 (mul_pos ha.pos p2) hD.2 ((Int.le_of_dvd gp hdvd).trans gu) hval
  · rw [if_neg c6]
    have g1 : g = 1 := by omega
    have E1 : a.den = e1 := by rw [q1, g1, one_mul]
    have E2 : b.den = e2 := by rw [q2, g1, one_mul]
    rw [E2, i64_bind hA.1 hA.2]
    rw [show b.num * a.den = b.num * e1 by rw [E1], i64_bind hB.1 hB.2]
    refine fast_checkSub (fun s1 s2 => ?_) hA hB
    simp only [toUlword_id hD.1 hD.2]
    rw [E2] at hval
    exact fast_reduceW s1 s2 (mul_pos ha.pos p2) hD.2 ((Int.le_of_dvd gp hdvd).trans gu) hval

theorem sub_exact {a b : LF} (ha : Canonical a) (hb : Canonical b) :
    ∃ c, sub a b = some c ∧ Canonical c ∧ fval c = fval a - fval b := by
  refine finish_exact ha hb (fast_ite fun hwa hwb => ?_)
  rw [fval_word hwa, fval_word hwb]
  exact fast_subFast (canonical_low ha hwa) (canonical_low hb hwb)

/-! ### Multiplication -/

theorem coprime_of_div {x y k l g h : Int} (hc : IsCoprime x y) (ex : k * g = x) (ey : l * h = y) :
    IsCoprime k l := by
  rw [← ex, ← ey] at hc
  exact (hc.of_mul_left_left).of_mul_right_left

theorem mul_word_bound {x y : Int} (h1 : wmin ≤ x) (h2 : x ≤ wmax) (h3 : wmin ≤ y) (h4 : y ≤ wmax) :
    lmin ≤ x * y ∧ x * y ≤ lmax := by
  unfold wmin wmax lmin lmax at *
  constructor <;> nlinarith

theorem fast_mulFast {a b : LF} (ha : Low a.num a.den) (hb : Low b.num b.den) :
    FastOk ((a.num : ℚ) / a.den * ((b.num : ℚ) / b.den)) (mulFast a b) := by
  have na1 := ha.1
  have na2 := ha.2.1
  have nb1 := hb.1
  have nb2 := hb.2.1
  have ua := ha.2.2.2.1
  have ub := hb.2.2.2.1
  obtain ⟨f1, f2, f3, f4, f5, -⟩ := reduce_facts (n := a.num) hb.pos
  obtain ⟨g1, g2, g3, g4, g5, -⟩ := reduce_facts (n := b.num) ha.pos
  have E1 : gcd (absW a.num) b.den = (Int.gcd a.num b.den : Int) := by
    rw [absW_eq na1 na2, gcd_eq (abs_nonneg _) hb.pos.le, gcd_abs]
  have E2 : gcd a.den (absW b.num) = (Int.gcd b.num a.den : Int) := by
    rw [absW_eq nb1 nb2, gcd_eq ha.pos.le (abs_nonneg _), Int.gcd_comm, gcd_abs]
  have I : ∀ (n g : Int), 0 < g → (if g > 1 then Int.tdiv n g else n) = Int.tdiv n g := by
    intro n g hg
    by_cases c : g > 1
    · rw [if_pos c]
    · rw [if_neg c]
      have : g = 1 := by omega
      rw [this, Int.tdiv_one]
  have J : ∀ (n g : Int), 0 < g → (if g > 1 then n / g else n) = n / g := by
    intro n g hg
    by_cases c : g > 1
    · rw [if_pos c]
    · rw [if_neg c]
      have : g = 1 := by omega
      rw [this, Int.ediv_one]
  unfold mulFast
  simp only [E1, E2, I _ _ f1, I _ _ g1, J _ _ f1, J _ _ g1]
  obtain ⟨w1, w2⟩ := tdiv_bounds f1 f2 (lo := wmin) (hi := wmax) (by decide) (by decide) na1 na2
  obtain ⟨w3, w4⟩ := tdiv_bounds g1 g2 (lo := wmin) (hi := wmax) (by decide) (by decide) nb1 nb2
  have v1 := ediv_le f1 hb.pos.le
  have v2 := ediv_le g1 ha.pos.le
  generalize Int.tdiv a.num (Int.gcd a.num b.den) = k1 at *
  generalize Int.tdiv b.num (Int.gcd b.num a.den) = k2 at *
  generalize a.den / (Int.gcd b.num a.den : Int) = k3 at *
  generalize b.den / (Int.gcd a.num b.den : Int) = k4 at *
  generalize (Int.gcd a.num b.den : Int) = c1 at *
  generalize (Int.gcd b.num a.den : Int) = c2 at *
  have hm := mul_word_bound w1 w2 w3 w4
  rw [i64_bind hm.1 hm.2]
  have hD := uprod_bound g4.le (v2.trans ua) f4.le (v1.trans ub)
  have hP : 0 < k3 * k4 := mul_pos g4 f4
  refine fast_checkWord hm.1 hm.2 fun x1 x2 => ?_
  rw [toUlword_id hD.1 hD.2]
  refine fast_checkUword (by omega) hD.2 fun u => fast_pure ⟨x1, x2, hP, u, ?_⟩ ?_
  · rw [← Int.isCoprime_iff_gcd_eq_one]
    have o1 : IsCoprime k1 k4 := Int.isCoprime_iff_gcd_eq_one.mpr f5
    have o2 : IsCoprime k2 k3 := Int.isCoprime_iff_gcd_eq_one.mpr g5
    have o3 : IsCoprime k1 k3 := coprime_of_div ha.coprime f2 g3
    have o4 : IsCoprime k2 k4 := coprime_of_div hb.coprime g2 f3
    exact IsCoprime.mul_left (IsCoprime.mul_right o3 o1) (IsCoprime.mul_right o2 o4)
  · have z1 : (k3 : ℚ) ≠ 0 := by exact_mod_cast g4.ne'
    have z2 : (k4 : ℚ) ≠ 0 := by exact_mod_cast f4.ne'
    have z3 : (c1 : ℚ) ≠ 0 := by exact_mod_cast f1.ne'
    have z4 : (c2 : ℚ) ≠ 0 := by exact_mod_cast g1.ne'
    rw [← f2, ← g2, ← g3, ← f3]
    push_cast
    field_simp

theorem copy_canonical {a : LF} (ha : Canonical a) : Canonical a.copy ∧ fval a.copy = fval a := by
  unfold copy
  by_cases hw : a.wv = true
  · rw [if_pos hw]
    obtain ⟨g1, g2⟩ := word_canonical (canonical_low ha hw)
    exact ⟨g1, g2.trans (fval_word hw).symm⟩
  · rw [if_neg hw]
    have hw' : a.wv = false := by simpa using hw
    have hm : a.mv = true := by rcases ha.valid with g | g; exact absurd g hw; exact g
    refine ⟨⟨Or.inr rfl, fun g => ?_, fun _ => ha.mpq hm, fun g => ?_, fun _ => ha.big hw'⟩, ?_⟩
    · cases g
    · cases g
    · unfold fval; rw [if_neg hw]; rfl

theorem assign_canonical {dst a : LF} (ha : Canonical a) :
    Canonical (dst.assign a) ∧ fval (dst.assign a) = fval a := by
  unfold assign
  by_cases hw : a.wv = true
  · rw [if_pos hw]
    obtain ⟨g1, g2⟩ := setWord_canonical dst (canonical_low ha hw)
    exact ⟨g1, g2.trans (fval_word hw).symm⟩
  · rw [if_neg hw]
    have hw' : a.wv = false := by simpa using hw
    have hm : a.mv = true := by rcases ha.valid with g | g; exact absurd g hw; exact g
    refine ⟨⟨Or.inr rfl, fun g => ?_, fun _ => ha.mpq hm, fun g => ?_, fun _ => ha.big hw'⟩, ?_⟩
    · cases g
    · cases g
    · unfold fval; rw [if_neg hw]; rfl

theorem fval_zero {a : LF} (hw : a.wv = true) (h : a.num = 0) : fval a = 0 := by
  rw [fval_word hw, h]; simp

theorem fval_one {a : LF} (hw : a.wv = true) (h : a.num = 1) (h' : a.den = 1) : fval a = 1 := by
  rw [fval_word hw, h, h']; simp

theorem low_one : Low 1 1 := by unfold Low; decide

theorem mul_exact {a b : LF} (ha : Canonical a) (hb : Canonical b) :
    ∃ c, mul a b = some c ∧ Canonical c ∧ fval c = fval a * fval b := by
  unfold mul
  by_cases c1 : ((a.wv && decide (a.num = 0)) || (b.wv && decide (b.num = 0))) = true
  · simp only [c1, if_true]
    obtain ⟨g1, g2⟩ := setWord_canonical (ofWord 0) low_zero
    refine ⟨_, rfl, g1, ?_⟩
    simp only [Bool.or_eq_true, Bool.and_eq_true, decide_eq_true_eq] at c1
    rw [g2]
    rcases c1 with ⟨h1, h2⟩ | ⟨h1, h2⟩ <;> rw [fval_zero h1 h2] <;> simp
  simp only [c1]
  by_cases c2 : (a.wv && decide (a.num = 1) && decide (a.den = 1)) = true
  · simp only [c2, if_true]
    obtain ⟨g1, g2⟩ := assign_canonical (dst := ofWord 0) hb
    refine ⟨_, rfl, g1, ?_⟩
    simp only [Bool.and_eq_true, decide_eq_true_eq] at c2
    rw [g2, fval_one c2.1.1 c2.1.2 c2.2, one_mul]
  simp only [c2]
  by_cases c3 : (b.wv && decide (b.num = 1) && decide (b.den = 1)) = true
  · simp only [c3, if_true]
    obtain ⟨g1, g2⟩ := assign_canonical (dst := ofWord 0) ha
    refine ⟨_, rfl, g1, ?_⟩
    simp only [Bool.and_eq_true, decide_eq_true_eq] at c3
    rw [g2, fval_one c3.1.1 c3.1.2 c3.2, mul_one]
  simp only [c3]
  refine finish_exact ha hb (fast_ite fun hwa hwb => ?_)
  rw [fval_word hwa, fval_word hwb]
  exact fast_mulFast (canonical_low ha hwa) (canonical_low hb hwb)

/-! ### Division -/

theorem flip_facts (an bn z : Int) : ∃ s : Int, (s = 1 ∨ s = -1) ∧ flip an bn z = s * z ∧
    an * bn = s * (|an| * |bn|) ∧ an * |bn| = s * |an| * bn := by
  unfold flip
  rcases lt_trichotomy an 0 with h | h | h <;> rcases lt_trichotomy bn 0 with g | g | g
  · refine ⟨1, Or.inl rfl, ?_, ?_, ?_⟩
    · rw [if_neg (by omega)]; ring
    · rw [abs_of_neg h, abs_of_neg g]; ring
    · rw [abs_of_neg h, abs_of_neg g]; ring
  · refine ⟨1, Or.inl rfl, ?_, ?_, ?_⟩
    · rw [if_neg (by omega)]; ring
    · subst g; simp
    · subst g; simp
  · refine ⟨-1, Or.inr rfl, ?_, ?_, ?_⟩
    · rw [if_pos (by omega)]; ring
    · rw [abs_of_neg h, abs_of_pos g]; ring
    · rw [abs_of_neg h, abs_of_pos g]; ring
  · refine ⟨-1, Or.inr rfl, ?_, ?_, ?_⟩
    · rw [if_pos (by omega)]; ring
    · subst h; simp
    · subst h; simp
  · refine ⟨1, Or.inl rfl, ?_, ?_, ?_⟩
    · rw [if_neg (by omega)]; ring
    · subst h; simp
    · subst h; simp
  · refine ⟨-1, Or.inr rfl, ?_, ?_, ?_⟩
    · rw [if_pos (by omega)]; ring
    · subst h; simp
    · subst h; simp
  · refine ⟨-1, Or.inr rfl, ?_, ?_, ?_⟩
    · rw [if_pos (by omega)]; ring
    · rw [abs_of_pos h, abs_of_neg g]; ring
    · rw [abs_of_pos h, abs_of_neg g]; ring
  · refine ⟨1, Or.inl rfl, ?_, ?_, ?_⟩
    · rw [if_neg (by omega)]; ring
    · subst g; simp
    · subst g; simp
  · refine ⟨1, Or.inl rfl, ?_, ?_, ?_⟩
    · rw [if_neg (by omega)]; ring
    · rw [abs_of_pos h, abs_of_pos g]; ring
    · rw [abs_of_pos h, abs_of_pos g]; ring

/-- Flipping the sign of a nonnegative word. -/
theorem low_signed {z d s : Int} (hs : s = 1 ∨ s = -1) (hz : 0 ≤ z) (h : Low z d) : Low (s * z) d := by
  rcases hs with rfl | rfl
  · rwa [one_mul]
  · rw [neg_one_mul]
    exact low_neg h (by unfold wmax; omega)

theorem abs_word {n : Int} (h1 : wmin ≤ n) (h2 : n ≤ wmax) : |n| ≤ 2147483648 := by
  unfold wmin wmax at *
  rcases abs_choice n with h | h <;> omega

theorem fast_divFast {a b : LF} (ha : Low a.num a.den) (hb : Low b.num b.den) (h0 : b.num ≠ 0) :
    FastOk ((a.num : ℚ) / a.den / ((b.num : ℚ) / b.den)) (divFast a b) := by
  have na1 := ha.1
  have na2 := ha.2.1
  have nb1 := hb.1
  have nb2 := hb.2.1
  have ua := ha.2.2.2.1
  have ub := hb.2.2.2.1
  have bp : 0 < |b.num| := abs_pos.mpr h0
  obtain ⟨f1, f2, f3, f4, f5, -⟩ := reduce_facts (n := |a.num|) bp
  obtain ⟨g1, g2, g3, g4, g5, -⟩ := reduce_facts (n := b.den) ha.pos
  have E0 : Int.tdiv |a.num| (Int.gcd |a.num| |b.num|) = |a.num| / (Int.gcd |a.num| |b.num|) :=
    Int.tdiv_eq_ediv_of_nonneg (abs_nonneg _)
  have E1 : Int.tdiv b.den (Int.gcd b.den a.den) = b.den / (Int.gcd b.den a.den) :=
    Int.tdiv_eq_ediv_of_nonneg hb.pos.le
  rw [E0] at f2 f5
  rw [E1] at g2 g5
  unfold divFast
  simp only [absW_eq na1 na2, absW_eq nb1 nb2, gcd_eq (abs_nonneg a.num) (abs_nonneg b.num),
    gcd_eq ha.pos.le hb.pos.le, Int.gcd_comm a.den b.den]
  rw [if_neg (by omega)]
  have l1 := ediv_le f1 (abs_nonneg a.num)
  have l2 := ediv_le f1 bp.le
  have l3 := ediv_le g1 ha.pos.le
  have l4 := ediv_le g1 hb.pos.le
  have wa := abs_word na1 na2
  have wb := abs_word nb1 nb2
  have n1 : 0 ≤ |a.num| / (Int.gcd |a.num| |b.num| : Int) := Int.ediv_nonneg (abs_nonneg _) f1.le
  have n2 : 0 ≤ b.den / (Int.gcd b.den a.den : Int) := Int.ediv_nonneg hb.pos.le g1.le
  generalize |a.num| / (Int.gcd |a.num| |b.num| : Int) = x at *
  generalize |b.num| / (Int.gcd |a.num| |b.num| : Int) = y at *
  generalize a.den / (Int.gcd b.den a.den : Int) = u at *
  generalize b.den / (Int.gcd b.den a.den : Int) = v at *
  generalize (Int.gcd |a.num| |b.num| : Int) = c1 at *
  generalize (Int.gcd b.den a.den : Int) = c2 at *
  have hN : 0 ≤ x * v ∧ x * v ≤ lmax := by
    unfold uwmax lmax at *
    constructor
    · exact mul_nonneg n1 n2
    · nlinarith
  have hN' : x * v < 18446744073709551616 := by unfold lmax at hN; omega
  have hD : 0 ≤ y * u ∧ y * u < 18446744073709551616 := by
    unfold uwmax at *
    constructor
    · exact mul_nonneg f4.le g4.le
    · nlinarith
  rw [toUlword_id hN.1 hN']
  have hlm : lmin ≤ 0 := by decide
  refine fast_checkWord (by omega) hN.2 fun x1 x2 => ?_
  rw [toUlword_id hD.1 hD.2]
  have hP : 0 < y * u := mul_pos f4 g4
  refine fast_checkUword (by omega) hD.2 fun uu => ?_
  obtain ⟨s, hs, e1, e2, e3⟩ := flip_facts a.num b.num (x * v)
  rw [e1]
  refine fast_pure (low_signed hs hN.1 ⟨x1, x2, hP, uu, ?_⟩) ?_
  · rw [← Int.isCoprime_iff_gcd_eq_one]
    have o1 : IsCoprime x y := Int.isCoprime_iff_gcd_eq_one.mpr f5
    have o2 : IsCoprime v u := Int.isCoprime_iff_gcd_eq_one.mpr g5
    have o3 : IsCoprime x u := by
      have : IsCoprime |a.num| a.den := by
        rw [Int.isCoprime_iff_gcd_eq_one, gcd_abs]; exact ha.2.2.2.2
      exact coprime_of_div this f2 g3
    have o4 : IsCoprime v y := by
      have : IsCoprime |b.num| b.den := by
        rw [Int.isCoprime_iff_gcd_eq_one, gcd_abs]; exact hb.2.2.2.2
      exact (coprime_of_div this f3 g2).symm
    exact IsCoprime.mul_left (IsCoprime.mul_right o1 o3) (IsCoprime.mul_right o4 o2)
  · have z1 : (y : ℚ) ≠ 0 := by exact_mod_cast f4.ne'
    have z2 : (u : ℚ) ≠ 0 := by exact_mod_cast g4.ne'
    have z3 : (c1 : ℚ) ≠ 0 := by exact_mod_cast f1.ne'
    have z4 : (c2 : ℚ) ≠ 0 := by exact_mod_cast g1.ne'
    have z5 : (b.num : ℚ) ≠ 0 := by exact_mod_cast h0
    have z6 : (v : ℚ) ≠ 0 := by
      intro h
      have hv : v = 0 := by exact_mod_cast h
      rw [hv, zero_mul] at g2
      have := hb.pos
      omega
    rw [← f2, ← f3] at e3
    have e4 : (a.num : ℚ) * y = s * x * b.num := by
      have e3' : (a.num : ℚ) * (y * c1) = s * (x * c1) * b.num := by exact_mod_cast e3
      have : (c1 : ℚ) * (a.num * y) = c1 * (s * x * b.num) := by linear_combination e3'
      exact mul_left_cancel₀ z3 this
    rw [← g2, ← g3]
    push_cast
    field_simp
    linear_combination -e4

theorem fval_ne_zero {b : LF} (hb : Canonical b) (h : fval b ≠ 0) :
    b.ensureMpq.q.n ≠ 0 ∧ (b.wv = true → b.num ≠ 0) := by
  refine ⟨fun g => h ?_, fun hw g => h (fval_zero hw g)⟩
  rw [← (ensureMpq_val hb).1]
  unfold Mpq.val
  rw [g]
  simp

theorem div_exact {a b : LF} (ha : Canonical a) (hb : Canonical b) (h0 : fval b ≠ 0) :
    ∃ c, div a b = some c ∧ Canonical c ∧ fval c = fval a / fval b := by
  obtain ⟨z1, z2⟩ := fval_ne_zero hb h0
  unfold div
  by_cases c1 : (b.wv && decide (b.num = 1) && decide (b.den = 1)) = true
  · simp only [c1, if_true]
    obtain ⟨g1, g2⟩ := assign_canonical (dst := ofWord 0) ha
    refine ⟨_, rfl, g1, ?_⟩
    simp only [Bool.and_eq_true, decide_eq_true_eq] at c1
    rw [g2, fval_one c1.1.1 c1.1.2 c1.2, div_one]
  simp only [c1]
  by_cases c2 : (a.wv && decide (a.num = 0)) = true
  · simp only [c2, if_true]
    obtain ⟨g1, g2⟩ := word_canonical low_zero
    simp only [Bool.and_eq_true, decide_eq_true_eq] at c2
    refine ⟨_, rfl, g1, ?_⟩
    rw [fval_zero c2.1 c2.2]
    exact g2.trans (by simp)
  simp only [c2]
  by_cases c3 : (a.wv && b.wv) = true
  · simp only [c3, if_true]
    rw [Bool.and_eq_true] at c3
    by_cases c4 : a.num = b.num ∧ a.den = b.den
    · rw [if_neg Bool.false_ne_true, if_neg Bool.false_ne_true, if_pos c4]
      obtain ⟨g1, g2⟩ := setWord_canonical (ofWord 0) low_one
      refine ⟨_, rfl, g1, ?_⟩
      have : fval a = fval b := by rw [fval_word c3.1, fval_word c3.2, c4.1, c4.2]
      rw [g2, this, div_self h0]
      simp
    · rw [if_neg Bool.false_ne_true, if_neg Bool.false_ne_true, if_neg c4]
      have hf := fast_divFast (canonical_low ha c3.1) (canonical_low hb c3.2) (z2 c3.2)
      rw [← fval_word c3.1, ← fval_word c3.2] at hf
      have hfin := finish_exact (dst := ofWord 0) (f := (· / ·)) ha hb hf
      cases hr : divFast a b with
      | ok p => rw [hr] at hfin; exact hfin
      | ovf => rw [hr] at hfin; simp only [if_neg z1]; exact hfin
      | ub => rw [hr] at hfin; exact hfin
  · simp only [c3]
    rw [if_neg Bool.false_ne_true, if_neg Bool.false_ne_true, if_neg Bool.false_ne_true, if_neg z1]
    exact finish_exact ha hb trivial

/-! ### Assignment forms -/

theorem fast_addAFast {a b : LF} (ha : Low a.num a.den) (hb : Low b.num b.den) :
    FastOk ((a.num : ℚ) / a.den + (b.num : ℚ) / b.den) (addAFast a b) := by
  unfold addAFast
  by_cases c4 : b.den = 1
  · rw [if_pos c4]
    exact fast_add_int ha hb.1 hb.2.1 (by rw [c4]; simp)
  rw [if_neg c4]
  by_cases c2 : a.num = 0
  · rw [if_pos c2]; exact ⟨hb, by rw [c2]; simp⟩
  rw [if_neg c2]
  have hA := prod_lword ha.1 ha.2.1 hb.pos.le hb.2.2.2.1
  have hB := prod_lword hb.1 hb.2.1 ha.pos.le ha.2.2.2.1
  rw [i64_bind hA.1 hA.2, i64_bind hB.1 hB.2]
  refine fast_checkSum (fun s1 s2 => ?_) hA hB
  have hD := uprod_bound ha.pos.le ha.2.2.2.1 hb.pos.le hb.2.2.2.1
  simp only [toUlword_id hD.1 hD.2]
  refine fast_reduceA_lword s1 s2 (mul_pos ha.pos hb.pos) hD.2 ?_
  have h1 := ha.qne
  have h2 := hb.qne
  push_cast
  field_simp

theorem addA_exact {a b : LF} (ha : Canonical a) (hb : Canonical b) :
    ∃ c, addA a b = some c ∧ Canonical c ∧ fval c = fval a + fval b := by
  unfold addA
  by_cases c : (b.wv && decide (b.num = 0)) = true
  · rw [if_pos c]
    simp only [Bool.and_eq_true, decide_eq_true_eq] at c
    exact ⟨a, rfl, ha, by rw [fval_zero c.1 c.2, add_zero]⟩
  · rw [if_neg c]
    refine finish_exact ha hb (fast_ite fun hwb hwa => ?_)
    rw [fval_word hwa, fval_word hwb]
    exact fast_addAFast (canonical_low ha hwa) (canonical_low hb hwb)

theorem fast_subAFast {a b : LF} (ha : Low a.num a.den) (hb : Low b.num b.den) :
    FastOk ((a.num : ℚ) / a.den - (b.num : ℚ) / b.den) (subAFast a b) := by
  have na1 := ha.1
  have na2 := ha.2.1
  have nb1 := hb.1
  have nb2 := hb.2.1
  have ua := ha.2.2.2.1
  have ub := hb.2.2.2.1
  unfold subAFast
  obtain ⟨e1, e2, g, hg, gp, p1, p2, d1, d2, q1, q2, hc, l1, l2, gu⟩ :=
    den_facts ha.pos hb.pos ua ub
  have hA := prod_lword na1 na2 p2.le (l2.trans ub)
  have hB := prod_lword nb1 nb2 p1.le (l1.trans ua)
  have hD := uprod_bound ha.pos.le ua p2.le (l2.trans ub)
  have hden : a.den * e2 = g * e1 * e2 := by rw [q1]
  have hdvd : (Int.gcd (a.num * e2 - b.num * e1) (a.den * e2) : Int) ∣ g := by
    rw [hden, show a.num * e2 - b.num * e1 = a.num * e2 + (-b.num) * e1 by ring]
    refine gcd_sum_dvd ?_ ?_ hc
    · have := ha.coprime; rw [q1] at this; exact this.of_mul_right_right
    · have := hb.coprime.neg_left; rw [q2] at this; exact this.of_mul_right_right
  have h1 : (g : ℚ) ≠ 0 := by exact_mod_cast gp.ne'
  have h2 : (e1 : ℚ) ≠ 0 := by exact_mod_cast p1.ne'
  have h3 : (e2 : ℚ) ≠ 0 := by exact_mod_cast p2.ne'
  have hval : ((a.num * e2 - b.num * e1 : Int) : ℚ) / ((a.den * e2 : Int) : ℚ) =
      (a.num : ℚ) / a.den - (b.num : ℚ) / b.den := by
    rw [hden, q1, q2]
    push_cast
    field_simp
  simp only [hg, d1, d2]
  rw [i64_bind hA.1 hA.2]
  refine fast_checkWord hA.1 hA.2 fun x1 x2 => ?_
  rw [i64_bind hB.1 hB.2]
  refine fast_checkWord hB.1 hB.2 fun x3 x4 => ?_
  have hs : lmin ≤ a.num * e2 - b.num * e1 ∧ a.num * e2 - b.num * e1 ≤ lmax := by
    unfold lmin lmax wmin wmax at *
    omega
  rw [i64_bind hs.1 hs.2, toUlword_id hD.1 hD.2]
  exact fast_reduceA hs.1 hs.2 (mul_pos ha.pos p2) hD.2
    (toUword_id (by omega) ((Int.le_of_dvd gp hdvd).trans gu)) hval

theorem subA_exact {a b : LF} (ha : Canonical a) (hb : Canonical b) :
    ∃ c, subA a b = some c ∧ Canonical c ∧ fval c = fval a - fval b := by
  refine finish_exact ha hb (fast_ite fun hwa hwb => ?_)
  rw [fval_word hwa, fval_word hwb]
  exact fast_subAFast (canonical_low ha hwa) (canonical_low hb hwb)

theorem fast_mulAFast {a b : LF} (ha : Low a.num a.den) (hb : Low b.num b.den) :
    FastOk ((a.num : ℚ) / a.den * ((b.num : ℚ) / b.den)) (mulAFast a b) := by
  have na1 := ha.1
  have na2 := ha.2.1
  have nb1 := hb.1
  have nb2 := hb.2.1
  have ua := ha.2.2.2.1
  have ub := hb.2.2.2.1
  obtain ⟨f1, f2, f3, f4, f5, -⟩ := reduce_facts (n := |a.num|) hb.pos
  obtain ⟨g1, g2, g3, g4, g5, -⟩ := reduce_facts (n := |b.num|) ha.pos
  have T1 : Int.tdiv |a.num| (Int.gcd |a.num| b.den) = |a.num| / (Int.gcd |a.num| b.den) :=
    Int.tdiv_eq_ediv_of_nonneg (abs_nonneg _)
  have T2 : Int.tdiv |b.num| (Int.gcd |b.num| a.den) = |b.num| / (Int.gcd |b.num| a.den) :=
    Int.tdiv_eq_ediv_of_nonneg (abs_nonneg _)
  rw [T1] at f2 f5
  rw [T2] at g2 g5
  have E1 : gcd (absW a.num) b.den = (Int.gcd |a.num| b.den : Int) := by
    rw [absW_eq na1 na2, gcd_eq (abs_nonneg _) hb.pos.le]
  have E2 : gcd a.den (absW b.num) = (Int.gcd |b.num| a.den : Int) := by
    rw [absW_eq nb1 nb2, gcd_eq ha.pos.le (abs_nonneg _), Int.gcd_comm]
  have J : ∀ (n g : Int), 0 < g → (if g > 1 then n / g else n) = n / g := by
    intro n g hg
    by_cases c : g > 1
    · rw [if_pos c]
    · rw [if_neg c]
      have : g = 1 := by omega
      rw [this, Int.ediv_one]
  unfold mulAFast
  simp only [E1, E2]
  simp only [absW_eq na1 na2, absW_eq nb1 nb2, J _ _ f1, J _ _ g1]
  have l1 := ediv_le f1 (abs_nonneg a.num)
  have l2 := ediv_le g1 (abs_nonneg b.num)
  have l3 := ediv_le g1 ha.pos.le
  have l4 := ediv_le f1 hb.pos.le
  have wa := abs_word na1 na2
  have wb := abs_word nb1 nb2
  have n1 : 0 ≤ |a.num| / (Int.gcd |a.num| b.den : Int) := Int.ediv_nonneg (abs_nonneg _) f1.le
  have n2 : 0 ≤ |b.num| / (Int.gcd |b.num| a.den : Int) := Int.ediv_nonneg (abs_nonneg _) g1.le
  generalize |a.num| / (Int.gcd |a.num| b.den : Int) = x at *
  generalize |b.num| / (Int.gcd |b.num| a.den : Int) = y at *
  generalize a.den / (Int.gcd |b.num| a.den : Int) = u at *
  generalize b.den / (Int.gcd |a.num| b.den : Int) = v at *
  generalize (Int.gcd |a.num| b.den : Int) = c1 at *
  generalize (Int.gcd |b.num| a.den : Int) = c2 at *
  have hlm : lmin ≤ 0 := by decide
  have hN : 0 ≤ x * y ∧ x * y ≤ lmax := by
    unfold lmax at *
    constructor
    · exact mul_nonneg n1 n2
    · nlinarith
  rw [i64_bind (by omega) hN.2]
  refine fast_checkWord (by omega) hN.2 fun x1 x2 => ?_
  have hD := uprod_bound g4.le (l3.trans ua) f4.le (l4.trans ub)
  rw [toUlword_id hD.1 hD.2]
  have hP : 0 < u * v := mul_pos g4 f4
  refine fast_checkUword (by omega) hD.2 fun uu => ?_
  obtain ⟨s, hs, e1, e2, e3⟩ := flip_facts a.num b.num (x * y)
  rw [e1]
  refine fast_pure (low_signed hs hN.1 ⟨x1, x2, hP, uu, ?_⟩) ?_
  · rw [← Int.isCoprime_iff_gcd_eq_one]
    have o1 : IsCoprime x v := Int.isCoprime_iff_gcd_eq_one.mpr f5
    have o2 : IsCoprime y u := Int.isCoprime_iff_gcd_eq_one.mpr g5
    have o3 : IsCoprime x u := by
      have : IsCoprime |a.num| a.den := by
        rw [Int.isCoprime_iff_gcd_eq_one, gcd_abs]; exact ha.2.2.2.2
      exact coprime_of_div this f2 g3
    have o4 : IsCoprime y v := by
      have : IsCoprime |b.num| b.den := by
        rw [Int.isCoprime_iff_gcd_eq_one, gcd_abs]; exact hb.2.2.2.2
      exact coprime_of_div this g2 f3
    exact IsCoprime.mul_left (IsCoprime.mul_right o3 o1) (IsCoprime.mul_right o2 o4)
  · have z1 : (v : ℚ) ≠ 0 := by exact_mod_cast f4.ne'
    have z2 : (u : ℚ) ≠ 0 := by exact_mod_cast g4.ne'
    have z3 : (c1 : ℚ) ≠ 0 := by exact_mod_cast f1.ne'
    have z4 : (c2 : ℚ) ≠ 0 := by exact_mod_cast g1.ne'
    rw [← f2, ← g2] at e2
    have e2' : (a.num : ℚ) * b.num = s * (x * c1 * (y * c2)) := by exact_mod_cast e2
    rw [← f3, ← g3]
    push_cast
    field_simp
    linear_combination -e2'

theorem mulA_exact {a b : LF} (ha : Canonical a) (hb : Canonical b) :
    ∃ c, mulA a b = some c ∧ Canonical c ∧ fval c = fval a * fval b := by
  refine finish_exact ha hb (fast_ite fun hwa hwb => ?_)
  rw [fval_word hwa, fval_word hwb]
  exact fast_mulAFast (canonical_low ha hwa) (canonical_low hb hwb)

theorem divA_exact {a b : LF} (ha : Canonical a) (hb : Canonical b) (h0 : fval b ≠ 0) :
    ∃ c, divA a b = some c ∧ Canonical c ∧ fval c = fval a / fval b := by
  obtain ⟨z1, z2⟩ := fval_ne_zero hb h0
  unfold divA
  have hf : FastOk (fval a / fval b) (if a.wv && b.wv then divFast a b else .ovf) := by
    refine fast_ite fun hwa hwb => ?_
    rw [fval_word hwa, fval_word hwb]
    exact fast_divFast (canonical_low ha hwa) (canonical_low hb hwb) (z2 hwb)
  have hfin := finish_exact (dst := a) (f := (· / ·)) ha hb hf
  cases hr : (if a.wv && b.wv then divFast a b else .ovf) with
  | ok p => rw [hr] at hfin; exact hfin
  | ovf => rw [hr] at hfin; simp only [if_neg z1]; exact hfin
  | ub => rw [hr] at hfin; exact hfin

end LF
end Yaga
