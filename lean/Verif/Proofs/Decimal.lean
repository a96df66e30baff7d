/-
Exactness of numeric literals.
-/
import Verif.Proofs.LongFractionMisc
import Verif.Model.Decimal
import Verif.Proofs.FractionInt
import Verif.Spec.Decimal
import Mathlib.Tactic.FieldSimp

namespace Yaga
namespace LF

open Spec

theorem gmpDigits_foldl (ds : List (Fin 10)) (n : Nat) :
    (((ds.map digitChar).foldl (fun n c => 10 * n + (c.toNat - 48)) n : Nat) : ℚ) =
      n * 10 ^ ds.length + intVal ds := by
  induction ds generalizing n with
  | nil => simp [intVal]
  | cons d ds ih =>
    have hd : (digitChar d).toNat - 48 = d.val := by revert d; decide
    rw [List.map_cons, List.foldl_cons, hd, ih]
    simp only [intVal, List.length_cons]
    push_cast
    ring

theorem gmpDigits_eq (ds : List (Fin 10)) : (gmpDigits (ds.map digitChar) : ℚ) = intVal ds := by
  unfold gmpDigits
  rw [gmpDigits_foldl]
  simp

theorem fracVal_eq (ds : List (Fin 10)) : fracVal ds = intVal ds / 10 ^ ds.length := by
  induction ds with
  | nil => simp [fracVal, intVal]
  | cons d ds ih =>
    simp only [fracVal, intVal, List.length_cons, ih]
    have : (10 : ℚ) ^ ds.length ≠ 0 := by positivity
    rw [pow_succ]
    field_simp

theorem ofDigits_spec (ds : List (Fin 10)) : Canonical (ofDigits (ds.map digitChar)) ∧
    fval (ofDigits (ds.map digitChar)) = (gmpDigits (ds.map digitChar) : ℚ) := ofString_canonical _

theorem word_of_nat {a : LF} (ha : Canonical a) {m : Nat} (e : fval a = m) (hw : a.wv = true) :
    a.num = m ∧ a.num ≤ wmax := by
  have hl := (ha.word hw).2
  have h1 := lowest_num hl
  rw [← fval_word hw, e] at h1
  exact ⟨by simpa using h1.symm, (canonical_low ha hw).2.1⟩

theorem mpq_of_nat {a : LF} (ha : Canonical a) {m : Nat} (e : fval a = m) : a.ensureMpq.q.n = m := by
  have h2 := ensureMpq_val ha
  have h3 := lowest_num h2.2
  have h4 : (a.ensureMpq.q.n : ℚ) / (a.ensureMpq.q.d : ℚ) = m := h2.1.trans e
  rw [h4] at h3
  simpa using h3.symm

theorem gcdLF_exact {a b : LF} (ha : Canonical a) (hb : Canonical b) {m n : Nat} (ea : fval a = m)
    (eb : fval b = n) : ∃ c, gcdLF a b = some c ∧ Canonical c ∧ fval c = (Nat.gcd m n : ℚ) := by
  obtain ⟨c, g, c1, c2, c3, c4, c5⟩ := gcdLF_eq ha hb (x := m) (y := n) (by rw [ea]; simp) (by rw [eb]; simp)
    (by omega) (by omega)
  refine ⟨c, c1, c2, ?_⟩
  have h5 := c5 (by omega) (by omega)
  have e : g = (Nat.gcd m n : Int) := by
    rw [← Int.gcd_natCast_natCast, ← c4]
    omega
  rw [c3, e]
  simp

theorem precision_exact (n : Nat) {p : LF} (hp : Canonical p) :
    ∃ c, precision n p = some c ∧ Canonical c ∧ fval c = fval p * 10 ^ n := by
  induction n generalizing p with
  | zero => exact ⟨p, rfl, hp, by simp⟩
  | succ n ih =>
    obtain ⟨t1, t2⟩ := ofWord_canonical (z := 10) (by decide) (by decide)
    obtain ⟨c, h1, h2, h3⟩ := mulA_exact hp t1
    obtain ⟨d, g1, g2, g3⟩ := ih h2
    refine ⟨d, by rw [precision, h1]; exact g1, g2, ?_⟩
    rw [g3, h3, t2, pow_succ]
    push_cast
    ring

theorem dot_notMem (ds : List (Fin 10)) : '.' ∉ ds.map digitChar := by
  rw [List.mem_map]
  rintro ⟨d, _, h⟩
  have : ∀ d, digitChar d ≠ '.' := by decide
  exact this d h

theorem mkInteger_exact (ds : List (Fin 10)) :
    ∃ c, mkInteger (ds.map digitChar) = some c ∧ Canonical c ∧ fval c = intVal ds := by
  obtain ⟨h1, h2⟩ := ofDigits_spec ds
  have hi : (ofDigits (ds.map digitChar)).isInteger = true :=
    (isInteger_exact h1).mpr ⟨gmpDigits (ds.map digitChar), by rw [h2]; simp⟩
  exact ⟨_, by unfold mkInteger; simp only [hi, if_true], h1, by rw [h2, gmpDigits_eq]⟩

theorem split_dot (is fs : List (Fin 10)) :
    '.' ∈ is.map digitChar ++ '.' :: fs.map digitChar ∧
    (is.map digitChar ++ '.' :: fs.map digitChar).takeWhile (· ≠ '.') = is.map digitChar ∧
    ((is.map digitChar ++ '.' :: fs.map digitChar).dropWhile (· ≠ '.')).drop 1 = fs.map digitChar := by
  refine ⟨by simp, ?_⟩
  induction is with
  | nil => simp
  | cons d is ih =>
    have hd : digitChar d ≠ '.' := by revert d; decide
    simp only [List.map_cons, List.cons_append]
    rw [List.takeWhile_cons_of_pos (by simpa using hd), List.dropWhile_cons_of_pos (by simpa using hd)]
    exact ⟨by rw [ih.1], ih.2⟩

theorem mkRational_exact (is fs : List (Fin 10)) :
    ∃ c, mkRational (is.map digitChar ++ '.' :: fs.map digitChar) = some c ∧ Canonical c ∧
      fval c = intVal is + fracVal fs := by
  obtain ⟨s1, s2, s3⟩ := split_dot is fs
  obtain ⟨i1, i2⟩ := ofDigits_spec is
  obtain ⟨f1, f2⟩ := ofDigits_spec fs
  obtain ⟨o1, o2⟩ := ofWord_canonical (z := 1) (by decide) (by decide)
  obtain ⟨p, p1, p2, p3⟩ := precision_exact fs.length o1
  have p3 : fval p = ((10 ^ fs.length : Nat) : ℚ) := by rw [p3, o2]; push_cast; ring
  obtain ⟨g, g1, g2, g3⟩ := gcdLF_exact p2 f1 p3 f2
  have gpos : 0 < Nat.gcd (10 ^ fs.length) (gmpDigits (fs.map digitChar)) :=
    Nat.gcd_pos_of_pos_left _ (by positivity)
  have gq : (Nat.gcd (10 ^ fs.length) (gmpDigits (fs.map digitChar)) : ℚ) ≠ 0 := by
    exact_mod_cast gpos.ne'
  have gne : fval g ≠ 0 := by rw [g3]; exact gq
  obtain ⟨n, n1, n2, n3⟩ := div_exact f1 g2 gne
  obtain ⟨d, d1, d2, d3⟩ := div_exact p2 g2 gne
  obtain ⟨m, m1, m2, m3⟩ := mul_exact i1 d2
  obtain ⟨a, a1, a2, a3⟩ := add_exact m2 n2
  have tne : ((10 ^ fs.length : Nat) : ℚ) ≠ 0 := by push_cast; positivity
  have dne : fval d ≠ 0 := by rw [d3, p3]; exact div_ne_zero tne gne
  obtain ⟨r, r1, r2, r3⟩ := div_exact a2 d2 dne
  refine ⟨r, ?_, r2, ?_⟩
  · unfold mkRational
    rw [if_pos s1, s2, s3]
    simp only [List.length_map, p1, g1, n1, d1, m1, a1, Option.bind_eq_bind, Option.bind_some]
    exact r1
  · rw [r3, a3, m3, n3, i2, f2, gmpDigits_eq, gmpDigits_eq, add_div, mul_div_assoc, div_self dne, mul_one,
      d3, div_div_div_cancel_right₀ gne, p3, fracVal_eq]
    push_cast
    rfl

end LF
end Yaga
