/-
The text that `Long_fraction::print` produces.
-/
import Mathlib.Tactic.Linarith
import Mathlib.Tactic.FieldSimp
import Verif.Model.PrintModel
import Verif.Spec.Fraction
import Verif.Proofs.SmtText

namespace Yaga

open Spec

theorem digitChar_facts : ∀ d < 10, (Nat.digitChar d).isDigit = true ∧ (Nat.digitChar d).toNat - '0'.toNat = d := by
  decide

theorem decimal_small {n : Nat} (h : n < 10) : decimal n = [Nat.digitChar n] := Nat.toDigits_of_lt_base h

theorem decimal_big {n : Nat} (h : 10 ≤ n) : decimal n = decimal (n / 10) ++ [Nat.digitChar (n % 10)] :=
  Nat.toDigits_of_base_le (by omega) h

theorem decimal_ne (n : Nat) : decimal n ≠ [] := by
  by_cases h : n < 10
  · rw [decimal_small h]; simp
  · rw [decimal_big (by omega)]; simp

theorem decimal_digits (n : Nat) : ∀ c ∈ decimal n, c.isDigit = true := by
  induction n using Nat.strongRecOn with
  | _ n ih =>
    by_cases h : n < 10
    · rw [decimal_small h]
      intro c hc
      rw [List.mem_singleton.mp hc]
      exact (digitChar_facts n h).1
    · rw [decimal_big (by omega)]
      intro c hc
      rcases List.mem_append.mp hc with hc | hc
      · exact ih (n / 10) (by omega) c hc
      · rw [List.mem_singleton.mp hc]
        exact (digitChar_facts (n % 10) (by omega)).1

theorem decimal_value (n : Nat) : (decimal n).foldl (fun n c => 10 * n + (c.toNat - '0'.toNat)) 0 = n := by
  induction n using Nat.strongRecOn with
  | _ n ih =>
    by_cases h : n < 10
    · rw [decimal_small h]
      simp only [List.foldl_cons, List.foldl_nil]
      rw [(digitChar_facts n h).2]
      omega
    · rw [decimal_big (by omega), List.foldl_append, ih (n / 10) (by omega)]
      simp only [List.foldl_cons, List.foldl_nil]
      rw [(digitChar_facts (n % 10) (by omega)).2]
      omega

theorem numeral_decimal (n : Nat) : numeral (decimal n) = some n := by
  have h1 := decimal_ne n
  have h2 : (decimal n).all Char.isDigit = true := List.all_eq_true.mpr (decimal_digits n)
  unfold numeral
  split
  · exact absurd (by assumption) h1
  · rw [if_pos h2, decimal_value]

theorem digit_not_delim {c : Char} (h : c.isDigit = true) : isDelim c = false := by
  cases hd : isDelim c with
  | false => rfl
  | true =>
    exfalso
    simp only [isDelim, isSpace, Bool.or_eq_true, beq_iff_eq] at hd
    rcases hd with (rfl | rfl) | ((rfl | rfl) | rfl) | rfl <;> revert h <;> decide

theorem decimal_not_delim (n : Nat) : ∀ c ∈ decimal n, isDelim c = false := fun c hc => digit_not_delim (decimal_digits n c hc)

/-- The names of the parameters are no numerals. -/
def NoNumeral (env : List (List Char × Spec.Val)) : Prop := ∀ p ∈ env, ∀ n, p.1 ≠ decimal n

theorem value_decimal {env : List (List Char × Spec.Val)} (he : NoNumeral env) (n : Nat) :
    (SExp.atom (decimal n)).value env = some (.q (n : ℚ)) := by
  have hd := decimal_digits n
  have h1 : decimal n ≠ "true".toList := by
    intro h
    rw [h] at hd
    revert hd
    decide
  have h2 : decimal n ≠ "false".toList := by
    intro h
    rw [h] at hd
    revert hd
    decide
  have h3 : env.find? (fun p => p.1 == decimal n) = none := by
    rw [List.find?_eq_none]
    intro p hp h
    exact he p hp n (by simpa using h)
  rw [SExp.value, if_neg h1, if_neg h2, h3, numeral_decimal]
  rfl

theorem shows_decimal (n : Nat) : Shows (decimal n) [.atom (decimal n)] := shows_atom (decimal_ne n) (decimal_not_delim n)

/-- The s-expression for an integer with sign. -/
def intExp (neg : Bool) (n : Nat) : SExp := if neg then .list [.atom ['-'], .atom (decimal n)] else .atom (decimal n)

theorem value_intExp {env : List (List Char × Spec.Val)} (he : NoNumeral env) (neg : Bool) (n : Nat) :
    (intExp neg n).value env = some (.q (if neg then -(n : ℚ) else n)) := by
  cases neg with
  | false => exact value_decimal he n
  | true =>
    have h1 : valuesOf env [SExp.atom (decimal n)] = some [.q (n : ℚ)] := by
      rw [valuesOf, value_decimal he n, valuesOf]
    show SExp.value env (.list (.atom ['-'] :: [.atom (decimal n)])) = _
    rw [SExp.value, h1]
    simp [applySym]

theorem shows_neg (n : Nat) : Shows ("(- ".toList ++ decimal n ++ ")".toList) [intExp true n] := by
  have h : Shows (['-'] ++ (' ' :: decimal n)) (.atom ['-'] :: [.atom (decimal n)]) :=
    shows_cons (by simp) (by decide) (shows_space (by decide) (shows_decimal n)) (starts_cons (by decide))
  have := shows_list h
  simpa [intExp] using this

theorem shows_int (neg : Bool) (n : Nat) :
    Shows ((if neg then "(- ".toList else []) ++ decimal n ++ (if neg then ")".toList else [])) [intExp neg n] := by
  cases neg with
  | false => simpa [intExp] using shows_decimal n
  | true => exact shows_neg n

theorem shows_frac (neg : Bool) (n d : Nat) :
    Shows ("(/ ".toList ++ (if neg then "(- ".toList else []) ++ decimal n ++ (if neg then ") ".toList else " ".toList) ++
      decimal d ++ ")".toList) [.list [.atom ['/'], intExp neg n, .atom (decimal d)]] := by
  have h1 : Shows (' ' :: decimal d) [.atom (decimal d)] := shows_space (by decide) (shows_decimal d)
  have h2 := shows_append (shows_int neg n) h1 (starts_cons (by decide))
  have h3 := shows_list (shows_cons (w := ['/']) (by simp) (by decide) (shows_space (c := ' ') (by decide) h2)
    (starts_cons (by decide)))
  cases neg <;> simpa [intExp] using h3

theorem value_frac {env : List (List Char × Spec.Val)} (he : NoNumeral env) (neg : Bool) (n : Nat) {d : Nat} (hd : d ≠ 0) :
    (SExp.list [.atom ['/'], intExp neg n, .atom (decimal d)]).value env =
      some (.q ((if neg then -(n : ℚ) else n) / d)) := by
  have h1 : valuesOf env [intExp neg n, SExp.atom (decimal d)] = some [.q (if neg then -(n : ℚ) else n), .q (d : ℚ)] := by
    rw [valuesOf, value_intExp he, valuesOf, value_decimal he, valuesOf]
  have h2 : (d : ℚ) ≠ 0 := by exact_mod_cast hd
  rw [SExp.value, h1]
  simp [applySym, h2]

/-- The s-expression for a number. -/
def ratExp (a : LF) : SExp :=
  let neg := decide (a.sign < 0)
  if a.wv then
    if a.den = 1 then intExp neg a.num.natAbs else .list [.atom ['/'], intExp neg a.num.natAbs, .atom (decimal a.den.natAbs)]
  else .list [.atom ['/'], intExp neg a.q.n.natAbs, .atom (decimal a.q.d.natAbs)]

theorem decimalInt_nonneg {x : Int} (h : 0 ≤ x) : decimalInt x = decimal x.natAbs := by
  unfold decimalInt
  rw [if_neg (by omega)]

theorem absW_eq {x : Int} (h1 : -2 ^ 31 ≤ x) (h2 : x < 2 ^ 31) : LF.absW x = x.natAbs := by
  unfold LF.absW LF.toUword
  split <;> omega

theorem shows_print {a : LF} (h : Canonical a) : Shows a.print [ratExp a] := by
  unfold LF.print ratExp
  by_cases hw : a.wv = true
  · obtain ⟨⟨f1, f2, f3⟩, f4, _⟩ := h.word hw
    simp only [hw, if_true]
    rw [absW_eq f1 f2, decimalInt_nonneg (by omega), decimalInt_nonneg (by omega : 0 ≤ a.den), Int.natAbs_natCast]
    split
    · exact shows_int _ _
    · exact shows_frac _ _ _
  · have hm := h.valid.resolve_left hw
    have hq := h.mpq hm
    simp only [hw, if_false, Bool.false_eq_true]
    have e : decimalInt (if decide (a.sign < 0) = true then -a.q.n else a.q.n) = decimal a.q.n.natAbs := by
      have hs : a.sign < 0 ↔ a.q.n < 0 := by
        unfold LF.sign
        simp only [hw, if_false, Bool.false_eq_true]
        split
        · omega
        · split <;> omega
      by_cases hn : a.q.n < 0
      · rw [if_pos (by simpa using hs.mpr hn), decimalInt_nonneg (by omega), Int.natAbs_neg]
      · rw [if_neg (fun h => hn (hs.mp (of_decide_eq_true h))), decimalInt_nonneg (by omega)]
    rw [e, decimalInt_nonneg (by have := hq.1; omega : 0 ≤ a.q.d)]
    exact shows_frac _ _ _

theorem signed_natAbs {x : Int} {b : Bool} (h : b = true ↔ x < 0) : (if b then -((x.natAbs : Nat) : ℚ) else (x.natAbs : ℚ)) = x := by
  have hc : ((x.natAbs : Nat) : ℚ) = |(x : ℚ)| := by
    rw [← Int.cast_abs, Int.abs_eq_natAbs]
    simp
  rw [hc]
  by_cases hx : x < 0
  · rw [if_pos (h.mpr hx), abs_of_neg (by exact_mod_cast hx)]; ring
  · rw [if_neg (fun hb => hx (h.mp hb)), abs_of_nonneg (by exact_mod_cast (not_lt.mp hx))]

theorem value_ratExp {env : List (List Char × Spec.Val)} (he : NoNumeral env) {a : LF} (h : Canonical a) :
    (ratExp a).value env = some (.q (fval a)) := by
  unfold ratExp fval
  by_cases hw : a.wv = true
  · obtain ⟨_, f4, _⟩ := h.word hw
    have hs : decide (a.sign < 0) = true ↔ a.num < 0 := by
      unfold LF.sign
      simp only [hw, if_true, decide_eq_true_eq]
      split
      · omega
      · split <;> omega
    simp only [hw, if_true]
    split
    · rename_i h1
      rw [value_intExp he, signed_natAbs hs, h1]
      simp
    · rw [value_frac he _ _ (by omega), signed_natAbs hs]
      congr 3
      rw [← Int.cast_natCast, Int.natAbs_of_nonneg f4.le]
  · have hm := h.valid.resolve_left hw
    have hq := h.mpq hm
    have hs : decide (a.sign < 0) = true ↔ a.q.n < 0 := by
      unfold LF.sign
      simp only [hw, if_false, Bool.false_eq_true, decide_eq_true_eq]
      split
      · omega
      · split <;> omega
    simp only [hw, if_false, Bool.false_eq_true]
    have := hq.1
    rw [value_frac he _ _ (by omega), signed_natAbs hs]
    congr 3
    rw [← Int.cast_natCast, Int.natAbs_of_nonneg this.le]

end Yaga
