import Verif.Proofs.FractionInt

set_option linter.unusedVariables false

namespace Yaga
open Spec
namespace LF

/-- A canonical object that denotes a positive integer. -/
def PosInt (d : LF) : Prop := Canonical d ∧ ∃ k : Int, 0 < k ∧ fval d = k

theorem den_dvd (q : ℚ) (j : Int) : (q.den : Int) ∣ j ↔ ∃ z : Int, q * j = z := by
  have hd : (q.den : ℚ) ≠ 0 := by exact_mod_cast q.den_ne_zero
  have hq : q * (q.den : ℚ) = q.num := Rat.mul_den_eq_num q
  constructor
  · rintro ⟨c, rfl⟩
    refine ⟨q.num * c, ?_⟩
    push_cast
    rw [← mul_assoc, hq]
  · rintro ⟨z, hz⟩
    have e : q.num * j = z * (q.den : Int) := by
      have : (q.num : ℚ) * j = z * (q.den : ℚ) := by rw [← hq, ← hz]; ring
      exact_mod_cast this
    have hc : IsCoprime (q.den : Int) q.num := by
      rw [Int.isCoprime_iff_gcd_eq_one, Int.gcd_comm]
      exact q.reduced
    exact hc.dvd_of_dvd_mul_left ⟨z, by rw [e]; ring⟩

theorem int_dvd {k : Int} (hk : 0 < k) (j : Int) : k ∣ j ↔ ∃ z : Int, (j : ℚ) = z * (k : ℚ) := by
  constructor
  · rintro ⟨c, rfl⟩
    exact ⟨c, by push_cast; ring⟩
  · rintro ⟨z, hz⟩
    have : j = z * k := by exact_mod_cast hz
    exact ⟨z, by rw [this]; ring⟩

/-! ### `unique` -/

theorem uniqAfter_vals (P : ℚ → Prop) : ∀ (x : LF) (l : List LF), Canonical x → (∀ d ∈ l, Canonical d) → P (fval x) →
    ((∀ d ∈ uniqAfter x l, P (fval d)) ↔ ∀ d ∈ l, P (fval d))
  | x, [], _, _, _ => by simp [uniqAfter]
  | x, y :: l, hx, hl, hp => by
    have hy : Canonical y := hl y (by simp)
    have hl' : ∀ d ∈ l, Canonical d := fun d hd => hl d (by simp [hd])
    unfold uniqAfter
    by_cases e : eq x y = true
    · rw [if_pos e, uniqAfter_vals P x l hx hl' hp]
      have ev := (eq_exact hx hy).1 e
      simp only [List.mem_cons, forall_eq_or_imp, ← ev]
      exact ⟨fun h => ⟨hp, h⟩, fun h => h.2⟩
    · rw [if_neg e]
      simp only [List.mem_cons, forall_eq_or_imp]
      exact and_congr_right fun h => uniqAfter_vals P y l hy hl' h

theorem uniqAfter_sublist : ∀ (x : LF) (l : List LF), (uniqAfter x l).Sublist l
  | x, [] => by simp [uniqAfter]
  | x, y :: l => by
    unfold uniqAfter
    split
    · exact (uniqAfter_sublist x l).cons y
    · exact (uniqAfter_sublist y l).cons_cons y

theorem uniqLF_vals (P : ℚ → Prop) (l : List LF) (hl : ∀ d ∈ l, Canonical d) :
    (∀ d ∈ uniqLF l, P (fval d)) ↔ ∀ d ∈ l, P (fval d) := by
  cases l with
  | nil => simp [uniqLF]
  | cons x l =>
    unfold uniqLF
    simp only [List.mem_cons, forall_eq_or_imp]
    exact and_congr_right fun h => uniqAfter_vals P x l (hl x (by simp)) (fun d hd => hl d (by simp [hd])) h

theorem uniqLF_sublist (l : List LF) : (uniqLF l).Sublist l := by
  cases l with
  | nil => simp [uniqLF]
  | cons x l => exact (uniqAfter_sublist x l).cons_cons x

/-! ### The loop -/

/-- The denominators that are left for the next iteration. -/
theorem rest_dens {m : LF} (hm : Canonical m) {x : Int} (ex : fval m = x) (hx : 0 < x) :
    ∀ l : List LF, (∀ d ∈ l, PosInt d) →
    ∃ ns, (l.mapM fun d => (div m d).map getDen) = some ns ∧ ns.length = l.length ∧ (∀ n ∈ ns, PosInt n) ∧
      ∀ i : Int, (∀ n ∈ ns, ∃ z : Int, (i : ℚ) = z * fval n) ↔ ∀ d ∈ l, ∃ z : Int, ((x * i : Int) : ℚ) = z * fval d
  | [], _ => ⟨[], rfl, rfl, by simp, by simp⟩
  | d :: l, hl => by
    obtain ⟨hd, k, hk, ek⟩ := hl d (by simp)
    have hk' : (k : ℚ) ≠ 0 := by exact_mod_cast hk.ne'
    obtain ⟨ns, h1, h2, h3, h4⟩ := rest_dens hm ex hx l fun d hd => hl d (by simp [hd])
    obtain ⟨q, q1, q2, q3⟩ := div_exact hm hd (by rw [ek]; exact hk')
    obtain ⟨n1, n2⟩ := getDen_exact q2
    have hpos : 0 < ((fval q).den : Int) := by exact_mod_cast (fval q).den_pos
    refine ⟨q.getDen :: ns, ?_, by simp [h2], ?_, fun i => ?_⟩
    · rw [List.mapM_cons, q1]
      simp [h1]
    · intro n hn
      rcases List.mem_cons.1 hn with rfl | hn
      · exact ⟨n1, _, hpos, n2⟩
      · exact h3 n hn
    · simp only [List.mem_cons, forall_eq_or_imp]
      rw [h4 i, n2, ← int_dvd hpos, den_dvd, q3, ex, ek]
      apply and_congr_left'
      constructor
      · rintro ⟨z, hz⟩
        refine ⟨z, ?_⟩
        rw [← hz]
        push_cast
        field_simp
      · rintro ⟨z, hz⟩
        refine ⟨z, ?_⟩
        push_cast at hz
        field_simp
        linarith

theorem filter_one {ns : List LF} (h : ∀ n ∈ ns, PosInt n) (i : Int) :
    (∀ n ∈ ns.filter (fun n => !eq n (ofWord 1)), ∃ z : Int, (i : ℚ) = z * fval n) ↔
      ∀ n ∈ ns, ∃ z : Int, (i : ℚ) = z * fval n := by
  have h1 : Canonical (ofWord 1) ∧ fval (ofWord 1) = (1 : Int) := ofWord_canonical (by decide) (by decide)
  constructor
  · intro g n hn
    by_cases e : eq n (ofWord 1) = true
    · have := (eq_exact (h n hn).1 h1.1).1 e
      exact ⟨i, by rw [this, h1.2]; simp⟩
    · exact g n (by simp [hn, e])
  · intro g n hn
    exact g n (List.mem_filter.1 hn).1

theorem multLoop_eq : ∀ (fuel : Nat) (dens : List LF) (mult : LF), dens.length < fuel → (∀ d ∈ dens, PosInt d) →
    Canonical mult → ∃ (c : LF) (k : Int), multLoop fuel dens mult = some c ∧ Canonical c ∧ 0 < k ∧
      fval c = fval mult * k ∧ ∀ j : Int, k ∣ j ↔ ∀ d ∈ dens, ∃ z : Int, (j : ℚ) = z * fval d
  | 0, _, _, h, _, _ => by omega
  | fuel + 1, dens, mult, hf, hp, hm => by
    have hp' : ∀ d ∈ sortBy ltLF dens, PosInt d := fun d hd => hp d ((mem_sortBy _ _ _).1 hd)
    have hu : ∀ j : Int, (∀ d ∈ (uniqLF (sortBy ltLF dens)).reverse, ∃ z : Int, (j : ℚ) = z * fval d) ↔
        ∀ d ∈ dens, ∃ z : Int, (j : ℚ) = z * fval d := by
      intro j
      have e := uniqLF_vals (fun v => ∃ z : Int, (j : ℚ) = z * v) (sortBy ltLF dens) fun d hd => (hp' d hd).1
      simp only [mem_sortBy] at e
      simp only [List.mem_reverse]
      exact e
    have hlen : (uniqLF (sortBy ltLF dens)).reverse.length ≤ dens.length := by
      rw [List.length_reverse]
      exact (uniqLF_sublist _).length_le.trans (length_sortBy _ _).le
    have hpu : ∀ d ∈ (uniqLF (sortBy ltLF dens)).reverse, PosInt d := fun d hd =>
      hp' d ((uniqLF_sublist _).subset (List.mem_reverse.1 hd))
    unfold multLoop
    generalize (uniqLF (sortBy ltLF dens)).reverse = l at hu hlen hpu
    simp only [← hu]
    match l, hlen, hpu with
    | [], _, _ => exact ⟨mult, 1, rfl, hm, one_pos, by simp, by simp⟩
    | [d], _, hpu =>
      obtain ⟨hd, k, hk, ek⟩ := hpu d (by simp)
      obtain ⟨c, c1, c2, c3⟩ := mulA_exact hm hd
      refine ⟨c, k, c1, c2, hk, by rw [c3, ek], fun j => ?_⟩
      simp only [List.mem_singleton, forall_eq]
      rw [int_dvd hk, ek]
    | d1 :: d2 :: rest, hlen, hpu =>
      obtain ⟨hd1, k1, p1, e1⟩ := hpu d1 (by simp)
      obtain ⟨hd2, k2, p2, e2⟩ := hpu d2 (by simp)
      obtain ⟨m, x, m1, m2, m3, m4, m5⟩ := lcmLF_eq hd1 hd2 e1 e2 (by omega) (by omega)
      have hx : 0 < x := by
        have h0 := m5 p1.le p2.le
        have : x.natAbs ≠ 0 := by
          rw [m4]
          exact Int.lcm_ne_zero p1.ne' p2.ne'
        omega
      have hxl : x = (Int.lcm k1 k2 : Int) := by omega
      obtain ⟨mu, u1, u2, u3⟩ := mulA_exact hm m2
      obtain ⟨ns, n1, n2, n3, n4⟩ := rest_dens m2 m3 hx rest.reverse fun d hd =>
        hpu d (by simp [List.mem_reverse.1 hd])
      obtain ⟨c, k, c1, c2, c3, c4, c5⟩ := multLoop_eq fuel (ns.filter fun n => !eq n (ofWord 1)) mu
        (by
          have := List.length_filter_le (fun n => !eq n (ofWord 1)) ns
          rw [n2, List.length_reverse] at this
          simp only [List.length_cons] at hlen
          omega)
        (fun n hn => n3 n (List.mem_filter.1 hn).1) u2
      refine ⟨c, x * k, ?_, c2, mul_pos hx c3, by rw [c4, u3, m3]; push_cast; ring, fun j => ?_⟩
      · simp only [m1, Option.bind_some, u1, n1]
        exact c1
      · simp only [List.mem_cons, forall_eq_or_imp]
        rw [e1, e2, ← int_dvd p1, ← int_dvd p2]
        have hl : x ∣ j ↔ k1 ∣ j ∧ k2 ∣ j := by
          rw [hxl]
          exact ⟨fun h => ⟨(Int.dvd_lcm_left k1 k2).trans h, (Int.dvd_lcm_right k1 k2).trans h⟩,
            fun h => Int.coe_lcm_dvd h.1 h.2⟩
        rw [← and_assoc, ← hl]
        constructor
        · rintro ⟨i, rfl⟩
          refine ⟨⟨k * i, by ring⟩, ?_⟩
          have := (n4 (k * i)).1 ((filter_one n3 _).1 ((c5 (k * i)).1 ⟨i, rfl⟩))
          intro d hd
          rw [mul_assoc]
          exact this d (List.mem_reverse.2 hd)
        · rintro ⟨⟨i, rfl⟩, h⟩
          have := (c5 i).2 ((filter_one n3 _).2 ((n4 i).2 fun d hd => h d (List.mem_reverse.1 hd)))
          exact mul_dvd_mul_left x this

theorem getMultiplicand_eq {reals : List LF} (h : ∀ r ∈ reals, Canonical r) :
    ∃ (c : LF) (k : Int), getMultiplicand reals = some c ∧ Canonical c ∧ 0 < k ∧ fval c = k ∧
      ∀ j : Int, k ∣ j ↔ ∀ r ∈ reals, ∃ z : Int, fval r * j = z := by
  have h1 : Canonical (ofWord 1) ∧ fval (ofWord 1) = (1 : Int) := ofWord_canonical (by decide) (by decide)
  obtain ⟨c, k, c1, c2, c3, c4, c5⟩ := multLoop_eq _ ((reals.filter fun r => !r.isInteger).map getDen) (ofWord 1)
    (Nat.lt_succ_self _) (by
      intro d hd
      obtain ⟨r, hr, rfl⟩ := List.mem_map.1 hd
      obtain ⟨g1, g2⟩ := getDen_exact (h r (List.mem_filter.1 hr).1)
      exact ⟨g1, _, by exact_mod_cast (fval r).den_pos, g2⟩) h1.1
  refine ⟨c, k, c1, c2, c3, by rw [c4, h1.2]; simp, fun j => ?_⟩
  rw [c5 j]
  constructor
  · intro g r hr
    by_cases hi : r.isInteger = true
    · obtain ⟨z, hz⟩ := (isInteger_exact (h r hr)).1 hi
      exact ⟨z * j, by rw [hz]; push_cast; ring⟩
    · rw [← den_dvd, int_dvd (by exact_mod_cast (fval r).den_pos)]
      have := g r.getDen (List.mem_map.2 ⟨r, by simp [hr, hi], rfl⟩)
      rw [(getDen_exact (h r hr)).2] at this
      exact this
  · intro g d hd
    obtain ⟨r, hr, rfl⟩ := List.mem_map.1 hd
    have hr' := (List.mem_filter.1 hr).1
    rw [(getDen_exact (h r hr')).2, ← int_dvd (by exact_mod_cast (fval r).den_pos), den_dvd]
    exact g r hr'

end LF
end Yaga
