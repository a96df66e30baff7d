/-
C40: polynomial terms are canonical.
-/
import Verif.Proofs.TermOps

namespace Yaga

open TermTable Spec

theorem not_unitProduct_of_termFor {H : TermHash} {s : TermTable} (h : WF H s) {p : APoly} {t : Tm}
    (ht : TermFor s p t) : ¬ UnitProduct s t := by
  rintro ⟨hk, hc⟩
  match p, ht with
  | [], ht =>
    have ht : t = Tm.zero := ht
    rw [ht, kind_of_entry h.zero] at hk
    cases hk
  | [(none, q)], ht =>
    rw [kind_of_entry ht.2] at hk
    cases hk
  | [(some x, q)], ht =>
    obtain ⟨hx, hv, hm⟩ := ht
    rcases hm with ⟨_, rfl⟩ | ⟨hq, c, a1, a2, a3, a4⟩
    · rcases hv with hv | hv | hv <;> rw [hv] at hk <;> cases hk
    · rw [(product_of_entry a4 a2).2.2] at hc
      exact hq hc
  | a :: b :: p, ht =>
    obtain ⟨_, as, h1, _⟩ := ht
    rw [kind_of_entry h1] at hk
    cases hk

/-- C40 (partial: two real terms that are not products with the coefficient 1): they denote the same
polynomial over their variables exactly if they have the same handle. -/
theorem C40_canonical_partial {H : TermHash} {s : TermTable} (hs : TReach H s) {a b : Tm}
    (ha : IsReal s a) (hb : IsReal s b) (hua : ¬ UnitProduct s a) (hub : ¬ UnitProduct s b) :
    SamePoly s a b ↔ a = b := by
  have h := hs.wf
  constructor
  · intro hsp
    obtain ⟨p, h1, _, _, h2⟩ := toPoly_spec h ha
    obtain ⟨q, g1, _, _, g2⟩ := toPoly_spec h hb
    rw [samePoly_iff h ha hb, h1, g1] at hsp
    cases hsp
    exact (h2.resolve_left hua).unique h (g2.resolve_left hub)
  · rintro rfl ρ; rfl

/-- C40 (partial, as above): `=` of two such terms that denote the same polynomial is `true`. -/
theorem C40_equality_partial {H : TermHash} {s : TermTable} (hs : TReach H s) {a b : Tm}
    (ha : IsReal s a) (hb : IsReal s b) (hua : ¬ UnitProduct s a) (hub : ¬ UnitProduct s b)
    (hp : SamePoly s a b) : (MgrOp.eq a b).run H s = some (s, Tm.tt) := by
  have := (C40_canonical_partial hs ha hb hua hub).mp hp
  subst this
  show s.mkBinaryEq H a a = _
  unfold mkBinaryEq mkArithEq
  rw [ha.1]
  simp

theorem mkTimes_not_unit {H : TermHash} {s : TermTable} (h : WF H s) {a b : Tm} (ha : IsReal s a)
    (hb : IsReal s b) (hua : s.kind a ≠ .product) (hub : s.kind b ≠ .product) {r : TermTable × Tm}
    (hr : s.mkTimes H [a, b] = some r) : ¬ UnitProduct r.1 r.2 := by
  have nz : ∀ {s' : TermTable}, WF H s' → ¬ UnitProduct s' Tm.zero := fun h' =>
    not_unitProduct_of_termFor (p := []) h' rfl
  have key : ∀ (v : ℚ) {t : Tm}, IsReal s t → s.kind t ≠ .product → 
      (if v = 0 then some (s, Tm.zero) else if v = 1 then some (s, t) else s.timesConst H v t) = some r →
      ¬ UnitProduct r.1 r.2 := by
    intro v t ht hk hr
    by_cases h0 : v = 0
    · rw [if_pos h0] at hr; cases hr; exact nz h
    rw [if_neg h0] at hr
    by_cases h1 : v = 1
    · rw [if_pos h1] at hr; cases hr; exact fun hu => hk hu.1
    rw [if_neg h1] at hr
    unfold timesConst at hr
    rcases real_cases h ht with ⟨c, he⟩ | hv | ⟨c, x, q', he, _⟩ | ⟨as, p, he, hl, hp, hf⟩
    · rw [kind_of_entry he] at hr; cases hr
    · have hr : some (s.arithProduct H v t) = some r := by
        rcases hv with hv | hv | hv <;> rw [hv] at hr <;> exact hr
      cases hr
      have hm := monoToTerm_spec (H := H) h (m := (some t, v)) h0 (fun x hx => by cases hx; exact ⟨ht, hv⟩)
      have e : s.monoToTerm H (some t, v) = s.arithProduct H v t := by
        unfold monoToTerm; simp only; rw [if_neg h1]
      rw [e] at hm
      exact not_unitProduct_of_termFor (p := [(some t, v)]) hm.1 hm.2.2
    · exact absurd (kind_of_entry he) hk
    · rw [kind_of_entry he] at hr
      obtain ⟨p, hp, hpok, hpv, _⟩ := toPoly_spec h ht
      simp only [hp, Option.map_some] at hr
      cases hr
      have := polyToTerm_spec (H := H) h (APoly.multiplyBy_ok h0 hpok) (hpv.map (· * v))
      exact not_unitProduct_of_termFor this.1 this.2.2
  unfold mkTimes at hr
  simp only [List.filter_cons, List.filter_nil] at hr
  cases hca : s.isArithConst a <;> cases hcb : s.isArithConst b <;> rw [hca, hcb] at hr <;>
    simp only [if_true, Bool.not_true, Bool.not_false, Bool.false_eq_true, if_false, List.foldl_cons,
        List.foldl_nil, one_mul] at hr
  · cases hr
  · exact key _ ha hua hr
  · exact key _ hb hub hr
  · by_cases h0 : s.constValue a * s.constValue b = 0
    · rw [if_pos h0] at hr; cases hr; exact nz h
    · rw [if_neg h0] at hr
      cases hr
      have hm := monoToTerm_spec (H := H) h (m := (none, s.constValue a * s.constValue b)) h0
        (fun x hx => by cases hx)
      exact not_unitProduct_of_termFor (p := [(none, s.constValue a * s.constValue b)]) hm.1 hm.2.2

/-- C40: sums, differences and negations are never products with the coefficient 1, and neither is a
product of terms that are not products themselves. So C40 can only fail for products of products. -/
theorem C40_results {H : TermHash} {s : TermTable} (hs : TReach H s) {op : MgrOp} (ht : op.Typed s)
    (hop : match op with
      | .plus _ | .minus _ _ | .neg _ => True
      | .times as => as.length = 2 ∧ ∀ a ∈ as, s.kind a ≠ .product
      | _ => False)
    {r : TermTable × Tm} (hr : op.run H s = some r) : ¬ UnitProduct r.1 r.2 := by
  have h := hs.wf
  cases op <;> simp only at hop
  case plus as =>
    have hr : s.mkPlus H as = some r := hr
    unfold mkPlus at hr
    obtain ⟨p, h1, h2, h3, _⟩ := foldMerge_spec h ht (acc := []) APoly.nil_ok (by intro m hm; cases hm)
    rw [h1] at hr
    cases hr
    have := polyToTerm_spec (H := H) h h2 h3
    exact not_unitProduct_of_termFor this.1 this.2.2
  case minus a b =>
    have hr : s.mkMinus H a b = some r := hr
    obtain ⟨p, hp, hpok, hpv, _⟩ := toPoly_spec h ht.1
    obtain ⟨q, hq, hqok, hqv, _⟩ := toPoly_spec h ht.2
    unfold mkMinus at hr
    rw [hp, hq] at hr
    cases hr
    have := polyToTerm_spec (H := H) h (APoly.merge_ok (c := -1) (by norm_num) hpok hqok) (hpv.merge hqv _)
    exact not_unitProduct_of_termFor this.1 this.2.2
  case neg a =>
    have hr : s.mkUnaryMinus H a = some r := hr
    obtain ⟨p, hp, hpok, hpv, _⟩ := toPoly_spec h ht
    unfold mkUnaryMinus at hr
    rw [hp] at hr
    cases hr
    have := polyToTerm_spec (H := H) h (APoly.negate_ok hpok) (hpv.map _)
    exact not_unitProduct_of_termFor this.1 this.2.2
  case times as =>
    obtain ⟨hl, hk⟩ := hop
    match as, hl, hk, ht, hr with
    | [a, b], _, hk, ht, hr =>
      exact mkTimes_not_unit h (ht a (by simp)) (ht b (by simp)) (hk a (by simp)) (hk b (by simp)) hr

/-! ### The full statement is false -/

/-- A hash function with collisions everywhere. -/
private def h0 : TermHash := ⟨fun _ _ => 0, fun _ _ => 0, fun _ => 0⟩

/-- The constant `x` (6), the numbers 2 (8) and 1/2 (10), `(* 1/2 x)` (12), `(* 2 (* 1/2 x))` (16, after
the constant 1). -/
private def t1 : TermTable :=
  ((((TermTable.init h0).fresh .real).1.arithConstant h0 2).1.arithConstant h0 (1 / 2)).1

private def t2 : TermTable := (t1.arithProduct h0 (1 / 2) ⟨6⟩).1
private def t3 : TermTable := (t2.arithProduct h0 1 ⟨6⟩).1

private theorem t1_reach : TReach h0 t1 :=
  .step (op := .rational (1 / 2)) (.step (op := .rational 2) (.step (op := .fresh .real) .init
    (by unfold MgrOp.Typed; decide) rfl) trivial rfl) trivial rfl

private theorem run2 : (MgrOp.times [⟨10⟩, ⟨6⟩]).run h0 t1 = some (t2, ⟨12⟩) := by decide +kernel
private theorem run3 : (MgrOp.times [⟨8⟩, ⟨12⟩]).run h0 t2 = some (t3, ⟨16⟩) := by decide +kernel

private theorem t3_reach : TReach h0 t3 :=
  .step (op := .times [⟨8⟩, ⟨12⟩]) (r := (t3, ⟨16⟩)) (.step t1_reach (by unfold MgrOp.Typed; decide +kernel) run2)
    (by unfold MgrOp.Typed; decide +kernel) run3

/-- C40 is false: `(* 2 (* 1/2 x))` denotes the same polynomial as `x` but is another term, and the
equality of the two is not computed (`mk_arithmetic_eq` reads the first monomial of an empty polynomial). -/
theorem C40_false : ∃ (H : TermHash) (s : TermTable) (x half two t : Tm) (s1 s2 : TermTable), TReach H s2 ∧
    (MgrOp.times [half, x]).run H s = some (s1, ⟨12⟩) ∧ (MgrOp.times [two, ⟨12⟩]).run H s1 = some (s2, t) ∧
    s.constValue half = 1 / 2 ∧ s.constValue two = 2 ∧
    SamePoly s2 t x ∧ t ≠ x ∧ (MgrOp.eq t x).run H s2 = none := by
  refine ⟨h0, t1, ⟨6⟩, ⟨10⟩, ⟨8⟩, ⟨16⟩, t2, t3, t3_reach, run2, run3, by decide +kernel, by decide +kernel, ?_,
    by decide, by decide +kernel⟩
  rw [samePoly_iff t3_reach.wf (by decide +kernel) (by decide +kernel)]
  decide +kernel

/-- Hypotheses of the partial theorems: `x + 2` built in two ways. -/
example : TReach h0 t1 ∧ IsReal t1 ⟨6⟩ ∧ ¬ UnitProduct t1 ⟨6⟩ ∧
    ((MgrOp.plus [⟨6⟩, ⟨8⟩]).run h0 t1).isSome ∧
    (((MgrOp.plus [⟨6⟩, ⟨8⟩]).run h0 t1).bind fun r =>
      ((MgrOp.plus [⟨8⟩, ⟨6⟩]).run h0 r.1).map fun r2 => decide (r2.2 = r.2)) = some true := by
  refine ⟨t1_reach, by decide +kernel, ?_, by decide +kernel, by decide +kernel⟩
  unfold UnitProduct
  decide +kernel

#print axioms C40_canonical_partial
#print axioms C40_equality_partial
#print axioms C40_results
#print axioms C40_false

end Yaga
