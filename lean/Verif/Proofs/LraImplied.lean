/-
Soundness and strictness of bounds, implied constraints.
-/
import Verif.Proofs.LraReach
import Verif.Spec.Lra

set_option linter.unusedVariables false

namespace Yaga
open Spec
open LinStore (delta WfTerms Inv Kept Made)

namespace Lra

theorem agreesWith_iff {m : LModels} {σ : Nat → ℚ} : AgreesWith m σ ↔ Agrees m σ := Iff.rfl

/-- Live bounds are sound. -/
theorem bound_sound {st : St} (h : LInv st) {up : Bool} {x : Nat} {b : Bnd} (hb : b ∈ stk st.bnd up x)
    (hl : b.isObsolete st.store st.models = false) {σ : Nat → ℚ} (hσ : AgreesWith st.models σ)
    (hS : SatTrail st.store st.models σ) :
    dq up * (σ x - b.value) ≤ 0 ∧ (DeepStrict b → dq up * (σ x - b.value) < 0) := by
  have := (h.good up x b hb).sound h.inv hl σ hσ hS
  rw [h.var up x b hb] at this
  exact this

/-- Live disallowed values are sound. -/
theorem dis_sound {st : St} (h : LInv st) {x : Nat} {b : Bnd} (hb : b ∈ (st.bnd.vb x).dis)
    (hl : b.isObsolete st.store st.models = false) {σ : Nat → ℚ} (hσ : AgreesWith st.models σ)
    (hS : SatTrail st.store st.models σ) : σ x ≠ b.value := by
  have g := h.dis x b hb
  obtain ⟨μ, hμ1, hμ2⟩ := g.val
  have hlive := hl
  rw [bnd_eta b, live_iff] at hlive
  obtain ⟨⟨l1, _⟩, l3, _⟩ := hlive
  rw [g.deps, g.var] at l3
  intro e
  have h1 : lsum σ (st.store.terms b.reason) = b.reason.rhs := by
    rw [← hμ1]
    refine lsum_congr (fun p hp => ?_)
    by_cases hx : p.1 = x
    · rw [hx, bsub_self, e]
    · have hpm : p.1 ∈ st.store.varsOf b.reason := by
        rw [g.cons.varsOf h.inv]; exact List.mem_map_of_mem hp
      obtain ⟨d1, d2⟩ := l3 p.1 hpm hx (by simp)
      rw [bsub_other hx (by simp), hσ _ d1, hμ2 _ hpm hx d1 d2]
  have h2 := hS _ g.cons l1
  unfold ConsTrue at h2
  rw [g.neg, g.pred] at h2
  simp only [Bool.true_eq_false, false_and, true_and, false_or] at h2
  exact h2 h1

/-- A bound all of whose dependencies come from unit constraints and that is not reported as strict is
attained. -/
theorem bound_attained {st : St} (h : LInv st) {up : Bool} {x : Nat} {b : Bnd}
    (hb : b ∈ stk st.bnd up x) (hl : b.isObsolete st.store st.models = false)
    (hx : st.models.rats.defined x = false)
    (hd : ∀ d ∈ b.deps, d.deps = [] ∧ st.models.rats.defined d.var = false)
    (hs : b.isStrict = false) :
    ∃ σ, AgreesWith st.models σ ∧ σ x = b.value ∧ ConsTrue st.store b.reason σ ∧
      ∀ d ∈ b.deps, ConsTrue st.store d.reason σ := by
  have g := h.good up x b hb
  have hvx := h.var up x b hb
  -- a constraint that is not strict and holds with equality is true
  have key : ∀ (c : LinCons) (σ : Nat → ℚ), ¬ (c.pred = .eq ∧ c.lit.isNeg = true) →
      c.isStrict = false → lsum σ (st.store.terms c) = c.rhs → ConsTrue st.store c σ := by
    intro c σ hne hst he
    rw [← Fm.init_sound _ _ hne]
    unfold FmTrue
    rw [pval_init, he]
    have hp : Fm.initPred c ≠ .lt := by
      intro e; rw [← strict_initPred hne, hst] at e; cases e
    change Rel (Fm.initPred c) _ 0
    cases e : Fm.initPred c
    · simp [Rel]
    · exact absurd e hp
    · simp [Rel]
  unfold Bnd.isStrict at hs
  rw [Bool.or_eq_false_iff, List.any_eq_false] at hs
  obtain ⟨hs1, hs2⟩ := hs
  cases g with
  | mk up x' v c ds ct vt t μ dd hc hne ht ht1 hx' hnd hxd hdir hval hμ hct hst hdeps =>
    have hvx : x' = x := hvx
    subst hvx
    have hd : ∀ d ∈ ds, d.deps = [] ∧ st.models.rats.defined d.var = false := hd
    have hs1 : c.isStrict = false := hs1
    have hs2 : ∀ d ∈ ds, ¬ d.reason.isStrict = true := hs2
    rw [live_iff] at hl
    obtain ⟨⟨l1, l2⟩, l3, l4⟩ := hl
    let σ : Nat → ℚ := fun y => if st.models.rats.defined y = true then st.models.rats.value y
      else bsub x' v ds μ y
    have hσ : AgreesWith st.models σ := fun y hy => by simp [σ, hy]
    have hσx : σ x' = v := by simp [σ, hx, bsub_self]
    have hσd : ∀ d ∈ ds, σ d.var = d.value := by
      intro d hd'
      simp only [σ, (hd d hd').2]
      rw [if_neg (by simp), bsub_dep hnd hxd hd']
    refine ⟨σ, hσ, hσx, ?_, ?_⟩
    · show ConsTrue st.store c σ
      refine key c σ hne hs1 ?_
      rw [← hval]
      refine lsum_congr (fun p hp => ?_)
      have hpm : p.1 ∈ st.store.varsOf c := by
        rw [hc.varsOf h.inv]; exact List.mem_map_of_mem hp
      by_cases e1 : p.1 = x'
      · rw [e1, hσx, bsub_self]
      · by_cases e2 : p.1 ∈ ds.map Bnd.var
        · obtain ⟨d, hd', e3⟩ := List.mem_map.mp e2
          rw [← e3, hσd d hd', bsub_dep hnd hxd hd']
        · obtain ⟨d1, d2⟩ := l3 p.1 hpm e1 e2
          rw [bsub_other e1 e2, hσ _ d1, (hμ p.1 hpm e1 e2).2 d1 d2]
    · intro d hd'
      have hd' : d ∈ ds := hd'
      have gd := hdeps d hd'
      have ld := l4 d hd'
      have hs2 := hs2 d hd'
      obtain ⟨hdd, hdu⟩ := hd d hd'
      have hdval := hσd d hd'
      cases gd with
      | mk upd xd vd cd dsd ctd vtd td μd ddd hcd hned htd htd1 hxd' hndd hxdd hdird hvald hμd hctd hstd hdepsd =>
        have hdd : dsd = [] := hdd
        subst hdd
        have hs2 : ¬ cd.isStrict = true := hs2
        have hdval : σ xd = vd := hdval
        rw [live_iff] at ld
        obtain ⟨_, k3, _⟩ := ld
        show ConsTrue st.store cd σ
        refine key cd σ hned (by simpa using hs2) ?_
        rw [← hvald]
        refine lsum_congr (fun p hp => ?_)
        have hpm : p.1 ∈ st.store.varsOf cd := by
          rw [hcd.varsOf h.inv]; exact List.mem_map_of_mem hp
        by_cases e1 : p.1 = xd
        · rw [e1, hdval, bsub_self]
        · obtain ⟨d1, d2⟩ := k3 p.1 hpm e1 (by simp)
          rw [bsub_other e1 (by simp), hσ _ d1, (hμd p.1 hpm e1 (by simp)).2 d1 d2]

/-- `σ` respects the recorded bounds that are not obsolete. -/
def Within (st : St) (σ : Nat → ℚ) : Prop :=
  ∀ up x, ∀ b ∈ stk st.bnd up x, b.isObsolete st.store st.models = false →
    dq up * (σ x - b.value) ≤ 0

/-- The sign in front of the sum: `1` for positive literals, `-1` for negative ones. -/
def lsg (c : LinCons) : ℚ := if c.lit.isNeg then -1 else 1

theorem upward_dq (c : LinCons) {a : ℚ} (ha : a ≠ 0) : 0 < lsg c * a * dq (BState.upward c a) := by
  unfold lsg dq BState.upward
  rcases lt_or_gt_of_ne ha with h | h <;> cases c.lit.isNeg <;> simp [h, not_lt.mpr h.le]

theorem impliedLoop_spec {st : St} {σ : Nat → ℚ} (hσ : AgreesWith st.models σ)
    (c : LinCons) (ts : List (Nat × ℚ)) (hnz : ∀ p ∈ ts, p.2 ≠ 0) :
    ∀ (b : BState) (r r' : ℚ), Within ⟨st.store, st.models, b⟩ σ →
      (BState.impliedLoop st.store st.models c ts b r).2 = some r' →
      lsg c * lsum σ ts ≤ lsg c * (r - r') := by
  induction ts with
  | nil =>
    intro b r r' _ h
    simp only [BState.impliedLoop, Option.some.injEq] at h
    subst h; simp
  | cons p ts ih =>
    intro b r r' hW h
    have ih := ih (fun q hq => hnz q (List.mem_cons_of_mem _ hq))
    rw [BState.impliedLoop] at h
    rw [lsum_cons]
    by_cases hd : st.models.rats.defined p.1 = true
    · rw [if_pos hd] at h
      have := ih b _ r' hW h
      rw [hσ _ hd]
      have e : lsg c * (r - p.2 * st.models.rats.value p.1 - r') =
        lsg c * (r - r') - lsg c * (p.2 * st.models.rats.value p.1) := by ring
      rw [e] at this
      rw [mul_add]; linarith
    · rw [if_neg hd] at h
      have er : (if BState.upward c p.2 = true then BState.upper st.store st.models b p.1
          else BState.lower st.store st.models b p.1) =
          query st.store st.models b (BState.upward c p.2) p.1 := rfl
      simp only [er] at h
      have hsh := shrunk_query st.store st.models b (BState.upward c p.2) p.1
      cases hq : (query st.store st.models b (BState.upward c p.2) p.1).2 with
      | none => rw [hq] at h; cases h
      | some t =>
        rw [hq] at h
        simp only at h
        obtain ⟨q1, q2, q3⟩ := query_some hq
        have hb := hW _ _ t q1 q3
        have := ih _ _ r' (fun up y e he hle => hW up y e ((hsh.sub up y).subset he) hle) h
        have h2 := upward_dq c (hnz p (by simp))
        have h3 : lsg c * (p.2 * σ p.1) ≤ lsg c * (p.2 * t.value) := by
          have h4 : lsg c * (p.2 * σ p.1) - lsg c * (p.2 * t.value) =
              (lsg c * p.2 * dq (BState.upward c p.2)) *
                (dq (BState.upward c p.2) * (σ p.1 - t.value)) := by
            have : dq (BState.upward c p.2) * dq (BState.upward c p.2) = 1 := by
              rcases dq_cases (BState.upward c p.2) with h | h <;> rw [h] <;> norm_num
            calc _ = lsg c * p.2 * (dq (BState.upward c p.2) * dq (BState.upward c p.2)) *
                (σ p.1 - t.value) := by rw [this]; ring
              _ = _ := by ring
          have := mul_nonpos_of_nonneg_of_nonpos h2.le hb
          linarith
        have e : lsg c * (r - p.2 * t.value - r') =
          lsg c * (r - r') - lsg c * (p.2 * t.value) := by ring
        rw [e] at this
        rw [mul_add]; linarith

theorem isImplied_sound {st : St} (h : LInv st) {c : LinCons} (hc : IsCons st.store c)
    (hne : c.pred ≠ .eq) (hev : evalLit st.models.bools c.lit = none)
    (hi : (st.bnd.isImplied st.store st.models c).2 = true) {σ : Nat → ℚ}
    (hσ : AgreesWith st.models σ) (hW : Within st σ) : ConsTrue st.store c σ := by
  unfold BState.isImplied at hi
  rw [hev] at hi
  simp only at hi
  cases hr : (BState.impliedLoop st.store st.models c (st.store.terms c) st.bnd c.rhs).2 with
  | none => rw [hr] at hi; cases hi
  | some r =>
    rw [hr] at hi
    simp only at hi
    have := impliedLoop_spec hσ c (st.store.terms c) (hc.terms_wf h.inv).nz st.bnd c.rhs r hW hr
    unfold ConsTrue LinTrue
    cases hn : c.lit.isNeg with
    | false =>
      left
      refine ⟨rfl, ?_⟩
      unfold lsg at this
      rw [hn] at this hi
      simp only [Bool.false_eq_true, if_false, one_mul] at this hi
      cases hp : c.pred with
      | eq => exact absurd hp hne
      | lt => rw [hp] at hi; simp [Pred.app] at hi; show lsum σ _ < _; linarith
      | leq => rw [hp] at hi; simp [Pred.app] at hi; show lsum σ _ ≤ _; linarith
    | true =>
      right
      refine ⟨rfl, ?_⟩
      unfold lsg at this
      rw [hn] at this hi
      simp only [if_true] at this hi
      cases hp : c.pred with
      | eq => exact absurd hp hne
      | lt => rw [hp] at hi; simp [Pred.app] at hi; show ¬ lsum σ _ < _; linarith
      | leq => rw [hp] at hi; simp [Pred.app] at hi; show ¬ lsum σ _ ≤ _; linarith

end Lra
end Yaga
