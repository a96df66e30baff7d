/-
The first state of the check loop for QF_LRA, and the meaning of the answer `unsat`.
-/
import Verif.Proofs.QfIter
import Verif.Spec.QfModel

set_option linter.unusedSectionVars false
set_option linter.unusedVariables false

namespace Yaga
open LinStore (Kept)
namespace Qf
open Spec BS Check

variable {hv : Nat → Nat} {hc : ℚ → Nat} {op : LaOpts} {S : LinStore} {A : List Clause}
  {b : Bool} {O : Type} {W : QOrder O}

/-- The store has the constraints that were created. -/
structure Stored (S : LinStore) (P : List QAtom) : Prop where
  atom : ∀ a ∈ P, (∃ e ∈ S.set, e.lit.ord = a.lit.ord) ∧ ∀ ρ, LitMeans S a.lit ρ ↔ LinTrue ρ a.ts a.pred a.rhs
  cons : ∀ e ∈ S.set, ∃ a ∈ P, a.lit.ord = e.lit.ord

theorem built_spec {la : LA Nat} {P : List QAtom} (h : Built hv hc la P) :
    LA.Reach hv hc op True la .changed ∧ la.trail.levels = [[]] ∧ Stored la.store P := by
  induction h with
  | init =>
    refine ⟨.init, rfl, ⟨by simp, ?_⟩⟩
    intro e he; cases he
  | @resize la P h ty n hn ih =>
    obtain ⟨h1, h2, h3⟩ := ih
    obtain ⟨w, hg⟩ := h1.good
    refine ⟨.resize h1 ty n hn, ?_, ?_⟩
    · have := (grow_resize hg.keep.base.tinv hn).2.2.2.1
      cases ty <;> exact this.trans h2
    · cases ty with
      | rational => exact h3
      | boolean =>
        have hl : la.store.cons.length = la.trail.bools.num := hg.keep.base.linv.len
        obtain ⟨r1, r2⟩ := LinStore.resize_spec hg.keep.base.inv (n := n) (by rw [hl]; exact hn)
        refine ⟨fun a ha => ⟨(h3.atom a ha).1, fun ρ => ?_⟩, h3.cons⟩
        obtain ⟨⟨e, he, ho⟩, hm⟩ := h3.atom a ha
        rw [← hm ρ]
        refine LinStore.litMeans_kept hg.keep.base.inv r2 ?_ ρ
        rw [← ho]
        exact (LinStore.litMeans_of_mem hg.keep.base.inv he ρ).2.2
  | @cons la P h ts p r hnd hne hdom ih =>
    obtain ⟨h1, h2, h3⟩ := ih
    obtain ⟨w, hg⟩ := h1.good
    have hlev : ∀ v, la.trail.level v = none := by
      intro v
      refine isEmpty_level hg.keep.base.tinv ?_ v
      simp [Trail.isEmpty, Trail.assigned, h2]
    have hun : ∀ q ∈ ts, la.level q.1 = none := fun q _ => hlev _
    have hR := LA.Reach.cons (s := .changed) h1 ts p r hnd hne hdom hun
    have hl : la.store.cons.length = la.models.bools.num := hg.keep.base.linv.len
    obtain ⟨c1, c2, c3, c4, c5, e, hM⟩ := Lra.constraint_spec hv hc (m := la.models) hg.keep.base.inv hl hnd p r
    obtain ⟨_, hcases⟩ := Lra.constraint_cases hv hc (m := la.models) hg.keep.base.inv hl hnd hne (by
      right; intro q hq
      show la.trail.rats.defined q.1 = false
      by_contra hcon
      obtain ⟨k, hk⟩ := (hg.keep.base.tinv.defined ⟨.rational, q.1⟩).mp (by simpa [Trail.isDefined] using hcon)
      rw [hlev] at hk; cases hk) p r
    have hst : (la.constraint hv hc ts p r).1.store = (Lra.constraint hv hc la.store la.models ts p r).1 := by
      unfold LA.constraint; simp only; split <;> rfl
    have hlit : (la.constraint hv hc ts p r).2 = (Lra.constraint hv hc la.store la.models ts p r).2.2 := by
      unfold LA.constraint; simp only; split <;> rfl
    refine ⟨hR, ?_, ?_⟩
    · unfold LA.constraint
      simp only
      split
      · rename_i hge
        exact ((grow_resize hg.keep.base.tinv (ty := .boolean) (by
          show la.trail.bools.num ≤ _; omega)).2.2.2.1).trans h2
      · exact h2
    · rw [hst, hlit]
      set q := Lra.constraint hv hc la.store la.models ts p r with hq
      refine ⟨?_, ?_⟩
      · intro a ha
        rcases List.mem_append.1 ha with ha | ha
        · obtain ⟨⟨e, he, ho⟩, hm⟩ := h3.atom a ha
          refine ⟨⟨e, c2.set e he, ho⟩, fun ρ => ?_⟩
          rw [← hm ρ]
          refine LinStore.litMeans_kept hg.keep.base.inv c2 ?_ ρ
          rw [← ho]
          exact (LinStore.litMeans_of_mem hg.keep.base.inv he ρ).2.2
        · simp only [List.mem_singleton] at ha
          subst ha
          refine ⟨⟨e, hM.mem, ?_⟩, fun ρ => ?_⟩
          · rcases hM.eq with h | h
            · rw [h]
            · rw [h]; simp [LinCons.neg]
          · obtain ⟨m1, m2, _⟩ := LinStore.litMeans_of_mem c1 hM.mem ρ
            have hm := hM.means ρ
            simp only
            by_cases hce : q.2.2 = e
            · rw [if_pos hce] at hm
              rw [hce, m1, hm]
            · rw [if_neg hce] at hm
              have := hM.eq.resolve_left hce
              rw [this]
              show LitMeans q.1 e.lit.neg ρ ↔ _
              rw [m2, hm, not_not]
      · intro d hd
        rcases hcases with ⟨_, h2, _⟩ | ⟨_, _, e', he1, he2, he3, _⟩
        · rw [h2] at hd
          obtain ⟨a, ha, ho⟩ := h3.cons d hd
          exact ⟨a, List.mem_append_left _ ha, ho⟩
        · rw [he2] at hd
          rcases List.mem_append.1 hd with hd | hd
          · obtain ⟨a, ha, ho⟩ := h3.cons d hd
            exact ⟨a, List.mem_append_left _ ha, ho⟩
          · simp only [List.mem_singleton] at hd
            subst hd
            refine ⟨_, List.mem_append_right _ (List.mem_singleton_self _), ?_⟩
            simp only
            rcases he3 with h | h
            · rw [h]
            · rw [h]; simp [LinCons.neg]

theorem core_start {Q : (Nat → ℚ) → Prop} {P : List QAtom} {c : QC O} (h : Start hv hc A P c) :
    CoreQ Q hv hc op c.q.la.store A false .changed c.q ∧ Stored c.q.la.store P := by
  obtain ⟨h1, h2, h3⟩ := built_spec (op := op) h.built
  obtain ⟨w, hg⟩ := h1.good
  have hi : c.q.s.t.Inv := by rw [h.trail]; exact hg.keep.base.tinv
  have hem : c.q.s.t.isEmpty = true := by
    rw [h.trail]; simp [Trail.isEmpty, Trail.assigned, h2]
  have hlev := isEmpty_level hi hem
  have hre : ∀ v, c.q.s.t.reason v = none := by
    intro v
    rcases hr : c.q.s.t.reason v with _ | r
    · rfl
    · obtain ⟨k, hk⟩ := reason_level hi hr
      rw [hlev] at hk; cases hk
  refine ⟨⟨h.trail.symm, h1, Kept.refl _, fun F _ _ => ?_⟩, h3⟩
  refine ⟨⟨hi, h.db, ?_, fun _ => hem⟩, ?_, reasonsOk_of_noReason hre, ?_, ?_⟩
  · rw [hem]; simp
  · intro c' hc' σ _ hA
    rw [h.cls] at hc'; exact hA c' hc'
  · intro v r hv; rw [hre] at hv; cases hv
  · intro l _ h0; rw [hlev] at h0; cases h0

theorem core_reach {P : List QAtom} {c0 c : QC O} (h : Start hv hc A P c0)
    (hP : ∀ c, Reach hv hc op W c0 c → PicksFree hv hc op W c) (hr : Reach hv hc op W c0 c) :
    ∃ b st, st ≠ .conflict ∧ Core hv hc op c0.q.la.store A b st c.q := by
  induction hr with
  | refl => exact ⟨false, .changed, by simp, (core_start h).1⟩
  | step hr hi ih =>
    obtain ⟨b, st, hs, hb⟩ := ih
    exact (core_iter hb hs (hP _ hr) hi).2.2 _ rfl

/-- A model gives the constraints their truth values. -/
theorem stored_model {S : LinStore} {P : List QAtom} (hI : S.Inv) (h : Stored S P) {σ : Assignment} {ρ : Nat → ℚ}
    (hm : ∀ a ∈ P, (litTrue σ a.lit ↔ LinTrue ρ a.ts a.pred a.rhs)) (e : LinCons) (he : e ∈ S.set) :
    litTrue σ e.lit ↔ LinTrue ρ (S.terms e) e.pred e.rhs := by
  obtain ⟨a, ha, ho⟩ := h.cons e he
  obtain ⟨m1, m2, _⟩ := LinStore.litMeans_of_mem hI he ρ
  have h1 := hm a ha
  rw [← (h.atom a ha).2 ρ] at h1
  rcases Lit.eq_or_eq_neg_of_ord ho with e1 | e1
  · rw [e1] at h1; rw [← m1]; exact h1
  · rw [e1, litTrue_neg, m2] at h1
    exact not_iff_not.1 h1

/-- Constraints derived later can be given their truth values as well. -/
theorem theory_extend {S F : LinStore} (hS : S.Inv) (hF : F.Inv) (hK : Kept S F) (hne : ∀ e ∈ F.set, F.terms e ≠ [])
    {σ : Assignment} {ρ : Nat → ℚ} (hm : ∀ e ∈ S.set, litTrue σ e.lit ↔ LinTrue ρ (S.terms e) e.pred e.rhs)
    {Q : (Nat → ℚ) → Prop} (hQ : Q ρ) : ∃ σ', TheoryQ Q F σ' ∧ ∀ n < S.cons.length, σ' n = σ n := by
  classical
  refine ⟨fun n => if ∃ e ∈ F.set, e.lit.ord = n then
      Decidable.decide (LinTrue ρ (F.terms (F.get n)) (F.get n).pred (F.get n).rhs) else σ n, ⟨ρ, hQ, ?_⟩, ?_⟩
  · intro e he
    obtain ⟨k, hk, _⟩ := hF.idx e he
    have hg := LinStore.get_of_mem hF he
    have hn : e.lit.isNeg = false := by rw [hk]; exact Lit.isNeg_pos k
    unfold litTrue
    rw [hn]
    simp only [Bool.false_eq_true, if_false]
    rw [if_pos ⟨e, he, rfl⟩, hg]
    simp
  · intro n hn
    simp only
    split
    · rename_i hex
      obtain ⟨e, he, ho⟩ := hex
      obtain ⟨k, hk, hk2⟩ := hF.idx e he
      have hkn : k = n := by rw [← ho, hk]; simp
      subst hkn
      have hg := LinStore.get_of_mem hF he
      rw [ho] at hg
      have hd : S.cons[k]? = some S.cons[k] := List.getElem?_eq_getElem hn
      have h2 := hK.cons _ _ hd
      rw [hk2] at h2
      simp only [Option.some.injEq] at h2
      have heS : e ∈ S.set := by
        rcases hS.dflt k _ hd with ⟨h3, _⟩ | h3
        · rw [h2]; exact h3
        · exfalso
          apply hne e he
          rw [h2, h3]
          simp [LinStore.terms, LinCons.empty, LinStore.varsOf, LinStore.slice]
      have := hm e heS
      rw [hg]
      rw [← LinStore.linTrue_perm (hK.terms e heS)] at this
      rw [hk] at this
      simp only [litTrue, Lit.isNeg_pos, Bool.false_eq_true, if_false, Lit.ord_pos] at this
      rw [hk] at *
      by_cases hx : LinTrue ρ (F.terms e) e.pred e.rhs
      · simp [hx, this.mpr hx]
      · simp only [hx, decide_false]
        have : ¬ σ k = true := fun h => hx (this.mp h)
        cases hσ : σ k <;> simp_all
    · rfl

theorem unsat_model {P : List QAtom} {c0 : QC O} (h : Start hv hc A P c0)
    (hP : ∀ c, Reach hv hc op W c0 c → PicksFree hv hc op W c) (hr : Returns hv hc op W c0 .unsat) :
    ¬ ∃ σ ρ, QfModel A P σ ρ := by
  obtain ⟨c, h1, h2⟩ := hr
  obtain ⟨b, st, hs, hC⟩ := core_reach h hP h1
  obtain ⟨q, st', hq, hU⟩ := (core_iter hC hs (hP _ h1) h2).1 rfl
  obtain ⟨c1, c2⟩ := core_start (Q := fun _ => True) (op := op) h
  obtain ⟨w, hg0⟩ := c1.reach.good
  obtain ⟨w', hg⟩ := hq.reach.good
  rintro ⟨σ, ρ, hA, hm⟩
  have hS := hg0.keep.base.inv
  obtain ⟨σ', g1, g2⟩ := theory_extend hS hg.keep.base.inv hq.kept hg.keep.base.ne (stored_model hS c2 hm) (Q := fun _ => True) trivial
  apply hU
  refine ⟨σ', g1, ?_⟩
  intro cl hcl
  obtain ⟨l, hl, ht⟩ := hA cl hcl
  refine ⟨l, hl, ?_⟩
  have hrange : l.ord < c0.q.la.store.cons.length := by
    have hlen : c0.q.la.store.cons.length = c0.q.la.trail.bools.num := hg0.keep.base.linv.len
    rw [hlen, ← h.trail]
    rw [← h.cls] at hcl
    obtain ⟨r, hr, e⟩ := mem_clause hcl
    exact h.db.range r hr l (by rw [e]; exact hl)
  unfold litTrue at ht ⊢
  rw [g2 _ hrange]; exact ht

end Qf
end Yaga
