/-
Creating the derived constraint of a conflict.
-/
import Verif.Proofs.LraReach
import Verif.Proofs.Eliminate
import Verif.Proofs.Std
import Verif.Spec.Lra

set_option linter.unusedVariables false
set_option linter.unusedSimpArgs false

namespace Yaga
open Spec
open LinStore (delta WfTerms Inv Kept Made)

theorem IsCons.litMeans {s : LinStore} (hI : Inv s) {c : LinCons} (h : IsCons s c) (σ : Nat → ℚ) :
    (LitMeans s c.lit σ ↔ ConsTrue s c σ) ∧ (LitMeans s c.lit.neg σ ↔ ¬ ConsTrue s c σ) := by
  obtain ⟨e, he, hce⟩ := h
  obtain ⟨h1, h2, _⟩ := LinStore.litMeans_of_mem hI he σ
  obtain ⟨k, hk, _⟩ := hI.idx e he
  have hn : e.lit.isNeg = false := by rw [hk]; exact Lit.isNeg_pos k
  rcases hce with rfl | rfl
  · have hC : ConsTrue s c σ ↔ LinTrue σ (s.terms c) c.pred c.rhs := by
      unfold ConsTrue; rw [hn]; simp
    rw [h1, h2, hC]
    exact ⟨Iff.rfl, Iff.rfl⟩
  · have hC : ConsTrue s e.neg σ ↔ ¬ LinTrue σ (s.terms e) e.pred e.rhs := by
      unfold ConsTrue
      have h3 : e.neg.lit.isNeg = true := by
        show e.lit.neg.isNeg = true
        rw [Lit.isNeg_neg, hn]; rfl
      rw [h3]; simp
      rfl
    have e1 : e.neg.lit = e.lit.neg := rfl
    have e2 : e.neg.lit.neg = e.lit := Lit.neg_neg _
    rw [e1, Lit.neg_neg, h1, h2, hC, not_not]
    exact ⟨Iff.rfl, Iff.rfl⟩

theorem consTrue_neg (s : LinStore) (c : LinCons) (σ : Nat → ℚ) :
    ConsTrue s c.neg σ ↔ ¬ ConsTrue s c σ := by
  have ht : s.terms c.neg = s.terms c := rfl
  unfold ConsTrue
  rw [ht]
  show (c.lit.neg.isNeg = false ∧ LinTrue σ (s.terms c) c.pred c.rhs) ∨
    (c.lit.neg.isNeg = true ∧ ¬ LinTrue σ (s.terms c) c.pred c.rhs) ↔ _
  rw [Lit.isNeg_neg]
  cases c.lit.isNeg <;> simp

theorem consTrue_kept {s s' : LinStore} (hK : Kept s s') {c : LinCons} (h : IsCons s c) (σ : Nat → ℚ) :
    ConsTrue s' c σ ↔ ConsTrue s c σ := by
  have := (h.kept hK).2
  unfold ConsTrue
  rw [LinStore.linTrue_perm this]

/-- Constraints with the same ordinal. -/
theorem IsCons.same_ord {s : LinStore} (hI : Inv s) {c d : LinCons} (hc : IsCons s c) (hd : IsCons s d)
    (h : c.lit.ord = d.lit.ord) : c = d ∨ c = d.neg := by
  obtain ⟨e, he, hce⟩ := hc
  obtain ⟨f, hf, hdf⟩ := hd
  have h1 : c.lit.ord = e.lit.ord := by
    rcases hce with rfl | rfl
    · rfl
    · exact Lit.ord_neg _
  have h2 : d.lit.ord = f.lit.ord := by
    rcases hdf with rfl | rfl
    · rfl
    · exact Lit.ord_neg _
  have hef : e = f := by
    rw [← LinStore.get_of_mem hI he, ← LinStore.get_of_mem hI hf, ← h1, ← h2, h]
  subst hef
  have hnn : e.neg.neg = e := by
    unfold LinCons.neg; cases e; simp
  rcases hce with rfl | rfl <;> rcases hdf with rfl | rfl
  · exact Or.inl rfl
  · exact Or.inr hnn.symm
  · exact Or.inr rfl
  · exact Or.inl rfl

/-- A constraint that is false for all valuations that agree with the model has only assigned
variables. -/
theorem IsCons.assigned_of_false {s : LinStore} (hI : Inv s) {c : LinCons} (hc : IsCons s c)
    {m : LModels} (h : ∀ σ, Agrees m σ → ¬ ConsTrue s c σ) :
    ∀ p ∈ s.terms c, m.rats.defined p.1 = true := by
  intro p hp
  by_contra hu
  rw [Bool.not_eq_true] at hu
  have w := hc.terms_wf hI
  -- any value of the sum can be reached
  have key : ∀ t : ℚ, ∃ σ, Agrees m σ ∧ lsum σ (s.terms c) = t := by
    intro t
    let base := m.rats.value
    let δ : ℚ := (t - lsum base (s.terms c)) / p.2
    refine ⟨fun y => base y + δ * delta p.1 y, ?_, ?_⟩
    · intro y hy
      have : delta p.1 y = 0 := by
        unfold delta
        rw [if_neg]
        rintro rfl
        rw [hy] at hu; cases hu
      simp only [this, mul_zero, add_zero, base]
    · rw [LinStore.lsum_lin, LinStore.delta_mem w.nodup hp]
      simp only [δ]
      rw [div_mul_cancel₀ _ (w.nz p hp)]
      ring
  obtain ⟨a, b, ha, hb⟩ := LinStore.rel_not_const c.pred c.rhs
  obtain ⟨σ, s1, s2⟩ := key a
  obtain ⟨τ, t1, t2⟩ := key b
  cases hn : c.lit.isNeg with
  | false =>
    apply h σ s1
    left
    refine ⟨hn, ?_⟩
    unfold LinTrue; rw [s2]; exact ha
  | true =>
    apply h τ t1
    right
    refine ⟨hn, ?_⟩
    unfold LinTrue; rw [t2]; exact hb

namespace LinStore

theorem make_set (hv : Nat → Nat) (hc : ℚ → Nat) {s : LinStore} (hI : Inv s)
    {ts : List (Nat × ℚ)} (hts : (ts.map (·.1)).Nodup) (pred : Pred) (rhs : ℚ) :
    ∀ d ∈ (make hv hc s ts pred rhs).1.set, d ∈ s.set ∨ s.cons.length ≤ d.lit.ord := by
  have key : ∀ nt, Appended s (append s ts pred rhs).1 (append s ts pred rhs).2.1 nt →
      ∀ d ∈ (make hv hc s ts pred rhs).1.set, d ∈ s.set ∨ s.cons.length ≤ d.lit.ord := by
    intro nt ha d hd
    unfold make dedup at hd
    simp only at hd
    split at hd
    · simp only [List.mem_append, List.mem_singleton] at hd
      rcases hd with hd | hd
      · rw [ha.set] at hd; exact Or.inl hd
      · right; rw [hd, ha.lit, Lit.pos_ord]
    · rw [ha.set] at hd; exact Or.inl hd
  cases hk : findNorm ts with
  | some k => exact key _ (append_some hI.len hts pred rhs hk).1
  | none => exact key _ (append_none pred rhs hk).1

end LinStore

namespace Lra

theorem constraint_set (hv : Nat → Nat) (hc : ℚ → Nat) {s : LinStore} {m : LModels} (hI : Inv s)
    (hl : s.cons.length = m.bools.num)
    {ts : List (Nat × ℚ)} (hts : (ts.map (·.1)).Nodup) (pred : Pred) (rhs : ℚ) :
    ∀ d ∈ (constraint hv hc s m ts pred rhs).1.set, d ∈ s.set ∨ m.bools.num ≤ d.lit.ord := by
  have h := LinStore.make_set hv hc hI hts pred rhs
  obtain ⟨hI1, hK1, e, hM⟩ := LinStore.make_spec hv hc hI hts pred rhs
  obtain ⟨hlen, _⟩ := LinStore.make_len hv hc hI hts pred rhs
  intro d hd
  unfold constraint at hd
  simp only at hd
  rw [hl] at h
  split at hd
  · rename_i hge
    have hl' : (s.make hv hc ts pred rhs).2.lit.ord = s.cons.length ∧
      (s.make hv hc ts pred rhs).1.cons.length = s.cons.length + 1 := by
      rcases hlen with h' | h'
      · exact h'
      · omega
    generalize s.make hv hc ts pred rhs = R at *
    obtain ⟨hI2, hK2⟩ := LinStore.resize_spec hI1 (n := R.2.lit.ord + 1) (by omega)
    have he2 : e ∈ (R.1.resize (R.2.lit.ord + 1)).set := hM.mem
    obtain ⟨_, _, _, a4, _⟩ := watchLoop_spec m.rats hM.eq R.2.size 0 0
      (R.1.resize (R.2.lit.ord + 1)) hI2 he2 (by omega) (by omega)
    rw [a4] at hd
    exact h d hd
  · exact h d hd

/-- What `finish` leaves unchanged. -/
structure Same (st st' : St) : Prop where
  kept : Kept st.store st'.store
  terms : ∀ c, IsCons st.store c → st'.store.terms c = st.store.terms c
  rats : st'.models.rats = st.models.rats
  bools : ∀ o, st.models.bools.defined o = true →
    st'.models.bools.defined o = true ∧ st'.models.bools.value o = st.models.bools.value o ∧
      st'.models.bools.ts o = st.models.bools.ts o
  bnd : st'.bnd = st.bnd

theorem Same.refl (st : St) : Same st st :=
  ⟨Kept.refl _, fun _ _ => rfl, rfl, fun _ h => ⟨h, rfl, rfl⟩, rfl⟩

theorem Same.trans {a b c : St} (h1 : Same a b) (h2 : Same b c) : Same a c :=
  ⟨h1.kept.trans h2.kept, fun d hd => by rw [h2.terms d (hd.kept h1.kept).1, h1.terms d hd],
    by rw [h2.rats, h1.rats],
    fun o ho => by
      obtain ⟨a1, a2, a3⟩ := h1.bools o ho
      obtain ⟨b1, b2, b3⟩ := h2.bools o a1
      exact ⟨b1, by rw [b2, a2], by rw [b3, a3]⟩,
    by rw [h2.bnd, h1.bnd]⟩

theorem Same.evalLit {st st' : St} (h : Same st st') {l : Lit} {v : Bool}
    (hv : evalLit st.models.bools l = some v) : evalLit st'.models.bools l = some v := by
  unfold Yaga.evalLit at hv ⊢
  by_cases hd : st.models.bools.defined l.ord = true
  · rw [if_pos hd] at hv
    obtain ⟨a1, a2, _⟩ := h.bools _ hd
    rw [if_pos a1, a2]; exact hv
  · rw [if_neg hd] at hv; cases hv

theorem evalLit_neg (m : PModel Bool) (l : Lit) : evalLit m l.neg = (evalLit m l).map (!·) := by
  unfold evalLit
  rw [Lit.ord_neg]
  split
  · rw [Lit.isNeg_neg]
    simp
    cases m.value l.ord <;> cases l.isNeg <;> rfl
  · rfl

/-- The state after `finish`. -/
def finishSt (hv : Nat → Nat) (hc : ℚ → Nat) (lvl : Nat → Nat) (st : St) (f : Fm) : St :=
  ⟨(finish hv hc lvl st.store st.models f).1, (finish hv hc lvl st.store st.models f).2.1, st.bnd⟩

theorem finish_spec (hv : Nat → Nat) (hc : ℚ → Nat) (lvl : Nat → Nat) {st : St} (h : LInv st) {f : Fm}
    (hw : WfTerms f.poly.terms) (hfalse : ∀ σ, Agrees st.models σ → ¬ FmTrue σ f) :
    Steps hv hc st (finishSt hv hc lvl st f) ∧ Same st (finishSt hv hc lvl st f) ∧
    (ValuesConsistent st.store st.models →
      ValuesConsistent (finishSt hv hc lvl st f).store (finishSt hv hc lvl st f).models) ∧
    (((finish hv hc lvl st.store st.models f).2.2 = none ∧ ∀ σ, ¬ FmTrue σ f) ∨
      ∃ c, (finish hv hc lvl st.store st.models f).2.2 = some c ∧
        IsCons (finishSt hv hc lvl st f).store c ∧
        (∀ σ, LitMeans (finishSt hv hc lvl st f).store c.lit σ ↔ FmTrue σ f) ∧
        (ValuesConsistent st.store st.models →
          evalLit (finishSt hv hc lvl st f).models.bools c.lit = some false)) := by
  unfold finishSt finish
  by_cases hemp : f.poly.terms.isEmpty = true
  · rw [if_pos hemp]
    refine ⟨Steps.refl _, Same.refl _, fun h => h, Or.inl ⟨rfl, ?_⟩⟩
    intro σ hσ
    apply hfalse st.models.rats.value (fun _ _ => rfl)
    have e : f.poly.terms = [] := by simpa using hemp
    unfold FmTrue pval at hσ ⊢
    rw [e] at hσ ⊢
    simpa using hσ
  · rw [if_neg hemp]
    simp only
    have hperm := sortBy_perm (fun a b : Nat × ℚ => decide (lvl a.1 > lvl b.1)) f.poly.terms
    have hts : ((sortBy (fun a b : Nat × ℚ => decide (lvl a.1 > lvl b.1)) f.poly.terms).map
        (·.1)).Nodup := (hperm.map _).nodup_iff.mpr hw.nodup
    obtain ⟨hI', hK, hterms, hlen, ⟨hgr, hgb⟩, e, hM⟩ :=
      constraint_spec hv hc h.inv h.len hts f.pred (-f.poly.const)
    have hset := constraint_set hv hc h.inv h.len hts f.pred (-f.poly.const)
    have hstep : Steps hv hc st ⟨(constraint hv hc st.store st.models
        (sortBy (fun a b : Nat × ℚ => decide (lvl a.1 > lvl b.1)) f.poly.terms) f.pred
        (-f.poly.const)).1, (constraint hv hc st.store st.models
        (sortBy (fun a b : Nat × ℚ => decide (lvl a.1 > lvl b.1)) f.poly.terms) f.pred
        (-f.poly.const)).2.1, st.bnd⟩ :=
      Steps.step (.constraint _ f.pred (-f.poly.const)) (Steps.refl st) hts
    have hmeans : ∀ σ, LinTrue σ (sortBy (fun a b : Nat × ℚ => decide (lvl a.1 > lvl b.1))
        f.poly.terms) f.pred (-f.poly.const) ↔ FmTrue σ f := by
      intro σ
      unfold LinTrue FmTrue pval
      rw [lsum_perm hperm]
      cases f.pred <;> simp only [Rel] <;> constructor <;> intro h <;> linarith
    generalize constraint hv hc st.store st.models
      (sortBy (fun a b : Nat × ℚ => decide (lvl a.1 > lvl b.1)) f.poly.terms) f.pred
      (-f.poly.const) = r at *
    have hcons : IsCons r.1 r.2.2 := ⟨e, hM.mem, hM.eq⟩
    have hlm : ∀ σ, LitMeans r.1 r.2.2.lit σ ↔ FmTrue σ f := by
      intro σ
      rw [(hM.litMeans hI' σ).1, hmeans]
    have hord : r.2.2.lit.ord < r.2.1.bools.num := by
      rw [← hlen]; exact (hM.litMeans hI' (fun _ => 0)).2
    have hf' : ∀ σ, Agrees st.models σ → ¬ ConsTrue r.1 r.2.2 σ := by
      intro σ hσ
      rw [← (hcons.litMeans hI' σ).1, hlm]
      exact hfalse σ hσ
    have hdefd : ∀ p ∈ r.1.terms r.2.2, st.models.rats.defined p.1 = true :=
      hcons.assigned_of_false hI' hf'
    have hold : ∀ o, r.2.1.bools.defined o = true →
        st.models.bools.defined o = true ∧ r.2.1.bools.value o = st.models.bools.value o := by
      intro o ho
      rcases hgb with e | ⟨n, hn, e⟩
      · rw [e] at ho ⊢; exact ⟨ho, rfl⟩
      · rw [e] at ho ⊢
        simp only [PModel.resize] at ho ⊢
        split at ho
        · rename_i hcond; rw [if_pos hcond]; exact ⟨ho, rfl⟩
        · cases ho
    have hnew : ∀ o, st.models.bools.defined o = true →
        r.2.1.bools.defined o = true ∧ r.2.1.bools.value o = st.models.bools.value o ∧
          r.2.1.bools.ts o = st.models.bools.ts o := by
      intro o ho
      rcases hgb with e | ⟨n, hn, e⟩
      · rw [e]; exact ⟨ho, rfl, rfl⟩
      · have h1 := h.dom o ho
        have : o < st.models.bools.num ∧ o < n := ⟨h1, by omega⟩
        rw [e]
        simp only [PModel.resize]
        rw [if_pos this, if_pos this, if_pos this]; exact ⟨ho, rfl, rfl⟩
    have hsameT : ∀ c, IsCons st.store c → r.1.terms c = st.store.terms c := by
      rintro c ⟨d, hd, rfl | rfl⟩
      · exact hterms _ hd
      · exact hterms d hd
    have hsame : Same st ⟨r.1, r.2.1, st.bnd⟩ := ⟨hK, hsameT, hgr, hnew, rfl⟩
    -- an assigned constraint of the new repository is an old one
    have hcold : ∀ c, IsCons r.1 c → r.2.1.bools.defined c.lit.ord = true → IsCons st.store c := by
      rintro c ⟨d, hd, hcd⟩ hdef
      have ho : c.lit.ord = d.lit.ord := by
        rcases hcd with rfl | rfl
        · rfl
        · exact Lit.ord_neg _
      rcases hset d hd with h1 | h1
      · exact ⟨d, h1, hcd⟩
      · have := h.dom _ (hold _ hdef).1
        omega
    have hcs : ValuesConsistent st.store st.models → ValuesConsistent r.1 r.2.1 := by
      intro hC c hc hall v hv
      have hdef : r.2.1.bools.defined c.lit.ord = true := by
        unfold evalLit at hv
        by_contra hu
        rw [if_neg hu] at hv; cases hv
      have hco := hcold c hc hdef
      have hev : evalLit st.models.bools c.lit = some v := by
        unfold evalLit at hv ⊢
        obtain ⟨a1, a2⟩ := hold _ hdef
        rw [if_pos hdef] at hv
        rw [if_pos a1, ← a2]; exact hv
      have := hC c hco (by rw [← hsameT c hco, ← hgr]; exact hall) v hev
      rw [this, hgr, consTrue_kept hK hco]
    by_cases hd : r.2.1.bools.defined r.2.2.lit.ord = true
    · rw [if_pos hd]
      refine ⟨hstep, hsame, hcs, Or.inr ⟨r.2.2, rfl, hcons, hlm, fun hC => ?_⟩⟩
      show evalLit r.2.1.bools r.2.2.lit = some false
      have hC' := hcs hC r.2.2 hcons (by rw [hgr]; exact hdefd)
      cases hv : evalLit r.2.1.bools r.2.2.lit with
      | none =>
        unfold evalLit at hv
        rw [if_pos hd] at hv; cases hv
      | some v =>
        cases v with
        | false => rfl
        | true =>
          exact absurd ((hC' true hv).mp rfl) (by rw [hgr]; exact hf' _ (fun _ _ => rfl))
    · rw [if_neg hd]
      rw [Bool.not_eq_true] at hd
      have hstep2 : Steps hv hc st ⟨r.1, propagate r.1 r.2.1 r.2.2, st.bnd⟩ :=
        Steps.step (.setBool r.2.2.lit.ord (xor r.2.2.lit.isNeg (r.1.eval r.2.1.rats r.2.2))) hstep
          ⟨hord, hd⟩
      have hval : evalLit (propagate r.1 r.2.1 r.2.2).bools r.2.2.lit =
          some (r.1.eval r.2.1.rats r.2.2) := by
        unfold propagate evalLit
        simp only [PModel.setValue, Function.update_self, if_true]
        cases r.2.2.lit.isNeg <;> cases r.1.eval r.2.1.rats r.2.2 <;> rfl
      have hother : ∀ o, o ≠ r.2.2.lit.ord →
          (propagate r.1 r.2.1 r.2.2).bools.defined o = r.2.1.bools.defined o ∧
          (propagate r.1 r.2.1 r.2.2).bools.value o = r.2.1.bools.value o ∧
          (propagate r.1 r.2.1 r.2.2).bools.ts o = r.2.1.bools.ts o := by
        intro o ho
        unfold propagate
        simp [PModel.setValue, ho]
      have hevalf : r.1.eval r.2.1.rats r.2.2 = false := by
        by_contra ht
        rw [Bool.not_eq_false, LinStore.eval_iff] at ht
        exact hf' r.2.1.rats.value (by rw [hgr]; exact fun _ _ => rfl) ht
      have hsame2 : Same st ⟨r.1, propagate r.1 r.2.1 r.2.2, st.bnd⟩ := by
        refine ⟨hK, hsameT, hgr, ?_, rfl⟩
        intro o ho
        obtain ⟨a1, a2, a3⟩ := hnew o ho
        have : o ≠ r.2.2.lit.ord := by
          rintro rfl
          rw [hd] at a1; cases a1
        obtain ⟨b1, b2, b3⟩ := hother o this
        exact ⟨by rw [b1]; exact a1, by rw [b2]; exact a2, by rw [b3]; exact a3⟩
      refine ⟨hstep2, hsame2, fun hC => ?_, Or.inr ⟨r.2.2, rfl, hcons, hlm, fun hC => ?_⟩⟩
      · intro c hc' hall v hv
        by_cases ho : c.lit.ord = r.2.2.lit.ord
        · rcases hc'.same_ord hI' hcons ho with e | e
          · rw [e] at hv ⊢
            rw [hval] at hv
            simp only [Option.some.injEq] at hv
            rw [← hv, LinStore.eval_iff]
            exact Iff.rfl
          · rw [e] at hv ⊢
            have e1 : r.2.2.neg.lit = r.2.2.lit.neg := rfl
            rw [e1, evalLit_neg, hval] at hv
            simp only [Option.map_some, Option.some.injEq] at hv
            rw [consTrue_neg, ← hv, hevalf]
            simp only [Bool.not_false, true_iff]
            exact hf' _ (by show Agrees st.models r.2.1.rats.value; rw [hgr]; exact fun _ _ => rfl)
        · refine hcs hC c hc' hall v ?_
          obtain ⟨b1, b2, _⟩ := hother _ ho
          unfold evalLit at hv ⊢
          rw [b1, b2] at hv; exact hv
      · show evalLit (propagate r.1 r.2.1 r.2.2).bools r.2.2.lit = some false
        rw [hval, hevalf]

end Lra
end Yaga
