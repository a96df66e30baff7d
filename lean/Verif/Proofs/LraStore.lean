/-
The effect of the arithmetic theory's `constraint` on the repository and the models.
-/
import Verif.Proofs.Eliminate

set_option linter.unusedVariables false

namespace Yaga
open Spec
open LinStore (delta WfTerms Inv Kept Made)

namespace LinStore

theorem Made.kept {s s' : LinStore} (hK : Kept s s') {c ts pred rhs e} (h : Made s c ts pred rhs e) :
    Made s' c ts pred rhs e := by
  refine ⟨hK.set _ h.mem, h.eq, fun σ => ?_, fun h0 h1 => ?_⟩
  · rw [linTrue_perm (hK.terms _ h.mem), h.means σ]
  · have := hK.terms _ h.mem
    rw [h1] at this
    exact h.nonempty h0 this.symm.eq_nil

theorem dedup_len (hv : Nat → Nat) (hc : ℚ → Nat) {s s1 : LinStore} {c : LinCons} {nt}
    (hI : Inv s) (h : Appended s s1 c nt) (neg : Bool) :
    ((dedup hv hc s1 c neg).2.lit.ord = s.cons.length ∧
      (dedup hv hc s1 c neg).1.cons.length = s.cons.length + 1) ∨
    ((dedup hv hc s1 c neg).2.lit.ord < s.cons.length ∧
      (dedup hv hc s1 c neg).1.cons.length = s.cons.length) := by
  cases e : s1.set.find? (fun e => hash hv hc s1 c == hash hv hc s1 e && equal s1 c e) with
  | none =>
    have e5 : dedup hv hc s1 c neg = ({ s1 with set := s1.set ++ [c] }, if neg then c.neg else c) := by
      unfold dedup
      rw [e]
    rw [e5]
    left
    refine ⟨?_, by simp [h.cons]⟩
    have : (if neg then c.neg else c).lit.ord = c.lit.ord := by
      cases neg
      · rfl
      · exact Lit.neg_ord _
    show (if neg then c.neg else c).lit.ord = _
    rw [this, h.lit, Lit.pos_ord]
  | some d =>
    have e5 : dedup hv hc s1 c neg = (⟨s1.vars.take (s1.vars.length - c.size),
        s1.coefs.take (s1.coefs.length - c.size), s1.cons.dropLast, s1.set⟩,
        if neg then d.neg else d) := by
      unfold dedup
      rw [e]
    rw [e5]
    right
    have hd : d ∈ s.set := by rw [← h.set]; exact List.mem_of_find?_eq_some e
    refine ⟨?_, by simp [h.cons]⟩
    have : (if neg then d.neg else d).lit.ord = d.lit.ord := by
      cases neg
      · rfl
      · exact Lit.neg_ord _
    show (if neg then d.neg else d).lit.ord < _
    obtain ⟨k, h1, h2⟩ := hI.idx d hd
    rw [this, h1, Lit.pos_ord]
    exact (List.getElem?_eq_some_iff.mp h2).1

theorem make_len (hv : Nat → Nat) (hc : ℚ → Nat) {s : LinStore} (hI : Inv s)
    {ts : List (Nat × ℚ)} (hts : (ts.map (·.1)).Nodup) (pred : Pred) (rhs : ℚ) :
    (((make hv hc s ts pred rhs).2.lit.ord = s.cons.length ∧
      (make hv hc s ts pred rhs).1.cons.length = s.cons.length + 1) ∨
    ((make hv hc s ts pred rhs).2.lit.ord < s.cons.length ∧
      (make hv hc s ts pred rhs).1.cons.length = s.cons.length)) ∧
    ∀ d ∈ s.set, (make hv hc s ts pred rhs).1.terms d = s.terms d := by
  unfold make
  cases hk : findNorm ts with
  | some k =>
    obtain ⟨ha, hp, hr, hn⟩ := append_some hI.len hts pred rhs hk
    exact ⟨dedup_len hv hc hI ha _, fun d hd =>
      (dedup_spec hv hc hI ha _).2.2.1 d (hI.rng d hd).2⟩
  | none =>
    obtain ⟨ha, hp, hr, hn⟩ := append_none (s := s) pred rhs hk
    exact ⟨dedup_len hv hc hI ha _, fun d hd =>
      (dedup_spec hv hc hI ha _).2.2.1 d (hI.rng d hd).2⟩

theorem swap_other {s : LinStore} (hI : Inv s) {c d : LinCons} (hm : c ∈ s.set) (hd : d ∈ s.set)
    (hcd : c ≠ d) {i j : Nat} (hi : i < c.size) (hj : j < c.size) :
    (s.swapTerms c i j).terms d = s.terms d := by
  have hr := hI.rng c hm
  have hl := hI.len
  have hrd := hI.rng d hd
  have hdj := hI.disj c hm d hd hcd
  unfold LinCons.size at hi hj
  unfold terms varsOf coefsOf swapTerms
  simp only
  rw [slice_swapAt_outside (by omega) (by omega) (by omega) (by omega),
    slice_swapAt_outside (by omega) (by omega) (by omega) (by omega)]

theorem get_of_mem {s : LinStore} (hI : Inv s) {e : LinCons} (he : e ∈ s.set) :
    s.get e.lit.ord = e := by
  obtain ⟨k, h1, h2⟩ := hI.idx e he
  rw [h1, Lit.pos_ord]
  unfold get
  rw [h2]; rfl

end LinStore

namespace Lra
open LinStore

theorem watchLoop_spec (m : PModel ℚ) {c e : LinCons} (hce : c = e ∨ c = e.neg) (k : Nat) :
    ∀ (i out : Nat) (s : LinStore), Inv s → e ∈ s.set → i + k = c.size → out ≤ i →
      Inv (watchLoop m c k i out s) ∧ Kept s (watchLoop m c k i out s) ∧
      (watchLoop m c k i out s).cons = s.cons ∧ (watchLoop m c k i out s).set = s.set ∧
      ∀ d ∈ s.set, d ≠ e → (watchLoop m c k i out s).terms d = s.terms d := by
  induction k with
  | zero =>
    intro i out s hI he hk ho
    exact ⟨hI, Kept.refl _, rfl, rfl, fun _ _ _ => rfl⟩
  | succ k ih =>
    intro i out s hI he hk ho
    have hsz : c.size = e.size := by rcases hce with rfl | rfl <;> rfl
    have hst : ∀ a b, s.swapTerms c a b = s.swapTerms e a b := by
      intro a b; rcases hce with rfl | rfl <;> rfl
    unfold watchLoop
    by_cases h1 : out = (if c.size = 1 then 1 else 2)
    · rw [if_pos h1]; exact ⟨hI, Kept.refl _, rfl, rfl, fun _ _ _ => rfl⟩
    · rw [if_neg h1]
      by_cases h2 : m.defined ((s.varsOf c).getD i 0) = true
      · rw [if_pos h2]; exact ih (i + 1) out s hI he (by omega) (by omega)
      · rw [if_neg h2, hst]
        have hi : i < e.size := by omega
        have ho' : out < e.size := by omega
        have hsp := swap_spec (ord := e.lit.ord) hI (by rw [get_of_mem hI he]; exact hi)
          (by rw [get_of_mem hI he]; exact ho')
        rw [get_of_mem hI he] at hsp
        obtain ⟨a1, a2, a3, a4, a5⟩ := ih (i + 1) (out + 1) (s.swapTerms e i out) hsp.1 he
          (by omega) (by omega)
        refine ⟨a1, hsp.2.trans a2, a3, a4, fun d hd hde => ?_⟩
        rw [a5 d hd hde]
        exact swap_other hI he hd (Ne.symm hde) hi ho'

/-- The booleans change by at most new, undefined variables. -/
def Grown (m m' : LModels) : Prop :=
  m'.rats = m.rats ∧ (m'.bools = m.bools ∨ ∃ n, m.bools.num ≤ n ∧ m'.bools = m.bools.resize false n)

theorem constraint_spec (hv : Nat → Nat) (hc : ℚ → Nat) {s : LinStore} {m : LModels} (hI : Inv s)
    (hl : s.cons.length = m.bools.num) {ts : List (Nat × ℚ)} (hts : (ts.map (·.1)).Nodup)
    (pred : Pred) (rhs : ℚ) :
    let r := constraint hv hc s m ts pred rhs
    Inv r.1 ∧ Kept s r.1 ∧ (∀ d ∈ s.set, r.1.terms d = s.terms d) ∧
    r.1.cons.length = r.2.1.bools.num ∧ Grown m r.2.1 ∧
    ∃ e, Made r.1 r.2.2 ts pred rhs e := by
  obtain ⟨hI1, hK1, e, hM⟩ := make_spec hv hc hI hts pred rhs
  obtain ⟨hlen, hterms⟩ := make_len hv hc hI hts pred rhs
  intro r
  by_cases h : (s.make hv hc ts pred rhs).2.lit.ord ≥ m.bools.num
  · have hr : r = (watchLoop m.rats (s.make hv hc ts pred rhs).2 (s.make hv hc ts pred rhs).2.size 0 0
        ((s.make hv hc ts pred rhs).1.resize ((s.make hv hc ts pred rhs).2.lit.ord + 1)),
        { m with bools := m.bools.resize false ((s.make hv hc ts pred rhs).2.lit.ord + 1) },
        (s.make hv hc ts pred rhs).2) := by
      show constraint hv hc s m ts pred rhs = _
      unfold constraint
      simp only
      rw [if_pos h]
    have hl' : (s.make hv hc ts pred rhs).2.lit.ord = s.cons.length ∧
      (s.make hv hc ts pred rhs).1.cons.length = s.cons.length + 1 := by
      rcases hlen with h' | h'
      · exact h'
      · omega
    rw [hr]
    generalize hR : s.make hv hc ts pred rhs = R at *
    have hn : R.1.cons.length ≤ R.2.lit.ord + 1 := by omega
    obtain ⟨hI2, hK2⟩ := resize_spec hI1 hn
    have he2 : e ∈ (R.1.resize (R.2.lit.ord + 1)).set := hM.mem
    obtain ⟨a1, a2, a3, a4, a5⟩ := watchLoop_spec m.rats hM.eq R.2.size 0 0
      (R.1.resize (R.2.lit.ord + 1)) hI2 he2 (by omega) (by omega)
    have hne : ∀ d ∈ s.set, d ≠ e := by
      rintro d hd rfl
      obtain ⟨k, h1, h2⟩ := hI.idx d hd
      have hk := (List.getElem?_eq_some_iff.mp h2).1
      have : R.2.lit.ord = d.lit.ord := by
        rcases hM.eq with h | h
        · rw [h]
        · rw [h]; exact Lit.neg_ord _
      rw [h1, Lit.pos_ord] at this
      omega
    refine ⟨a1, hK1.trans (hK2.trans a2), ?_, ?_, ⟨rfl, Or.inr ⟨_, by omega, rfl⟩⟩, e,
      (hM.kept hK2).kept a2⟩
    · intro d hd
      rw [a5 d (hK1.set d hd) (hne d hd)]
      exact hterms d hd
    · rw [a3]
      show (R.1.cons.take _ ++ List.replicate _ _).length = R.2.lit.ord + 1
      simp; omega
  · have hr : r = ((s.make hv hc ts pred rhs).1, m, (s.make hv hc ts pred rhs).2) := by
      show constraint hv hc s m ts pred rhs = _
      unfold constraint
      simp only
      rw [if_neg h]
    rw [hr]
    refine ⟨hI1, hK1, hterms, ?_, ⟨rfl, Or.inl rfl⟩, e, hM⟩
    show (s.make hv hc ts pred rhs).1.cons.length = m.bools.num
    rcases hlen with h' | h'
    · omega
    · omega

end Lra
end Yaga
