/-
The consistency checks of the arithmetic plugin succeed.
-/
import Verif.Model.LraChecks
import Verif.Proofs.LraGood
import Mathlib.Order.Interval.Set.Infinite
import Mathlib.Algebra.Order.Ring.Rat

set_option linter.unusedVariables false

namespace Yaga
open Spec
open LinStore (delta WfTerms Inv Kept Made)

/-- Between two numbers there is one that is not in a list. -/
theorem exists_between_notMem {a b : ℚ} (h : a < b) (l : List ℚ) : ∃ q, a < q ∧ q < b ∧ q ∉ l := by
  obtain ⟨q, h1, h2⟩ := (Set.Ioo_infinite h).exists_notMem_finset l.toFinset
  exact ⟨q, h1.1, h1.2, fun h => h2 (by simpa using h)⟩

namespace VBounds
variable {s : LinStore} {m : LModels} {v : VBounds}

/-- If the allowed values are at most `u`, there is an upper bound that is at most `u`. -/
theorem upper_tight {q0 u : ℚ} (h0 : Allows s m v q0) (h : ∀ q, Allows s m v q → q ≤ u) :
    ∃ b, (v.upper s m).2 = some b ∧ b.value ≤ u := by
  by_contra hn
  have hq0 := h q0 h0
  have key : ∀ t, u < t → (∀ b, (v.upper s m).2 = some b → t ≤ b.value) → False := by
    intro t ht hb
    obtain ⟨q, h1, h2, h3⟩ := exists_between_notMem ht (v.dis.map (·.value))
    have := h q ⟨fun b hb' => Or.inl (lt_of_le_of_lt (allows_ge h0 hb') (lt_of_le_of_lt hq0 h1)),
      fun b hb' => Or.inl (lt_of_lt_of_le h2 (hb b hb')),
      fun d hd _ e => h3 (List.mem_map.mpr ⟨d, hd, e⟩)⟩
    exact absurd h1 (not_lt.mpr this)
  cases hb : (v.upper s m).2 with
  | none => exact key (u + 1) (by linarith) (by rw [hb]; rintro b ⟨⟩)
  | some b =>
    have hub : u < b.value := by
      by_contra hle
      exact hn ⟨b, hb, not_lt.mp hle⟩
    exact key b.value hub (by rw [hb]; rintro b' ⟨⟩; exact le_refl _)

/-- If the allowed values are at least `l`, there is a lower bound that is at least `l`. -/
theorem lower_tight {q0 l : ℚ} (h0 : Allows s m v q0) (h : ∀ q, Allows s m v q → l ≤ q) :
    ∃ b, (v.lower s m).2 = some b ∧ l ≤ b.value := by
  by_contra hn
  have hq0 := h q0 h0
  have key : ∀ t, t < l → (∀ b, (v.lower s m).2 = some b → b.value ≤ t) → False := by
    intro t ht hb
    obtain ⟨q, h1, h2, h3⟩ := exists_between_notMem ht (v.dis.map (·.value))
    have := h q ⟨fun b hb' => Or.inl (lt_of_le_of_lt (hb b hb') h1),
      fun b hb' => Or.inl (lt_of_lt_of_le h2 (hq0.trans (allows_le h0 hb'))),
      fun d hd _ e => h3 (List.mem_map.mpr ⟨d, hd, e⟩)⟩
    exact absurd h2 (not_lt.mpr this)
  cases hb : (v.lower s m).2 with
  | none => exact key (l - 1) (by linarith) (by rw [hb]; rintro b ⟨⟩)
  | some b =>
    have hub : b.value < l := by
      by_contra hle
      exact hn ⟨b, hb, not_lt.mp hle⟩
    exact key b.value hub (by rw [hb]; rintro b' ⟨⟩; exact le_refl _)

end VBounds

/-- A unit constraint that is true bounds its first variable by the value it implies. -/
theorem unit_bound {s : LinStore} {m : PModel ℚ} {d : LinCons} {p : Nat × ℚ} {ps : List (Nat × ℚ)}
    (ht : s.terms d = p :: ps) (hw : WfTerms (s.terms d)) {q : ℚ}
    (h : ConsTrue s d (Function.update m.value p.1 q)) :
    (BState.impliesUpper d p.2 = true → q ≤ s.impliedValue m d / p.2) ∧
    (BState.impliesLower d p.2 = true → s.impliedValue m d / p.2 ≤ q) := by
  have hnz : p.2 ≠ 0 := hw.nz p (by rw [ht]; exact List.mem_cons_self)
  have hsub : ∀ r ∈ ps, Function.update m.value p.1 q r.1 = m.value r.1 := by
    intro r hr
    rw [Function.update_of_ne]
    intro e
    rw [ht] at hw
    have := hw.nodup
    rw [List.map_cons, List.nodup_cons] at this
    exact this.1 (List.mem_map.mpr ⟨r, hr, e⟩)
  have hi := Lra.impliedValue_eq (m := m) ht _ hsub
  have hsum : lsum (Function.update m.value p.1 q) (s.terms d) = p.2 * q - s.impliedValue m d + d.rhs := by
    rw [ht, lsum_cons, hi]
    simp only [Function.update_self]
    ring
  generalize s.impliedValue m d = w at *
  unfold ConsTrue LinTrue at h
  rw [hsum] at h
  unfold BState.impliesUpper BState.impliesLower
  have e : p.2 * (w / p.2) = w := mul_div_cancel₀ _ hnz
  rcases lt_or_gt_of_ne hnz with hn | hn
  · rw [le_div_iff_of_neg hn, div_le_iff_of_neg hn]
    cases hp : d.pred <;> rw [hp] at h <;> cases hg : d.lit.isNeg <;>
      simp [hg, Rel, hn, not_lt_of_gt hn] at h ⊢ <;> first | linarith | (constructor <;> linarith)
  · rw [le_div_iff₀ hn, div_le_iff₀ hn]
    cases hp : d.pred <;> rw [hp] at h <;> cases hg : d.lit.isNeg <;>
      simp [hg, Rel, hn, not_lt_of_gt hn] at h ⊢ <;> first | linarith | (constructor <;> linarith)

namespace LA
variable {R : Type} {hv : Nat → Nat} {hc : ℚ → Nat} {la : LA R}

/-- The tables contain only values that bound all allowed values. -/
structure TabOk (la : LA R) (t : BTab) : Prop where
  ub : ∀ x u, t.ub x = some u → la.trail.rats.defined x = false →
    ∀ q, Allows la.store la.models (la.bnd.vb x) q → q ≤ u
  lb : ∀ x l, t.lb x = some l → la.trail.rats.defined x = false →
    ∀ q, Allows la.store la.models (la.bnd.vb x) q → l ≤ q

/-- What is known about unit constraints: their values are respected by the bounds. -/
abbrev Units (la : LA R) : Prop :=
  ∀ c, IsCons la.store c → evalLit la.trail.bools c.lit = some true → ∀ x ∈ la.store.varsOf c,
    la.trail.rats.defined x = false → (∀ y ∈ la.store.varsOf c, y ≠ x → la.trail.rats.defined y = true) → ∀ q,
    Allows la.store la.models (la.bnd.vb x) q → ConsTrue la.store c (Function.update la.trail.rats.value x q)

theorem tabStep_ok (hI : Inv la.store) (hU : Units la) {t : BTab} (ht : TabOk la t) {c : LinCons}
    (hc : c ∈ la.store.cons) : TabOk la (la.tabStep t c) := by
  unfold tabStep
  split
  · exact ht
  · rename_i hne
    simp only [Bool.or_eq_true, Bool.not_eq_true', not_or, Bool.not_eq_true, Bool.not_eq_false] at hne
    have hset : c ∈ la.store.set := by
      obtain ⟨k, hk⟩ := List.getElem?_of_mem hc
      rcases hI.dflt k c hk with h | h
      · exact h.1
      · rw [h] at hne; exact absurd hne.1 (by decide)
    dsimp only
    have hd : ∃ d, d = (if la.trail.bools.value c.lit.ord == !c.lit.isNeg then c else c.neg) := ⟨_, rfl⟩
    obtain ⟨d, hd⟩ := hd
    rw [← hd]
    have hdc : IsCons la.store d := by
      rw [hd]; split
      · exact ⟨c, hset, Or.inl rfl⟩
      · exact ⟨c, hset, Or.inr rfl⟩
    have hdt : evalLit la.trail.bools d.lit = some true := by
      rw [hd]
      have e1 : evalLit la.trail.bools c.lit = some (xor (la.trail.bools.value c.lit.ord) c.lit.isNeg) := by
        unfold evalLit
        rw [if_pos hne.2]
        cases la.trail.bools.value c.lit.ord <;> cases c.lit.isNeg <;> rfl
      split
      · rename_i h
        rw [e1]
        cases h1 : la.trail.bools.value c.lit.ord <;> cases h2 : c.lit.isNeg <;> rw [h1, h2] at h <;> simp_all
      · rename_i h
        show evalLit la.trail.bools c.lit.neg = some true
        rw [Lra.evalLit_neg, e1]
        cases h1 : la.trail.bools.value c.lit.ord <;> cases h2 : c.lit.isNeg <;> rw [h1, h2] at h <;> simp_all
    have hw := hdc.terms_wf hI
    have hvs := hdc.varsOf hI
    cases hts : la.store.terms d with
    | nil => exact ht
    | cons p ps =>
      dsimp only
      split
      · rename_i hun
        simp only [Bool.and_eq_true, Bool.not_eq_true'] at hun
        obtain ⟨hx, hall⟩ := hun
        rw [List.all_eq_true] at hall
        have key : ∀ q, Allows la.store la.models (la.bnd.vb p.1) q → _ := fun q hq =>
          unit_bound (m := la.trail.rats) hts hw (hU d hdc hdt p.1
            (by rw [hvs, hts]; exact List.mem_cons_self) hx (by
              intro y hy hyx
              rw [hvs, hts, List.map_cons] at hy
              rcases List.mem_cons.mp hy with e | e
              · exact absurd e hyx
              · obtain ⟨r, hr, rfl⟩ := List.mem_map.mp e
                exact hall r hr) q hq)
        generalize la.store.impliedValue la.trail.rats d / p.2 = v at *
        have h1 : TabOk la (if (BState.impliesUpper d p.2 && ((t.ub p.1).all fun u => Decidable.decide (v < u))) = true then
            { t with ub := Function.update t.ub p.1 (some v) } else t) := by
          split
          · rename_i hup
            rw [Bool.and_eq_true] at hup
            refine ⟨fun x u hu hxd q hq => ?_, ht.lb⟩
            dsimp only at hu
            by_cases hxp : x = p.1
            · subst hxp
              rw [Function.update_self, Option.some.injEq] at hu
              rw [← hu]
              exact (key q hq).1 hup.1
            · rw [Function.update_of_ne hxp] at hu
              exact ht.ub x u hu hxd q hq
          · exact ht
        generalize (if (BState.impliesUpper d p.2 && ((t.ub p.1).all fun u => Decidable.decide (v < u))) = true then
            { t with ub := Function.update t.ub p.1 (some v) } else t) = t1 at *
        split
        · rename_i hup
          rw [Bool.and_eq_true] at hup
          refine ⟨h1.ub, fun x u hu hxd q hq => ?_⟩
          dsimp only at hu
          by_cases hxp : x = p.1
          · subst hxp
            rw [Function.update_self, Option.some.injEq] at hu
            rw [← hu]
            exact (key q hq).2 hup.1
          · rw [Function.update_of_ne hxp] at hu
            exact h1.lb x u hu hxd q hq
        · exact h1
      · exact ht

theorem tab_ok (hI : Inv la.store) (hU : Units la) : TabOk la (la.store.cons.foldl la.tabStep {}) := by
  have : ∀ (l : List LinCons) (t : BTab), (∀ c ∈ l, c ∈ la.store.cons) → TabOk la t → TabOk la (l.foldl la.tabStep t) := by
    intro l
    induction l with
    | nil => exact fun t _ h => h
    | cons c l ih =>
      intro t hl h
      exact ih _ (fun c hc => hl c (List.mem_cons_of_mem _ hc)) (tabStep_ok hI hU h (hl c List.mem_cons_self))
  exact this _ _ (fun _ h => h) ⟨by rintro x u ⟨⟩, by rintro x u ⟨⟩⟩

theorem boundsConsistent_of (hI : Inv la.store) (hU : Units la)
    (hval : ∀ x, ∃ q, Allows la.store la.models (la.bnd.vb x) q) : la.boundsConsistent = true := by
  have ht := tab_ok hI hU
  unfold boundsConsistent
  dsimp only
  generalize la.store.cons.foldl la.tabStep {} = t at *
  rw [List.all_eq_true]
  intro x _
  cases hx : la.trail.rats.defined x with
  | true => rfl
  | false =>
    obtain ⟨q0, h0⟩ := hval x
    rw [Bool.false_or, Bool.and_eq_true, Option.all_eq_true, Option.all_eq_true]
    refine ⟨fun b hb => ?_, fun b hb => ?_⟩
    · rw [Option.all_eq_true]
      intro q hq
      obtain ⟨b', hb', hle⟩ := VBounds.lower_tight h0 (ht.lb x q hq hx)
      rw [hb] at hb'
      cases hb'
      exact decide_eq_true hle
    · rw [Option.all_eq_true]
      intro q hq
      rw [(VBounds.eqv_lower _).upper] at hb
      obtain ⟨b', hb', hle⟩ := VBounds.upper_tight h0 (ht.ub x q hq hx)
      rw [hb] at hb'
      cases hb'
      exact decide_eq_true hle

end LA
end Yaga
