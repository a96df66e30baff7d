/-
Assignments of variables preserve the invariant about values and bounds.
-/
import Verif.Proofs.LraSem

set_option linter.unusedSimpArgs false
set_option linter.unusedVariables false

namespace Yaga
open Spec
open LinStore (delta WfTerms Inv Kept Made)

namespace LA
open Lra
variable {R : Type} {hv : Nat → Nat} {hc : ℚ → Nat} {t t' : Trail R} {s : LinStore} {b b' : BState}
variable {X Y X' Y' : Nat → Nat → Prop}

theorem cut_ge (ht : t.Inv) {k : Nat} (hk : t.decisionLevel ≤ k) : cut t k = cut t t.decisionLevel := by
  have hb : (cut t k).bools.defined = (cut t t.decisionLevel).bools.defined := by
    funext o
    rw [Bool.eq_iff_iff, cut_b, cut_b]
    exact ⟨fun ⟨l, hl, _⟩ => ⟨l, hl, ht.bound _ _ hl⟩, fun ⟨l, hl, h2⟩ => ⟨l, hl, h2.trans hk⟩⟩
  have hr : (cut t k).rats.defined = (cut t t.decisionLevel).rats.defined := by
    funext o
    rw [Bool.eq_iff_iff, cut_r, cut_r]
    exact ⟨fun ⟨l, hl, _⟩ => ⟨l, hl, ht.bound _ _ hl⟩, fun ⟨l, hl, h2⟩ => ⟨l, hl, h2.trans hk⟩⟩
  unfold cut cutP at hb hr ⊢
  simp only at hb hr
  simp only [hb, hr]

theorem cut_min (ht : t.Inv) (k : Nat) : cut t (min k t.decisionLevel) = cut t k := by
  rcases le_total k t.decisionLevel with h | h
  · rw [min_eq_left h]
  · rw [min_eq_right h, cut_ge ht h]

/-- A boolean variable is assigned at level `lvl`. -/
theorem Sem.assignBool (hB : Base hv hc t s b) (h : Sem t s b X Y) {o lvl : Nat} {x : Bool}
    (ht' : t'.Inv) (hlev : t'.level = Function.update t.level ⟨.boolean, o⟩ (some lvl))
    (hbo : t'.bools = t.bools.setValue o x) (hra : t'.rats = t.rats)
    (hu : t.level ⟨.boolean, o⟩ = none)
    (hV : ∀ c, IsCons s c → c.lit.ord = o → (∀ y ∈ s.varsOf c, t.rats.defined y = true) →
      ((x == !c.lit.isNeg) = true ↔ ConsTrue s c t.rats.value))
    (hF : ∀ k ≤ t'.decisionLevel, k < lvl → ¬ X' k o → FullO s (cut t k) o)
    (hC : ∀ k ≤ t'.decisionLevel, lvl ≤ k → ¬ Y' k o → CompO s (cut t' k) b o)
    (hX : ∀ k ≤ t'.decisionLevel, ∀ o', o' ≠ o → X (min k t.decisionLevel) o' → X' k o')
    (hY : ∀ k ≤ t'.decisionLevel, ∀ o', o' ≠ o → Y (min k t.decisionLevel) o' → Y' k o') :
    Sem t' s b X' Y' := by
  have hlr : ∀ y, t'.level ⟨.rational, y⟩ = t.level ⟨.rational, y⟩ := by
    intro y; rw [hlev, Function.update_of_ne (by simp)]
  have hlo : t'.level ⟨.boolean, o⟩ = some lvl := by rw [hlev, Function.update_self]
  have hlb : ∀ o', o' ≠ o → t'.level ⟨.boolean, o'⟩ = t.level ⟨.boolean, o'⟩ := by
    intro o' ho'; rw [hlev, Function.update_of_ne (by simpa using ho')]
  have hval : ∀ o', o' ≠ o → t'.bools.value o' = t.bools.value o' ∧ t'.bools.ts o' = t.bools.ts o' := by
    intro o' ho'; rw [hbo]; simp [PModel.setValue, Function.update_of_ne ho']
  have hext : ∀ k, Ext (cut t k) (cut t' k) := by
    intro k
    refine ext_cut (fun o' l hl hlk => ?_) (fun y l hl hlk => ?_)
    · have ho' : o' ≠ o := fun e => by rw [e, hu] at hl; cases hl
      exact ⟨⟨l, by rw [hlb o' ho']; exact hl, hlk⟩, hval o' ho'⟩
    · rw [hra]; exact ⟨⟨l, by rw [hlr]; exact hl, hlk⟩, rfl, rfl⟩
  have hrat : ∀ k y, (cut t' k).rats.defined y = (cut t k).rats.defined y := by
    intro k y; rw [Bool.eq_iff_iff, cut_r, cut_r, hlr]
  refine ⟨?_, fun k hk o' ho' => ?_, fun k hk o' ho' => ?_⟩
  · intro c hc' hdef v hev
    have hdef0 : ∀ p ∈ s.terms c, (mods t).rats.defined p.1 = true := by
      intro p hp
      have := hdef p hp
      have e : (mods t').rats = (mods t).rats := hra
      rw [← e]; exact this
    have er : (mods t').rats = (mods t).rats := hra
    by_cases ho : c.lit.ord = o
    · have := hV c hc' ho (fun y hy => by
        rw [hc'.varsOf hB.inv] at hy
        obtain ⟨p, hp, rfl⟩ := List.mem_map.mp hy
        exact hdef0 p hp)
      rw [er]
      show _ ↔ ConsTrue s c t.rats.value
      rw [← this]
      have h2 := (evalLit_some hev).2
      rw [← h2, ho]
      show ((t'.bools.value o == _) = true) ↔ _
      rw [hbo]
      simp [PModel.setValue]
    · rw [er]
      refine h.vals c hc' hdef0 v ?_
      rw [← hev]
      show evalLit t.bools c.lit = evalLit t'.bools c.lit
      refine (evalLit_eq ?_ (fun _ => (hval _ ho).1)).symm
      rw [hbo]; simp [PModel.setValue, Function.update_of_ne ho]
  · intro e he heo hy
    by_cases ho : o' = o
    · by_cases hk2 : k < lvl
      · rw [ho] at ho' heo ⊢
        have := hF k hk hk2 ho' e he heo (fun y hyv => by rw [← hrat]; exact hy y hyv)
        exact ((hext k).b _ this).1
      · rw [ho, cut_b]
        exact ⟨lvl, hlo, Nat.le_of_not_lt hk2⟩
    · have := h.full (min k t.decisionLevel) (min_le_right _ _) o' (fun hx => ho' (hX k hk o' ho hx)) e he heo
        (fun y hyv => by rw [cut_min hB.tinv, ← hrat]; exact hy y hyv)
      rw [cut_min hB.tinv] at this
      exact ((hext k).b _ this).1
  · by_cases ho : o' = o
    · subst ho
      by_cases hk2 : k < lvl
      · refine compO_of_undef ?_
        by_contra hcon
        rw [Bool.not_eq_false, cut_b, hlo] at hcon
        obtain ⟨l, hl, hlk⟩ := hcon
        cases hl
        omega
      · exact hC k hk (Nat.le_of_not_lt hk2) ho'
    · have h0 := h.comp (min k t.decisionLevel) (min_le_right _ _) o' (fun hx => ho' (hY k hk o' ho hx))
      rw [cut_min hB.tinv] at h0
      refine CompO.transfer hB.inv hB.inv (Kept.refl s) (fun c hc _ => hc) (fun hd => ?_)
        (fun _ _ _ y _ => hrat k y) (fun y hd => ((hext k).r y hd).2.1)
        (hB.livens hB.inv (Kept.refl s) (hext k) (KeepsAll.refl _ _ _)) h0
      obtain ⟨l, hl, hlk⟩ := cut_b.mp hd
      rw [hlb o' ho] at hl
      exact ⟨cut_b.mpr ⟨l, hl, hlk⟩, (hval o' ho).1⟩

/-- A rational variable is decided. -/
theorem Sem.assignRat (hB : Base hv hc t s b) (h : Sem t s b X Y) {x : Nat} {q : ℚ}
    (ht' : t'.Inv) (hlev : t'.level = Function.update t.level ⟨.rational, x⟩ (some (t.decisionLevel + 1)))
    (hra : t'.rats = t.rats.setValue x q) (hbo : t'.bools = t.bools)
    (hdl : t'.decisionLevel = t.decisionLevel + 1)
    (hu : t.level ⟨.rational, x⟩ = none) (hp : Permits s (mods t) b x q)
    (hb : KeepsAll s (mods t) b b')
    (hY0 : ∀ o, ¬ Y t.decisionLevel o)
    (hXk : ∀ k ≤ t.decisionLevel, ∀ o, X k o → X' k o)
    (hYk : ∀ k ≤ t.decisionLevel, ∀ o, Y k o → Y' k o)
    (hX1 : ∀ o, X t.decisionLevel o → X' (t.decisionLevel + 1) o)
    (hX2 : ∀ e ∈ s.set, x ∈ s.varsOf e → (∀ y ∈ s.varsOf e, y ≠ x → t.rats.defined y = true) →
      X' (t.decisionLevel + 1) e.lit.ord)
    (hY2 : ∀ e ∈ s.set, x ∈ s.varsOf e → (∃ z ∈ s.varsOf e, z ≠ x ∧ t.rats.defined z = false ∧
      ∀ y ∈ s.varsOf e, y ≠ x → y ≠ z → t.rats.defined y = true) → Y' (t.decisionLevel + 1) e.lit.ord) :
    Sem t' s b' X' Y' := by
  have hlb : ∀ o, t'.level ⟨.boolean, o⟩ = t.level ⟨.boolean, o⟩ := by
    intro o; rw [hlev, Function.update_of_ne (by simp)]
  have hlx : t'.level ⟨.rational, x⟩ = some (t.decisionLevel + 1) := by rw [hlev, Function.update_self]
  have hlr : ∀ y, y ≠ x → t'.level ⟨.rational, y⟩ = t.level ⟨.rational, y⟩ := by
    intro y hy; rw [hlev, Function.update_of_ne (by simpa using hy)]
  have hxu : t.rats.defined x = false := by
    by_contra hcon
    rw [Bool.not_eq_false, def_r hB.tinv, hu] at hcon
    obtain ⟨l, hl⟩ := hcon
    cases hl
  have hval : ∀ y, y ≠ x → t'.rats.value y = t.rats.value y ∧ t'.rats.ts y = t.rats.ts y := by
    intro y hy; rw [hra]; simp [PModel.setValue, Function.update_of_ne hy]
  have hdefr : ∀ y, y ≠ x → t'.rats.defined y = t.rats.defined y := by
    intro y hy; rw [hra]; simp [PModel.setValue, Function.update_of_ne hy]
  have hext : ∀ k, Ext (cut t k) (cut t' k) := by
    intro k
    refine ext_cut (fun o' l hl hlk => ?_) (fun y l hl hlk => ?_)
    · rw [hbo]; exact ⟨⟨l, by rw [hlb]; exact hl, hlk⟩, rfl, rfl⟩
    · have hy : y ≠ x := fun e => by rw [e, hu] at hl; cases hl
      exact ⟨⟨l, by rw [hlr y hy]; exact hl, hlk⟩, hval y hy⟩
  have hbd : ∀ k o, (cut t' k).bools.defined o = (cut t k).bools.defined o := by
    intro k o; rw [Bool.eq_iff_iff, cut_b, cut_b, hlb]
  have hrd : ∀ k y, k ≤ t.decisionLevel ∨ y ≠ x →
      (cut t' k).rats.defined y = (cut t k).rats.defined y := by
    intro k y hky
    rw [Bool.eq_iff_iff, cut_r, cut_r]
    by_cases hy : y = x
    · subst hy
      rcases hky with hk | hk
      · rw [hlx, hu]
        constructor
        · rintro ⟨l, hl, hlk⟩; cases hl; omega
        · rintro ⟨l, hl, _⟩; cases hl
      · exact absurd rfl hk
    · rw [hlr y hy]
  have htop : cut t' (t.decisionLevel + 1) = mods t' := by rw [← hdl]; exact cut_top ht'
  have htop0 : cut t (t.decisionLevel + 1) = mods t := by
    rw [cut_ge hB.tinv (Nat.le_succ _)]; exact cut_top hB.tinv
  have hlv : ∀ k, Livens s (cut t k) b s (cut t' k) b' := fun k =>
    hB.livens hB.inv (Kept.refl s) (hext k) hb
  refine ⟨?_, fun k hk o ho => ?_, fun k hk o ho => ?_⟩
  · intro c hc' hdef v hev
    have hev0 : evalLit (mods t).bools c.lit = some v := by
      have e : (mods t').bools = (mods t).bools := hbo
      rw [← e]; exact hev
    have hvars : ∀ y ∈ s.varsOf c, t'.rats.defined y = true := by
      intro y hy
      rw [hc'.varsOf hB.inv] at hy
      obtain ⟨p, hp', rfl⟩ := List.mem_map.mp hy
      exact hdef p hp'
    by_cases hxc : x ∈ s.varsOf c
    · have hoth : ∀ y ∈ s.varsOf c, y ≠ x → t.rats.defined y = true := fun y hy hyx => by
        rw [← hdefr y hyx]; exact hvars y hy
      have key : ∀ d, IsCons s d → d.lit.ord = c.lit.ord → s.varsOf d = s.varsOf c →
          evalLit t.bools d.lit = some true → ConsTrue s d t'.rats.value := by
        intro d hd hdo hdv hde
        have h0 := h.comp t.decisionLevel (le_refl _) d.lit.ord (hY0 _)
        rw [cut_top hB.tinv] at h0
        have := h0 d hd rfl hde x (by rw [hdv]; exact hxc) hxu
          (fun y hy hyx => hoth y (by rw [← hdv]; exact hy) hyx) q hp
        refine (consTrue_congr hB.inv hd ?_).mp this
        intro y hy
        rw [hra]
        rfl
      show _ ↔ ConsTrue s c t'.rats.value
      cases v with
      | true => simp only [true_iff]; exact key c hc' rfl rfl hev0
      | false =>
        simp only [Bool.false_eq_true, false_iff]
        have := key c.neg hc'.neg (LinStore.Lit.neg_ord _) (varsOf_neg _ _) (by
          show evalLit t.bools c.lit.neg = some true
          rw [evalLit_neg, show evalLit t.bools c.lit = some false from hev0]; rfl)
        rwa [consTrue_neg] at this
    · have hne : ∀ y ∈ s.varsOf c, y ≠ x := fun y hy e => hxc (e ▸ hy)
      rw [h.vals c hc' (fun p hp' => by
        have hy : p.1 ∈ s.varsOf c := by
          rw [hc'.varsOf hB.inv]; exact List.mem_map.mpr ⟨p, hp', rfl⟩
        show t.rats.defined p.1 = true
        rw [← hdefr _ (hne _ hy)]; exact hvars _ hy) v hev0]
      refine consTrue_congr hB.inv hc' (fun y hy => ?_)
      exact ((hval y (hne y hy)).1).symm
  · intro e he heo hy
    rcases Nat.lt_or_ge t.decisionLevel k with hlt | hle
    · have hk' : k = t.decisionLevel + 1 := by omega
      subst hk'
      by_cases hxe : x ∈ s.varsOf e
      · exfalso
        refine ho (heo ▸ hX2 e he hxe (fun y hyv hyx => ?_))
        have := hy y hyv
        rw [htop] at this
        rw [← hdefr y hyx]; exact this
      · have := h.full t.decisionLevel (le_refl _) o (fun hx => ho (hX1 o hx)) e he heo (fun y hyv => by
          rw [cut_top hB.tinv]
          have h2 := hy y hyv
          rw [htop] at h2
          show t.rats.defined y = true
          rw [← hdefr y (fun e' => hxe (e' ▸ hyv))]; exact h2)
        rw [hbd, htop0]
        rw [cut_top hB.tinv] at this
        exact this
    · have := h.full k hle o (fun hx => ho (hXk k hle o hx)) e he heo (fun y hyv => by
        rw [← hrd k y (Or.inl hle)]; exact hy y hyv)
      rw [hbd]; exact this
  · rcases Nat.lt_or_ge t.decisionLevel k with hlt | hle
    · have hk' : k = t.decisionLevel + 1 := by omega
      subst hk'
      have h0 := h.comp t.decisionLevel (le_refl _) o (hY0 o)
      rw [cut_top hB.tinv, ← htop0] at h0
      by_cases hcase : ∀ c, IsCons s c → c.lit.ord = o → x ∉ s.varsOf c
      · refine CompO.transfer hB.inv hB.inv (Kept.refl s) (fun c hc _ => hc) (fun hd => ?_)
          (fun c hcc hco y hy => hrd _ y (Or.inr (fun e => hcase c hcc hco (e ▸ hy))))
          (fun y hd => ((hext _).r y hd).2.1) (hlv _) h0
        rw [hbd] at hd
        exact ⟨hd, by show t'.bools.value o = t.bools.value o; rw [hbo]⟩
      · push Not at hcase
        obtain ⟨c, hcc, hco, hxc⟩ := hcase
        obtain ⟨e, he, hce⟩ := hcc
        have hve : s.varsOf c = s.varsOf e := by rcases hce with r | r <;> rw [r]; rfl
        have hoe : e.lit.ord = o := by
          rw [← hco]; rcases hce with r | r <;> rw [r]; exact (LinStore.Lit.neg_ord _).symm
        intro d hd hdo hde z hz hzu hza q' hq'
        have hvd : s.varsOf d = s.varsOf e := by
          rcases IsCons.of_ord hB.inv he hd (hdo.trans hoe.symm) with r | r <;> rw [r]; rfl
        exfalso
        refine ho (hoe ▸ hY2 e he (hve ▸ hxc) ⟨z, hvd ▸ hz, ?_, ?_, ?_⟩)
        · intro e'
          rw [e', htop] at hzu
          have : t'.rats.defined x = true := by rw [hra]; simp [PModel.setValue]
          rw [show (mods t').rats.defined x = t'.rats.defined x from rfl, this] at hzu
          cases hzu
        · by_contra hcon
          rw [Bool.not_eq_false] at hcon
          have := ((hext (t.decisionLevel + 1)).r z (by rw [htop0]; exact hcon)).1
          rw [this] at hzu; cases hzu
        · intro y hy hyx hyz
          have := hza y (hvd ▸ hy) hyz
          rw [htop] at this
          rw [← hdefr y hyx]; exact this
    · refine CompO.transfer hB.inv hB.inv (Kept.refl s) (fun c hc _ => hc) (fun hd => ?_)
        (fun c hcc hco y hy => hrd _ y (Or.inl hle))
        (fun y hd => ((hext _).r y hd).2.1) (hlv _) (h.comp k hle o (fun hx => ho (hYk k hle o hx)))
      rw [hbd] at hd
      exact ⟨hd, by show t'.bools.value o = t.bools.value o; rw [hbo]⟩

end LA
end Yaga
