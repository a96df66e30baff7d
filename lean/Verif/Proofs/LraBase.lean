/-
The steps of the plugin keep the trail, the repository and the bounds in a reachable state.
-/
import Verif.Proofs.LraAssign
import Verif.Proofs.LraDecide

set_option linter.unusedSimpArgs false
set_option linter.unusedVariables false

namespace Yaga
open Spec
open LinStore (delta WfTerms Inv Kept Made)

namespace LinStore

theorem swapAt_self {α : Type} (l : List α) (i : Nat) : swapAt l i i = l := by
  unfold swapAt
  cases h : l[i]? with
  | none => rfl
  | some x =>
    simp only [List.set_set]
    obtain ⟨hi, rfl⟩ := List.getElem?_eq_some_iff.mp h
    exact List.set_getElem_self hi

theorem swapTerms_self (s : LinStore) (c : LinCons) (i : Nat) : s.swapTerms c i i = s := by
  unfold swapTerms
  rw [swapAt_self, swapAt_self]

/-- `make` finds an existing constraint and changes nothing, or appends a new one. -/
theorem make_found (hv : Nat → Nat) (hc : ℚ → Nat) {s : LinStore} (hI : Inv s)
    {ts : List (Nat × ℚ)} (hts : (ts.map (·.1)).Nodup) (hne : ∃ q ∈ ts, q.2 ≠ 0) (pred : Pred)
    (rhs : ℚ) : ∃ k : ℚ,
    ((make hv hc s ts pred rhs).1 = s ∧ ∃ e ∈ s.set, (s.terms e).Perm (normTerms k ts) ∧
      ((make hv hc s ts pred rhs).2 = e ∨ (make hv hc s ts pred rhs).2 = e.neg)) ∨
    ∃ e, (make hv hc s ts pred rhs).1.set = s.set ++ [e] ∧ e.lit = Lit.pos s.cons.length ∧
      (make hv hc s ts pred rhs).1.terms e = normTerms k ts ∧
      ((make hv hc s ts pred rhs).2 = e ∨ (make hv hc s ts pred rhs).2 = e.neg) := by
  cases hk : findNorm ts with
  | none =>
    obtain ⟨q, hq, h0⟩ := hne
    exact absurd (findNorm_none hk q hq) h0
  | some k =>
    refine ⟨k, ?_⟩
    obtain ⟨hA, _, _, _⟩ := append_some hI.len hts pred rhs hk
    have hD := dedup_spec hv hc hI hA (append s ts pred rhs).2.2
    unfold make
    simp only
    generalize (append s ts pred rhs).1 = s1 at *
    generalize (append s ts pred rhs).2.1 = c at *
    generalize (append s ts pred rhs).2.2 = neg at *
    cases e : s1.set.find? (fun e => hash hv hc s1 c == hash hv hc s1 e && equal s1 c e) with
    | none =>
      right
      have e5 : dedup hv hc s1 c neg = ({ s1 with set := s1.set ++ [c] }, if neg then c.neg else c) := by
        unfold dedup
        rw [e]
      rw [e5]
      refine ⟨c, by show s1.set ++ [c] = _; rw [hA.set], hA.lit, hA.terms, ?_⟩
      cases neg
      · exact Or.inl rfl
      · exact Or.inr rfl
    | some d =>
      left
      have e5 : dedup hv hc s1 c neg = (⟨s1.vars.take (s1.vars.length - c.size),
          s1.coefs.take (s1.coefs.length - c.size), s1.cons.dropLast, s1.set⟩,
          if neg then d.neg else d) := by
        unfold dedup
        rw [e]
      have hs : (dedup hv hc s1 c neg).1 = s := by
        rw [e5]
        simp only [hA.vars, hA.coefs, hA.cons, hA.set, hA.size, List.length_append, List.length_map,
          Nat.add_sub_cancel, List.take_left', List.dropLast_concat]
      rw [hs] at hD ⊢
      obtain ⟨_, _, _, _, _, e', he', h2, hp, _⟩ := hD
      refine ⟨rfl, e', he', hp, ?_⟩
      rw [h2]
      cases neg
      · exact Or.inl rfl
      · exact Or.inr rfl

end LinStore

namespace Lra

/-- `watch` does not reorder a constraint whose variables are all assigned or all unassigned. -/
theorem watchLoop_assigned (m : PModel ℚ) (c : LinCons) (k : Nat) : ∀ (i out : Nat) (s : LinStore),
    (∀ y ∈ s.varsOf c, m.defined y = true) → i + k ≤ (s.varsOf c).length →
    watchLoop m c k i out s = s := by
  induction k with
  | zero => intro i out s _ _; rfl
  | succ k ih =>
    intro i out s h hl
    unfold watchLoop
    generalize (if c.size = 1 then 1 else 2) = z
    split
    · rfl
    · have hi : i < (s.varsOf c).length := by omega
      rw [if_pos (h _ (by rw [List.getD_eq_getElem?_getD, List.getElem?_eq_getElem hi]; exact List.getElem_mem hi))]
      exact ih _ _ _ h (by omega)

theorem watchLoop_unassigned (m : PModel ℚ) (c : LinCons) (k : Nat) : ∀ (i : Nat) (s : LinStore),
    (∀ y ∈ s.varsOf c, m.defined y = false) → i + k ≤ (s.varsOf c).length →
    watchLoop m c k i i s = s := by
  induction k with
  | zero => intro i s _ _; rfl
  | succ k ih =>
    intro i s h hl
    unfold watchLoop
    generalize (if c.size = 1 then 1 else 2) = z
    split
    · rfl
    · have hi : i < (s.varsOf c).length := by omega
      have hf := h ((s.varsOf c).getD i 0)
        (by rw [List.getD_eq_getElem?_getD, List.getElem?_eq_getElem hi]; exact List.getElem_mem hi)
      rw [hf, if_neg (by simp), LinStore.swapTerms_self]
      exact ih _ _ h (by omega)

/-- `constraint` returns an existing constraint and changes nothing, or creates a new one. -/
theorem constraint_cases (hv : Nat → Nat) (hc : ℚ → Nat) {s : LinStore} {m : LModels} (hI : Inv s)
    (hl : s.cons.length = m.bools.num) {ts : List (Nat × ℚ)} (hts : (ts.map (·.1)).Nodup)
    (hne : ∃ q ∈ ts, q.2 ≠ 0)
    (hm : (∀ q ∈ ts, m.rats.defined q.1 = true) ∨ (∀ q ∈ ts, m.rats.defined q.1 = false))
    (pred : Pred) (rhs : ℚ) :
    let r := constraint hv hc s m ts pred rhs
    (r.1.varsOf r.2.2).Perm ((ts.filter fun p => Decidable.decide (p.2 ≠ 0)).map (·.1)) ∧
    ((r.2.2.lit.ord < m.bools.num ∧ r.1 = s ∧ r.2.1 = m) ∨
    (r.2.2.lit.ord = m.bools.num ∧
      r.2.1 = { m with bools := m.bools.resize false (m.bools.num + 1) } ∧
      ∃ e, e.lit = Lit.pos m.bools.num ∧ r.1.set = s.set ++ [e] ∧ (r.2.2 = e ∨ r.2.2 = e.neg) ∧
        r.1.varsOf e = (ts.filter fun p => Decidable.decide (p.2 ≠ 0)).map (·.1))) := by
  obtain ⟨hI1, hK1, e0, hM⟩ := LinStore.make_spec hv hc hI hts pred rhs
  obtain ⟨hlen, _⟩ := LinStore.make_len hv hc hI hts pred rhs
  obtain ⟨k, hcase⟩ := LinStore.make_found hv hc hI hts hne pred rhs
  have hnt : ∀ k : ℚ, (LinStore.normTerms k ts).map (·.1) =
      (ts.filter fun p => Decidable.decide (p.2 ≠ 0)).map (·.1) := by
    intro k
    unfold LinStore.normTerms
    rw [List.map_map]
    rfl
  unfold constraint
  simp only
  rw [hl] at hlen hcase
  rcases hcase with ⟨hs, e, he, hp, hce⟩ | ⟨e, hset, hlit, htm, hce⟩
  · have hord : (s.make hv hc ts pred rhs).2.lit.ord < m.bools.num := by
      have : (s.make hv hc ts pred rhs).2.lit.ord = e.lit.ord := by
        rcases hce with h | h <;> rw [h]; exact LinStore.Lit.neg_ord _
      rw [this, ← hl]
      obtain ⟨k', h1, h2⟩ := hI.idx e he
      rw [h1, LinStore.Lit.pos_ord]
      exact (List.getElem?_eq_some_iff.mp h2).1
    rw [if_neg (by omega)]
    refine ⟨?_, Or.inl ⟨hord, hs, rfl⟩⟩
    rw [hs]
    have hv' : s.varsOf (s.make hv hc ts pred rhs).2 = s.varsOf e := by
      rcases hce with h | h <;> rw [h]; rfl
    rw [hv', LinStore.varsOf_eq hI.len (hI.rng e he).2, ← hnt k]
    exact hp.map _
  · have hord : (s.make hv hc ts pred rhs).2.lit.ord = m.bools.num := by
      have : (s.make hv hc ts pred rhs).2.lit.ord = e.lit.ord := by
        rcases hce with h | h <;> rw [h]; exact LinStore.Lit.neg_ord _
      rw [this, hlit, LinStore.Lit.pos_ord]
    rw [if_pos (by omega), hord]
    have he : e ∈ (s.make hv hc ts pred rhs).1.set := by rw [hset]; simp
    have hvE : (s.make hv hc ts pred rhs).1.varsOf e =
        (ts.filter fun p => Decidable.decide (p.2 ≠ 0)).map (·.1) := by
      rw [LinStore.varsOf_eq hI1.len (hI1.rng e he).2, htm, hnt]
    have hv' : (s.make hv hc ts pred rhs).1.varsOf (s.make hv hc ts pred rhs).2 =
        (ts.filter fun p => Decidable.decide (p.2 ≠ 0)).map (·.1) := by
      rw [← hvE]; rcases hce with h | h <;> rw [h]; rfl
    have hlenE : ((s.make hv hc ts pred rhs).1.varsOf (s.make hv hc ts pred rhs).2).length =
        (s.make hv hc ts pred rhs).2.size := by
      have hr : (s.make hv hc ts pred rhs).2.second ≤ (s.make hv hc ts pred rhs).1.vars.length := by
        have := (hI1.rng e he).2
        rcases hce with h | h <;> rw [h]
        · exact this
        · exact this
      exact LinStore.length_slice hr
    have hw : watchLoop m.rats (s.make hv hc ts pred rhs).2 (s.make hv hc ts pred rhs).2.size 0 0
        ((s.make hv hc ts pred rhs).1.resize (m.bools.num + 1)) =
        (s.make hv hc ts pred rhs).1.resize (m.bools.num + 1) := by
      have hv2 : ((s.make hv hc ts pred rhs).1.resize (m.bools.num + 1)).varsOf
          (s.make hv hc ts pred rhs).2 =
          (s.make hv hc ts pred rhs).1.varsOf (s.make hv hc ts pred rhs).2 := rfl
      have hmem : ∀ y ∈ ((s.make hv hc ts pred rhs).1.resize (m.bools.num + 1)).varsOf
          (s.make hv hc ts pred rhs).2, ∃ q ∈ ts, q.1 = y := by
        intro y hy
        rw [hv2, hv'] at hy
        obtain ⟨q, hq, rfl⟩ := List.mem_map.mp hy
        exact ⟨q, (List.mem_filter.mp hq).1, rfl⟩
      rcases hm with hm | hm
      · refine watchLoop_assigned _ _ _ _ _ _ (fun y hy => ?_) ?_
        · obtain ⟨q, hq, rfl⟩ := hmem y hy; exact hm q hq
        · rw [hv2, hlenE]; omega
      · refine watchLoop_unassigned _ _ _ _ _ (fun y hy => ?_) ?_
        · obtain ⟨q, hq, rfl⟩ := hmem y hy; exact hm q hq
        · rw [hv2, hlenE]; omega
    rw [hw]
    refine ⟨?_, Or.inr ⟨rfl, rfl, e, hlit, hset, hce, hvE⟩⟩
    show ((s.make hv hc ts pred rhs).1.varsOf (s.make hv hc ts pred rhs).2).Perm _
    rw [hv']

/-- The searches for a value only ask for bounds. -/
def VSteps (hv : Nat → Nat) (hc : ℚ → Nat) (s : LinStore) (m : LModels) (x : Nat) (v w : VBounds) :
    Prop := ∀ b : BState, b.vb x = v → Steps hv hc ⟨s, m, b⟩ ⟨s, m, b.put x w⟩

section
variable {hv : Nat → Nat} {hc : ℚ → Nat} {s : LinStore} {m : LModels} {x : Nat}

theorem put_same (b : BState) (x : Nat) : b.put x (b.vb x) = b := by
  unfold BState.put
  rw [Function.update_eq_self]

theorem VSteps.refl (v : VBounds) : VSteps hv hc s m x v v := by
  intro b hb
  rw [← hb, put_same]
  exact Steps.refl _

theorem steps_trans' {a b c : St} (h1 : Steps hv hc a b) (h2 : Steps hv hc b c) : Steps hv hc a c := by
  induction h2 with
  | refl => exact h1
  | step op h ok ih => exact Steps.step op ih ok

theorem VSteps.trans {v w z : VBounds} (h1 : VSteps hv hc s m x v w) (h2 : VSteps hv hc s m x w z) :
    VSteps hv hc s m x v z := by
  intro b hb
  have a := h2 (b.put x w) (by simp [BState.put])
  rw [put_put] at a
  exact steps_trans' (h1 b hb) a

theorem vsteps_lower (v : VBounds) : VSteps hv hc s m x v (v.lower s m).1 := by
  intro b hb
  have := Steps.step (hv := hv) (hc := hc) (.lower x) (Steps.refl ⟨s, m, b⟩) trivial
  simp only [Op.run, BState.lower, hb] at this
  exact this

theorem vsteps_upper (v : VBounds) : VSteps hv hc s m x v (v.upper s m).1 := by
  intro b hb
  have := Steps.step (hv := hv) (hc := hc) (.upper x) (Steps.refl ⟨s, m, b⟩) trivial
  simp only [Op.run, BState.upper, hb] at this
  exact this

theorem vsteps_allowed (v : VBounds) (q : ℚ) : VSteps hv hc s m x v (v.isAllowed s m q).1 := by
  intro b hb
  have := Steps.step (hv := hv) (hc := hc) (.allowed x q) (Steps.refl ⟨s, m, b⟩) trivial
  simp only [Op.run, hb] at this
  exact this

theorem vsteps_around (n : Nat) : ∀ (q : ℚ) (v : VBounds),
    VSteps hv hc s m x v (VBounds.around s m n q v).1 := by
  induction n with
  | zero => intro q v; exact VSteps.refl _
  | succ n ih =>
    intro q v
    unfold VBounds.around
    simp only
    split
    · exact vsteps_allowed _ _
    · split
      · exact (vsteps_allowed _ _).trans (vsteps_allowed _ _)
      · exact ((vsteps_allowed _ _).trans (vsteps_allowed _ _)).trans (ih _ _)

theorem vsteps_walk (st : ℚ) (n : Nat) : ∀ (q : ℚ) (v : VBounds),
    VSteps hv hc s m x v (VBounds.walk s m st n q v).1 := by
  induction n with
  | zero => intro q v; exact VSteps.refl _
  | succ n ih =>
    intro q v
    unfold VBounds.walk
    simp only
    split
    · exact vsteps_allowed _ _
    · exact (vsteps_allowed _ _).trans (ih _ _)

theorem vsteps_halve (lb : ℚ) (n : Nat) : ∀ (q : ℚ) (v : VBounds),
    VSteps hv hc s m x v (VBounds.halve s m lb n q v).1 := by
  induction n with
  | zero => intro q v; exact VSteps.refl _
  | succ n ih =>
    intro q v
    unfold VBounds.halve
    simp only
    split
    · exact vsteps_allowed _ _
    · exact (vsteps_allowed _ _).trans (ih _ _)

theorem vsteps_findInteger (fuel : Nat) (v : VBounds) :
    VSteps hv hc s m x v (VBounds.findInteger s m fuel v).1 := by
  have h0 : VSteps hv hc s m x v ((v.lower s m).1.upper s m).1 :=
    (vsteps_lower v).trans (vsteps_upper _)
  unfold VBounds.findInteger VBounds.aroundZero
  simp only
  split
  · exact h0.trans (vsteps_around _ _ _)
  · split
    · exact h0.trans (vsteps_around _ _ _)
    · exact (h0.trans (vsteps_around _ _ _)).trans (vsteps_walk _ _ _ _)
  · split
    · exact h0.trans (vsteps_around _ _ _)
    · exact (h0.trans (vsteps_around _ _ _)).trans (vsteps_walk _ _ _ _)
  · split
    · exact h0.trans (vsteps_walk _ _ _ _)
    · split
      · exact h0.trans (vsteps_walk _ _ _ _)
      · exact h0.trans (vsteps_around _ _ _)

theorem vsteps_chooseValue (fuel : Nat) (cached : Option ℚ) (v : VBounds) :
    VSteps hv hc s m x v (VBounds.chooseValue s m fuel cached v).1 := by
  unfold VBounds.chooseValue
  simp only
  split
  · exact vsteps_allowed _ _
  · have h1 : VSteps hv hc s m x v
        (VBounds.findInteger s m fuel (v.isAllowed s m (cached.getD 0)).1).1 :=
      (vsteps_allowed _ _).trans (vsteps_findInteger _ _)
    split
    · exact h1
    · exact h1
    · split
      · exact ((h1.trans (vsteps_lower _)).trans (vsteps_upper _)).trans (vsteps_halve _ _ _ _)
      · exact (h1.trans (vsteps_lower _)).trans (vsteps_upper _)

theorem keepsAll_eqv {b : BState} {w : VBounds} (h : VBounds.Eqv s m (b.vb x) w) :
    KeepsAll s m b (b.put x w) := by
  refine ⟨fun up y e he hl => ?_, fun y e he hl => ?_⟩
  · rw [stk_put]
    split
    · rename_i hy
      subst hy
      cases up
      · have := popObs_live s m (show e ∈ (b.vb y).lb from he) hl
        rw [h.lb] at this
        exact (popObs_sublist s m w.lb).mem this
      · have := popObs_live s m (show e ∈ (b.vb y).ub from he) hl
        rw [h.ub] at this
        exact (popObs_sublist s m w.ub).mem this
    · exact he
  · rw [vb_put]
    split
    · rename_i hy
      subst hy
      have : e ∈ VBounds.dropObs s m (b.vb y).dis := List.mem_filter.mpr ⟨he, by simp [hl]⟩
      rw [h.dis] at this
      exact (List.mem_filter.mp this).1
    · exact he

end
end Lra

namespace LA
open Lra
variable {R : Type} {hv : Nat → Nat} {hc : ℚ → Nat} {t t' : Trail R} {s : LinStore} {b b' : BState}
variable {X Y X' Y' : Nat → Nat → Prop}

theorem Base.steps (hB : Base hv hc t s b) (h : Steps hv hc ⟨s, mods t, b⟩ ⟨s, mods t, b'⟩) :
    Base hv hc t s b' :=
  ⟨steps_trans' hB.reach h, hB.tinv, hB.rat, hB.ne⟩

theorem mem_pushFrom {a c : Asg R} {lvl i : Nat} {ls : List (List (Asg R))} {xs : List (Asg R)}
    (h : (Trail.pushFrom a lvl ls)[i]? = some xs) (hc : c ∈ xs) :
    ∃ ys, ls[i]? = some ys ∧ ((c ∈ ys ∧ ∀ d, ys.head? = some d → xs.head? = some d) ∨ c = a) := by
  rw [Trail.getElem?_pushFrom] at h
  obtain ⟨ys, hys, rfl⟩ := Option.map_eq_some_iff.mp h
  refine ⟨ys, hys, ?_⟩
  split at hc
  · rename_i hl
    rcases List.mem_append.mp hc with hc | hc
    · left
      refine ⟨hc, fun d hd => ?_⟩
      rw [if_pos hl]
      cases ys with
      | nil => cases hd
      | cons y ys => exact hd
    · right; simpa using hc
  · rename_i hl
    left
    refine ⟨hc, fun d hd => ?_⟩
    rw [if_neg hl]; exact hd

theorem Base.setBool (hB : Base hv hc t s b) {o lvl : Nat} {x : Bool} {r : Option R}
    (ho : o < t.bools.num) (hu : t.level ⟨.boolean, o⟩ = none) (hl : lvl ≤ t.decisionLevel) :
    Base hv hc ((t.propagate ⟨.boolean, o⟩ r lvl).setValue ⟨.boolean, o⟩ (.b x)) s b where
  reach := Steps.step (.setBool o x) hB.reach ⟨ho, by
    show t.bools.defined o = false
    by_contra hcon
    rw [Bool.not_eq_false, def_b hB.tinv, hu] at hcon
    obtain ⟨l, hl⟩ := hcon
    cases hl⟩
  tinv := Trail.propagate_inv hB.tinv _ _ _ _ ho hu rfl hl
  rat := by
    intro i xs a h ha hr
    rw [Trail.levels_setValue] at h
    obtain ⟨ys, hys, ⟨hay, hh⟩ | e⟩ := mem_pushFrom h ha
    · obtain ⟨h1, h2, h3⟩ := hB.rat i ys a hys hay hr
      refine ⟨?_, h2, hh a h3⟩
      rw [Trail.level_setValue]
      show Function.update t.level ⟨.boolean, o⟩ (some lvl) a.var = some i
      rw [Function.update_of_ne (fun e => by rw [e] at hr; cases hr)]
      exact h1
    · rw [e] at hr; cases hr
  ne := hB.ne

theorem dl_succ (ht : t.Inv) : t.levels.length = t.decisionLevel + 1 := by
  have := ht.length_pos
  unfold Trail.decisionLevel
  omega

theorem rat_decide (hB : Base hv hc t s b) {v : Var} (hu : t.level v = none) (i : Nat)
    (xs : List (Asg R)) (a : Asg R) (h : (t.levels ++ [[⟨v, none⟩]])[i]? = some xs) (ha : a ∈ xs)
    (hr : a.var.type = .rational) :
    Function.update t.level v (some t.levels.length) a.var = some i ∧ 0 < i ∧ xs.head? = some a := by
  rw [List.getElem?_append] at h
  split at h
  · obtain ⟨h1, h2, h3⟩ := hB.rat i xs a h ha hr
    refine ⟨?_, h2, h3⟩
    rw [Function.update_of_ne (fun e => by rw [e, hu] at h1; cases h1)]
    exact h1
  · rename_i hlt
    have h0 : i - t.levels.length = 0 := by
      by_contra hcon
      rw [List.getElem?_eq_none (by simp; omega)] at h
      cases h
    rw [h0] at h
    simp only [List.getElem?_cons_zero, Option.some.injEq] at h
    subst h
    have : a = ⟨v, none⟩ := by simpa using ha
    subst this
    have hp := hB.tinv.length_pos
    have hi : i = t.levels.length := by omega
    subst hi
    exact ⟨Function.update_self .., hp, rfl⟩

theorem Base.decideBool (hB : Base hv hc t s b) {o : Nat} {x : Bool}
    (ho : o < t.bools.num) (hu : t.level ⟨.boolean, o⟩ = none) :
    Base hv hc ((t.decide ⟨.boolean, o⟩).setValue ⟨.boolean, o⟩ (.b x)) s b where
  reach := Steps.step (.setBool o x) hB.reach ⟨ho, by
    show t.bools.defined o = false
    by_contra hcon
    rw [Bool.not_eq_false, def_b hB.tinv, hu] at hcon
    obtain ⟨l, hl⟩ := hcon
    cases hl⟩
  tinv := Trail.decide_inv hB.tinv _ _ ho hu rfl
  rat := fun i xs a h ha hr => rat_decide hB hu i xs a h ha hr
  ne := hB.ne

theorem setValue_decide (t : Trail R) (v : Var) (x : Val) :
    (t.setValue v x).decide v = (t.decide v).setValue v x := by
  unfold Trail.setValue Trail.decide
  cases v.type <;> cases x <;> rfl

theorem Base.decideRat (hB : Base hv hc t s b) {x : Nat} {q : ℚ}
    (hx : x < t.rats.num) (hu : t.level ⟨.rational, x⟩ = none)
    (ha : ((b.vb x).isAllowed s (mods t) q).2 = true) :
    Base hv hc ((t.decide ⟨.rational, x⟩).setValue ⟨.rational, x⟩ (.q q)) s
      (b.put x ((b.vb x).isAllowed s (mods t) q).1) where
  reach := Steps.step (.setRat x q) hB.reach ⟨hx, (by
    show t.rats.defined x = false
    by_contra hcon
    rw [Bool.not_eq_false, def_r hB.tinv, hu] at hcon
    obtain ⟨l, hl⟩ := hcon
    cases hl), ha⟩
  tinv := Trail.decide_inv hB.tinv _ _ hx hu rfl
  rat := fun i xs a h ha hr => rat_decide hB hu i xs a h ha hr
  ne := hB.ne

/-- What unassigning variables does to the models. -/
structure Cleared (hv : Nat → Nat) (hc : ℚ → Nat) (s : LinStore) (b : BState) (t t' : Trail R) :
    Prop where
  steps : Steps hv hc ⟨s, mods t, b⟩ ⟨s, mods t', b⟩
  bts : t'.bools.ts = t.bools.ts
  rts : t'.rats.ts = t.rats.ts

theorem Cleared.refl (t : Trail R) : Cleared hv hc s b t t := ⟨Steps.refl _, rfl, rfl⟩

theorem Cleared.trans {t1 t2 t3 : Trail R} (h1 : Cleared hv hc s b t1 t2)
    (h2 : Cleared hv hc s b t2 t3) : Cleared hv hc s b t1 t3 :=
  ⟨steps_trans' h1.steps h2.steps, h2.bts.trans h1.bts, h2.rts.trans h1.rts⟩

theorem cleared_unassign (L : Nat) (t : Trail R) (a : Asg R) :
    Cleared hv hc s b t (Trail.unassignAbove L t a) := by
  unfold Trail.unassignAbove
  split
  · split
    · unfold Trail.clearValue
      cases a.var.type with
      | boolean => exact ⟨Steps.step (.clearBool a.var.ord) (Steps.refl _) trivial, rfl, rfl⟩
      | rational => exact ⟨Steps.step (.clearRat a.var.ord) (Steps.refl _) trivial, rfl, rfl⟩
    · exact Cleared.refl _
  · exact Cleared.refl _

theorem cleared_foldl (L : Nat) (xs : List (Asg R)) : ∀ t : Trail R,
    Cleared hv hc s b t (xs.foldl (Trail.unassignAbove L) t) := by
  induction xs with
  | nil => intro t; exact Cleared.refl _
  | cons a xs ih => intro t; exact (cleared_unassign L t a).trans (ih _)

theorem cleared_popLevels (L n : Nat) : ∀ t : Trail R,
    Cleared hv hc s b t (Trail.popLevels L n t) := by
  induction n with
  | zero => intro t; exact Cleared.refl _
  | succ n ih =>
    intro t
    have h1 : Cleared hv hc s b t (Trail.popLevel L t) := by
      have := cleared_foldl (hv := hv) (hc := hc) (s := s) (b := b) L (t.assigned t.decisionLevel) t
      exact ⟨this.steps, this.bts, this.rts⟩
    exact h1.trans (ih _)

theorem Base.backtrack (hB : Base hv hc t s b) {k : Nat} (hk : k ≤ t.decisionLevel) :
    Base hv hc (t.backtrack k) s b := by
  have hcl := cleared_popLevels (hv := hv) (hc := hc) (s := s) (b := b) k (t.decisionLevel - k) t
  obtain ⟨hlv, _, hkept, _⟩ := Trail.backtrack_spec hB.tinv k hk
  refine ⟨steps_trans' hB.reach hcl.steps, Trail.backtrack_inv hB.tinv k hk, ?_, hB.ne⟩
  intro i xs a h ha hr
  rw [hlv] at h
  have hi : i < k + 1 := by
    by_contra hcon
    rw [List.getElem?_eq_none (by simp; omega)] at h
    cases h
  rw [List.getElem?_take_of_lt hi] at h
  obtain ⟨h1, h2, h3⟩ := hB.rat i xs a h ha hr
  refine ⟨?_, h2, h3⟩
  rw [(hkept a.var (fun l hl => by rw [h1] at hl; cases hl; omega)).1]
  exact h1

theorem reach_clearBools (n : Nat) {m : LModels} (h : Lra.Reach hv hc ⟨s, m, b⟩) :
    Lra.Reach hv hc ⟨s, { m with bools := { m.bools with
      defined := fun o => if o < n then false else m.bools.defined o } }, b⟩ := by
  induction n with
  | zero => simpa using h
  | succ n ih =>
    have := Steps.step (.clearBool n) ih trivial
    have e : (fun o => if o < n + 1 then false else m.bools.defined o) =
        Function.update (fun o => if o < n then false else m.bools.defined o) n false := ?_
    · rw [e]; exact this
    funext o
    by_cases ho : o = n
    · subst ho; simp
    · rw [Function.update_of_ne ho]
      by_cases h1 : o < n
      · rw [if_pos h1, if_pos (by omega)]
      · rw [if_neg h1, if_neg (by omega)]

theorem reach_clearRats (n : Nat) {m : LModels} (h : Lra.Reach hv hc ⟨s, m, b⟩) :
    Lra.Reach hv hc ⟨s, { m with rats := { m.rats with
      defined := fun o => if o < n then false else m.rats.defined o } }, b⟩ := by
  induction n with
  | zero => simpa using h
  | succ n ih =>
    have := Steps.step (.clearRat n) ih trivial
    have e : (fun o => if o < n + 1 then false else m.rats.defined o) =
        Function.update (fun o => if o < n then false else m.rats.defined o) n false := ?_
    · rw [e]; exact this
    funext o
    by_cases ho : o = n
    · subst ho; simp
    · rw [Function.update_of_ne ho]
      by_cases h1 : o < n
      · rw [if_pos h1, if_pos (by omega)]
      · rw [if_neg h1, if_neg (by omega)]

theorem Base.clear (hB : Base hv hc t s b) : Base hv hc t.clear s b := by
  refine ⟨?_, Trail.clear_inv t, ?_, hB.ne⟩
  · have h1 := reach_clearRats t.rats.num (reach_clearBools t.bools.num hB.reach)
    convert h1 using 2
    unfold mods Trail.clear PModel.clearAll
    simp only
    congr 2
    · funext o
      split
      · rfl
      · rename_i hlt
        symm
        by_contra hcon
        exact hlt (hB.linv.dom o (by rw [Bool.not_eq_false] at hcon; exact hcon))
    · funext o
      split
      · rfl
      · rename_i hlt
        symm
        by_contra hcon
        exact hlt (reach_rdom hB.reach o (by rw [Bool.not_eq_false] at hcon; exact hcon))
  · intro i xs a h ha hr
    have h' : ([[]] : List (List (Asg R)))[i]? = some xs := h
    cases i with
    | zero => simp at h'; subst h'; cases ha
    | succ i => simp at h'

theorem resize_same (ht : t.Inv) (ty : VType) {n : Nat} (hn : t.numVars ty ≤ n) :
    (t.resize ty n).level = t.level ∧ (t.resize ty n).levels = t.levels ∧ (t.resize ty n).Inv := by
  have h := fun v l (hv : v.type = ty) (hl : t.level v = some l) =>
    show v.ord < n by have := ht.range v l hl; rw [hv] at this; omega
  obtain ⟨h1, _, _, h2⟩ := Trail.level_resize t ht ty n h
  exact ⟨h1, h2, Trail.resize_inv ht ty n h⟩

theorem Base.resizeBool (hB : Base hv hc t s b) {n : Nat} (hn : t.bools.num ≤ n) :
    Base hv hc (t.resize .boolean n) (s.resize n) b := by
  obtain ⟨h1, h2, h3⟩ := resize_same hB.tinv .boolean (n := n) hn
  refine ⟨Steps.step (.resizeBool n) hB.reach hn, h3, ?_, hB.ne⟩
  rw [h1, h2]
  exact hB.rat

theorem Base.resizeRat (hB : Base hv hc t s b) {n : Nat} (hn : t.rats.num ≤ n) :
    Base hv hc (t.resize .rational n) s b := by
  obtain ⟨h1, h2, h3⟩ := resize_same hB.tinv .rational (n := n) hn
  refine ⟨Steps.step (.resizeRat n) hB.reach hn, h3, ?_, hB.ne⟩
  rw [h1, h2]
  exact hB.rat

theorem Base.swap (hB : Base hv hc t s b) {e : LinCons} (he : e ∈ s.set) {i j : Nat} (hi : i < e.size)
    (hj : j < e.size) (hc' : i = j ∨ (0 < i ∧ 0 < j) ∨
        ((∀ x ∈ (s.varsOf e).head?, t.rats.defined x = true) ∧
          ∃ y ∈ s.varsOf e, t.rats.defined y = false)) :
    Base hv hc t (s.swapTerms e i j) b := by
  have hg : s.get e.lit.ord = e := LinStore.get_of_mem hB.inv he
  have hst := Steps.step (hv := hv) (hc := hc) (.swap e.lit.ord i j) hB.reach
    ⟨by rw [hg]; exact hi, by rw [hg]; exact hj, by rw [hg]; exact hc'⟩
  simp only [Op.run, hg] at hst
  refine ⟨hst, hB.tinv, hB.rat, fun d hd => ?_⟩
  have hK : Kept s (s.swapTerms e i j) := by
    have := (LinStore.swap_spec hB.inv (ord := e.lit.ord) (by rw [hg]; exact hi) (by rw [hg]; exact hj)).2
    rw [hg] at this; exact this
  intro hnil
  have := hK.terms d hd
  rw [hnil] at this
  exact hB.ne d hd (List.nil_perm.mp this)

end LA
end Yaga
