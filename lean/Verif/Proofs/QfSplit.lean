/-
The check loop for QF_LRA: a semantic split undoes the decision of a rational variable.
-/
import Verif.Proofs.QfModel

set_option linter.unusedSectionVars false
set_option linter.unusedVariables false

namespace Yaga
open LinStore (Kept)
namespace Qf
open Spec BS Check

variable {hv : Nat → Nat} {hc : ℚ → Nat} {op : LaOpts} {S : LinStore} {A : List Clause}
  {b : Bool} {O : Type} {W : QOrder O} {Th : Assignment → Prop} {Q : (Nat → ℚ) → Prop}

/-- A Boolean variable without a reason was decided or has the level of a rational variable. -/
def DecOk (t : Trail Nat) : Prop :=
  ∀ o l, t.level (.bool o) = some l → t.reason (.bool o) = none → 0 < l →
    (∃ x, t.level (.rat x) = some l) ∨ ∃ a, (t.assigned l).head? = some a ∧ a.var = .bool o

theorem head_prefix {α : Type} {xs ys : List α} {a : α} (h : xs <+: ys) (ha : xs.head? = some a) : ys.head? = some a := by
  obtain ⟨zs, rfl⟩ := h
  cases xs with
  | nil => cases ha
  | cons x xs => exact ha

theorem dec_grow {t t' : Trail Nat} (h : DecOk t) (hl : ∀ i, t.assigned i <+: t'.assigned i)
    (ho : ∀ v l, t.level v = some l → t'.level v = some l) (hr : ∀ v l, t.level v = some l → t'.reason v = t.reason v)
    (hn : ∀ o l, t.level (.bool o) = none → t'.level (.bool o) = some l → t'.reason (.bool o) = none → 0 < l →
      (∃ x, t'.level (.rat x) = some l) ∨ ∃ a, (t'.assigned l).head? = some a ∧ a.var = .bool o) : DecOk t' := by
  intro o l h1 h2 hpos
  rcases h0 : t.level (.bool o) with _ | k
  · exact hn o l h0 h1 h2 hpos
  · have : k = l := by
      have := ho _ _ h0
      rw [h1] at this; cases this; rfl
    subst this
    rcases h o k h0 (by rw [← hr _ _ h0]; exact h2) hpos with ⟨x, hx⟩ | ⟨a, ha, e⟩
    · exact Or.inl ⟨x, ho _ _ hx⟩
    · exact Or.inr ⟨a, head_prefix (hl k) ha, e⟩

theorem dec_propagates {s s' : BS} {c : Option Clause} (h : Check.Good Th A b s) (hd : DecOk s.t)
    (hp : Propagates s c s') : DecOk s'.t := by
  obtain ⟨s0, a1, a2, a3, -, -, -, -, hx, -⟩ := propagates_spec (Q := fun _ => False)
    h.base.inv h.base.db (fun h' => h.base.ws (Or.inr h')) (by simp) (by simp) hp
  rw [← a2] at hd
  refine dec_grow hd hx.lists (fun v k hv => (hx.old v k hv).1) (fun v k hv => (hx.old v k hv).2.1) ?_
  intro o l h1 h2 h3
  obtain ⟨-, -, r', rest, -, c4, -⟩ := hx.new _ l h1 h2
  rw [h3] at c4; cases c4

theorem dec_frame {la la0 la' : LA Nat} (hd : DecOk la.trail) (h0 : la0.trail = la.trail) (h : LA.Frame la0 la') :
    DecOk la'.trail := by
  rw [← h0] at hd
  refine dec_grow hd (fun i => ?_) h.lvl (fun v _ _ => h.rsn v) ?_
  · obtain ⟨e, he⟩ := h.asg i; exact ⟨e, he.symm⟩
  · intro o l h1 h2 h3 _
    exact Or.inl (h.dec _ _ h1 h2)

theorem dec_lra {st : Yaga.Stage} {s : BS} {la la' : LA Nat} {cs : List Clause} (h : CoreQ Q hv hc op S A true st ⟨s, la⟩)
    (hd : DecOk s.t) (hp : la.propagate hv hc op = (la', cs)) : DecOk la'.trail := by
  obtain ⟨w, hg⟩ := h.reach.good
  obtain ⟨g1, g2, -⟩ := hg.propagate (o := op)
  simp only at g1 g2
  rw [hp] at g1 g2
  have ht : la.trail = s.t := h.trail
  rw [← ht] at hd
  exact dec_frame (la0 := la.takeAssigned.1) hd rfl g2

theorem dec_prop {q q' : QS} {cs : List Clause} (hp : QProp hv hc op q cs q') :
    ∀ {b : Bool} {st : Yaga.Stage}, CoreQ Q hv hc op S A b st q → st ≠ .conflict → DecOk q.s.t → DecOk q'.s.t := by
  induction hp with
  | @boolConflict q s c h =>
    intro b st hC hs hd
    obtain ⟨w, hg⟩ := hC.reach.good
    exact dec_propagates (hC.good q.la.store hg.keep.base.inv (Kept.refl _)) hd h
  | @lraConflict q s la cs h hp hne =>
    intro b st hC hs hd
    obtain ⟨w, hg⟩ := hC.reach.good
    have h1 := dec_propagates (hC.good q.la.store hg.keep.base.inv (Kept.refl _)) hd h
    obtain ⟨st', h2, h3, -⟩ := core_bool hC hs h
    exact dec_lra h3 h1 hp
  | @done q s la h hp hz =>
    intro b st hC hs hd
    obtain ⟨w, hg⟩ := hC.reach.good
    have h1 := dec_propagates (hC.good q.la.store hg.keep.base.inv (Kept.refl _)) hd h
    obtain ⟨st', h2, h3, -⟩ := core_bool hC hs h
    exact dec_lra h3 h1 hp
  | @again q q' s la cs h hp hz hr ih =>
    intro b st hC hs hd
    obtain ⟨w, hg⟩ := hC.reach.good
    have h1 := dec_propagates (hC.good q.la.store hg.keep.base.inv (Kept.refl _)) hd h
    obtain ⟨st', h2, h3, -⟩ := core_bool hC hs h
    obtain ⟨g1, -⟩ := core_lra h3 h2 hp
    refine ih g1 ?_ (dec_lra h3 h1 hp)
    rw [if_neg (by simp)]
    split <;> simp

theorem dec_decide {t : Trail Nat} (hi : t.Inv) (hd : DecOk t) {v : Var} {x : Val} (hp : t.Pre (.decide v x)) :
    DecOk ((t.decide v).setValue v x) := by
  have hg := grow_decide hi hp
  refine dec_grow hd hg.lists hg.old ?_ ?_
  · intro w l hw
    have hne : w ≠ v := by rintro rfl; rw [hp.2.1] at hw; cases hw
    simp [Trail.decide, Function.update_of_ne hne]
  · intro o l h1 h2 h3 _
    right
    simp only [Trail.level_setValue, Trail.decide, Function.update_apply] at h2
    split at h2
    · rename_i e
      cases h2
      refine ⟨⟨v, none⟩, ?_, e.symm⟩
      simp [Trail.assigned, Trail.decide]
    · rw [h1] at h2; cases h2

theorem dec_backtrack {t : Trail Nat} (hi : t.Inv) (hd : DecOk t) {L : Nat} (hL : L ≤ t.decisionLevel) :
    DecOk (t.backtrack L) := by
  obtain ⟨b1, b2, b3, -⟩ := Trail.backtrack_spec hi L hL
  intro o l h1 h2 hpos
  obtain ⟨g1, g2⟩ := backtrack_low hi hL h1
  have hr : t.reason (.bool o) = none := by
    rw [← (b3 (.bool o) (by intro k hk; rw [g1] at hk; cases hk; exact g2)).2.1]; exact h2
  rcases hd o l g1 hr hpos with ⟨x, hx⟩ | ⟨a, ha, e⟩
  · left
    exact ⟨x, (b3 (.rat x) (by intro k hk; rw [hx] at hk; cases hk; exact g2)).1.trans hx⟩
  · right
    refine ⟨a, ?_, e⟩
    rw [Trail.assigned, List.getD_eq_getElem?_getD, b1, List.getElem?_take, if_pos (by omega)]
    rw [Trail.assigned, List.getD_eq_getElem?_getD] at ha
    exact ha

theorem dec_propHeads (L : Nat) (cs : List Clause) (r : Nat) (s : BS) (hi : s.t.Inv) (hdl : s.t.decisionLevel = L)
    (hd : DecOk s.t) (hn : ∀ c ∈ cs, ∀ x ∈ c, x.ord < s.t.bools.num) : DecOk (propHeads L cs r s).t := by
  induction cs generalizing r s with
  | nil => exact hd
  | cons c cs ih =>
    cases c with
    | nil => exact ih (r + 1) s hi hdl hd fun c hc => hn c (by simp [hc])
    | cons x rest =>
      unfold propHeads
      by_cases hde : s.t.bools.defined x.ord = true
      · rw [if_pos hde]
        exact ih (r + 1) s hi hdl hd fun c hc => hn c (by simp [hc])
      · rw [if_neg hde]
        have hu : s.t.level x.var = none := by
          rcases hl : s.t.level x.var with _ | k
          · rfl
          · exact absurd ((hi.defined x.var).2 ⟨k, hl⟩) hde
        have hg := grow_propagate hi (v := x.var) (r := some r) (lvl := L)
          (x := .b (!x.isNeg)) ⟨hn (x :: rest) List.mem_cons_self x List.mem_cons_self, hu, rfl, hdl.ge⟩
        refine ih (r + 1) _ hg.inv ?_ ?_ ?_
        · simpa [assignLit, Trail.decisionLevel, Trail.propagate] using hdl
        · refine dec_grow hd hg.lists hg.old ?_ ?_
          · intro w l hw
            have hne : w ≠ x.var := by rintro rfl; rw [hu] at hw; cases hw
            simp [assignLit, Trail.propagate, Function.update_of_ne hne]
          · intro o l h1 h2 h3
            exfalso
            simp only [assignLit, Trail.level_setValue, Trail.reason_setValue, Trail.propagate, Function.update_apply] at h2 h3
            split at h2
            · rename_i e; rw [if_pos e] at h3; cases h3
            · rw [h1] at h2; cases h2
        · intro c hc y hy
          have := hn c (by simp [hc]) y hy
          simpa [assignLit, Trail.propagate, numBools_setValue] using this

theorem dec_uip {st : Yaga.Stage} {q : QS} (h1 : CoreQ Q hv hc op S A true st q) (hd : DecOk q.s.t) {cs : List Clause}
    (h2 : Confl Q A q cs) (h0 : q.s.t.decisionLevel ≠ 0) {ls : List Clause} {L : Nat} (hl : Learned q.s cs ls L) :
    DecOk (uip q ls L).s.t := by
  obtain ⟨w, hg⟩ := h1.reach.good
  have hI := hg.keep.base.inv
  have hG := h1.good _ hI (Kept.refl _)
  have hL := learned_below hG.base.inv hG.rok (fun c hc => (h2 c hc).1) h0 hl
  have hL' : L < q.s.t.decisionLevel := by omega
  have l1 := (learned_spec hG (fun c hc => ⟨(h2 c hc).1, (h2 c hc).2 _ hI (Kept.refl _)⟩) hl).1
  have e := (good_learnAll hG l1).2.1
  have hb : ((q.s.learnAll ls).backtrackTo L).t = q.s.t.backtrack L := by
    show (q.s.learnAll ls).t.backtrack L = _
    rw [e]
  refine dec_propHeads L ls _ _ (by rw [hb]; exact Trail.backtrack_inv hG.base.inv L hL'.le)
    (by rw [hb]; exact Trail.decisionLevel_backtrack hG.base.inv L hL'.le)
    (by rw [hb]; exact dec_backtrack hG.base.inv hd hL'.le) ?_
  intro c hc x hx
  rw [hb, numBools_backtrack hG.base.inv hL'.le]
  exact (l1 c hc).1.2 x hx

theorem dec_split {st : Yaga.Stage} {q : QS} (h1 : CoreQ Q hv hc op S A true st q) (hd : DecOk q.s.t) {cs : List Clause}
    (h2 : Confl Q A q cs) (h0 : q.s.t.decisionLevel ≠ 0) {ls : List Clause} {L : Nat} (hl : Learned q.s cs ls L)
    {c0 : Clause} {x : Lit} (hc0 : ls.head? = some c0) (hx : x ∈ topLits q.s.t c0)
    (hu : (q.s.t.backtrack L).level x.var = none) : DecOk (split q ls L x).s.t := by
  obtain ⟨w, hg⟩ := h1.reach.good
  have hI := hg.keep.base.inv
  have hG := h1.good _ hI (Kept.refl _)
  have hL := learned_below hG.base.inv hG.rok (fun c hc => (h2 c hc).1) h0 hl
  have hL' : L < q.s.t.decisionLevel := by omega
  have l1 := (learned_spec hG (fun c hc => ⟨(h2 c hc).1, (h2 c hc).2 _ hI (Kept.refl _)⟩) hl).1
  have e := (good_learnAll hG l1).2.1
  have hb : ((q.s.learnAll ls).backtrackTo L).t = q.s.t.backtrack L := by
    show (q.s.learnAll ls).t.backtrack L = _
    rw [e]
  show DecOk ((((q.s.learnAll ls).backtrackTo L).t.decide x.var).setValue x.var (.b (!x.isNeg)))
  rw [hb]
  refine dec_decide (Trail.backtrack_inv hG.base.inv L hL'.le) (dec_backtrack hG.base.inv hd hL'.le) ⟨?_, hu, rfl⟩
  show x.ord < (q.s.t.backtrack L).bools.num
  rw [numBools_backtrack hG.base.inv hL'.le]
  exact (l1 c0 (List.mem_of_mem_head? hc0)).1.2 x (topLits_mem hx)

theorem dec_decideBool {st : Yaga.Stage} {q : QS} (h1 : CoreQ Q hv hc op S A true st q) (hd : DecOk q.s.t) {n : Nat}
    (g1 : n < q.s.t.bools.num) (g2 : q.s.t.level (.bool n) = none) : DecOk (q.s.decide (.bool n)).t := by
  obtain ⟨w, hg⟩ := h1.reach.good
  have hG := h1.good _ hg.keep.base.inv (Kept.refl _)
  obtain ⟨b, e⟩ := decide_eq_decideOther q.s n
  rw [e]
  exact dec_decide (v := .bool n) (x := .b b) hG.base.inv hd ⟨g1, g2, rfl⟩

theorem dec_decideRat {q : QS} {la0 la : LA Nat} (h1 : CoreQ Q hv hc op S A true .settled ⟨q.s, la0⟩) (hd' : DecOk q.s.t)
    {n fuel : Nat} (g1 : n < q.s.t.rats.num) (g2 : q.s.t.level (.rat n) = none) (hde : la0.decide fuel n = some la) :
    DecOk la.trail := by
  obtain ⟨w, hg⟩ := h1.reach.good
  have hG := h1.good _ hg.keep.base.inv (Kept.refl _)
  have hx : n < la0.trail.rats.num := by rw [h1.trail]; exact g1
  have hu : la0.level n = none := by
    show la0.trail.level ⟨.rational, n⟩ = none
    rw [h1.trail]; exact g2
  have hw := hg.normal (by rintro ⟨⟩)
  subst hw
  obtain ⟨_, _, _, e3, v, e4⟩ := LA.Keep.decide hg.keep (by
    rintro o (⟨h1, _⟩ | ⟨_, h2⟩ | h1)
    · omega
    · rw [hg.settled rfl] at h2; cases h2
    · exact absurd h1 LA.not_fresh) (fun k o => LA.not_fresh) hx hu hde
  rw [e4, h1.trail]
  exact dec_decide (v := .rat n) hG.base.inv hd' ⟨g1, g2, rfl⟩

theorem dec_iter {st : Yaga.Stage} {c c' : QC O} (h : CoreQ Q hv hc op S A b st c.q)
    (hs : st ≠ .conflict) (hd : DecOk c.q.s.t) (hP : PicksFree hv hc op W c) (hi : Iter hv hc op W c (.run c')) :
    DecOk c'.q.s.t := by
  cases hi with
  | @restart cs q ls lvl o hp hne h0 hl he =>
    intro o l h1
    cases h1
  | @uip cs q ls L o hp hne h0 hl he hsp =>
    obtain ⟨st', h1, _, h2⟩ := core_prop hp h hs
    exact dec_uip h1 (dec_prop hp h hs hd) h2 h0 hl
  | @split cs q ls L o c0 x hp hne h0 hl he hc0 hsp hx hu =>
    obtain ⟨st', h1, _, h2⟩ := core_prop hp h hs
    exact dec_split h1 (dec_prop hp h hs hd) h2 h0 hl hc0 hx hu
  | @decideBool q o la0 n hp hpk =>
    obtain ⟨st', h1, h3, _⟩ := core_prop hp h hs
    obtain ⟨g1, g2⟩ := hP _ _ _ _ hp hpk
    rw [h1.trail] at g1 g2
    exact dec_decideBool h1 (dec_prop hp h hs hd) g1 g2
  | @decideRat q o la0 n fuel la hp hpk hde =>
    obtain ⟨st', h1, h3, _⟩ := core_prop hp h hs
    rw [h3 rfl] at h1
    obtain ⟨g1, g2⟩ := hP _ _ _ _ hp hpk
    rw [h1.trail] at g1 g2
    exact dec_decideRat (core_queried h1 (W.queried hpk)) (dec_prop hp h hs hd) g1 g2 hde

theorem dec_start {P : List QAtom} {c0 : QC O} (h : Start hv hc A P c0) : DecOk c0.q.s.t := by
  obtain ⟨h1, h2, h3⟩ := built_spec (op := ⟨false, false, false⟩) h.built
  obtain ⟨w, hg⟩ := h1.good
  have hi : c0.q.s.t.Inv := by rw [h.trail]; exact hg.keep.base.tinv
  have hem : c0.q.s.t.isEmpty = true := by
    rw [h.trail]; simp [Trail.isEmpty, Trail.assigned, h2]
  intro o l hl
  rw [isEmpty_level hi hem] at hl; cases hl

theorem dec_reach {P : List QAtom} {c0 c : QC O} (h : Start hv hc A P c0)
    (hP : ∀ c, Reach hv hc op W c0 c → PicksFree hv hc op W c) (hr : Reach hv hc op W c0 c) : DecOk c.q.s.t := by
  induction hr with
  | refl => exact dec_start h
  | step hr hi ih =>
    obtain ⟨b, st, hs, hb⟩ := core_reach h hP hr
    exact dec_iter hb hs ih (hP _ hr) hi

/-- The decision of the level of a semantic split is rational. -/
theorem split_rational {st : Yaga.Stage} {q : QS} (h : CoreQ Q hv hc op S A b st q) (hd : DecOk q.s.t) {L : Nat}
    {c : Clause} (hc : SplitAt q.s L c) : ∃ a, (q.s.t.assigned (L + 1)).head? = some a ∧ a.var.type = .rational := by
  obtain ⟨w, hg⟩ := h.reach.good
  have hrat := hg.keep.base.rat
  rw [h.trail] at hrat
  have hi := hg.keep.base.tinv
  rw [h.trail] at hi
  obtain ⟨x, y, rest, rfl, h1, h2, hne, hr, hf⟩ := hc
  have key : (∃ z, q.s.t.level (.rat z) = some (L + 1)) →
      ∃ a, (q.s.t.assigned (L + 1)).head? = some a ∧ a.var.type = .rational := by
    rintro ⟨z, hz⟩
    obtain ⟨xs, hx, a, ha, e⟩ := hi.own _ _ hz
    have := hrat _ _ _ hx ha (by rw [e])
    refine ⟨a, ?_, by rw [e]⟩
    rw [Trail.assigned, List.getD_eq_getElem?_getD, hx]
    exact this.2.2
  rcases hd x.ord _ h1 (hr x (by simp) h1) (by omega) with g1 | ⟨a, ha, ea⟩
  · exact key g1
  rcases hd y.ord _ h2 (hr y (by simp) h2) (by omega) with g1 | ⟨a', ha', ea'⟩
  · exact key g1
  exfalso
  rw [ha] at ha'
  cases ha'
  rw [ea] at ea'
  have ho : x.ord = y.ord := by
    have := congrArg Var.ord ea'
    exact this
  have hx := hf x (by simp)
  have hy := hf y (by simp)
  rcases Lit.eq_or_eq_neg_of_ord ho with e | e
  · exact hne e
  · rw [e, evalLit_neg, hy] at hx
    cases hx

/-- What is learned from conflicts, and what `backtrack_with` finds. -/
theorem handled {st : Yaga.Stage} {q : QS} (h1 : CoreQ Q hv hc op S A true st q) (hd : DecOk q.s.t)
    (hB : BoolOk A .conflict q.s) {cs : List Clause} (hne : cs ≠ []) (h2 : Confl Q A q cs) :
    (∃ learned lvl, analyzeConflicts q.s.clause q.s.t cs = some (learned, some lvl) ∧
      ([] ∈ learned ∨ learnSelect q.s.t learned ≠ [] ∧ ∃ L : Nat, lvl = L ∧ L < q.s.t.decisionLevel)) ∧
    ∀ (ls : List Clause) (L : Nat), Learned q.s cs ls L → L + 1 ≤ q.s.t.decisionLevel ∧
    ((∀ d ∈ ls, isSemanticSplit q.s.t d = true) ∧
        (∀ d ∈ ls, topLits q.s.t d ≠ [] ∧ ∀ x ∈ topLits q.s.t d, q.s.t.reason x.var = none ∧
          x.ord < q.s.t.bools.num ∧ (q.s.t.backtrack L).level x.var = none) ∧
        (∃ a, (q.s.t.assigned (L + 1)).head? = some a ∧ a.var.type ≠ .boolean) ∨
      (∀ d ∈ ls, isSemanticSplit q.s.t d = false) ∧
        ∀ d ∈ ls, ∃ x rest, d = x :: rest ∧ x.ord < q.s.t.bools.num ∧ (q.s.t.backtrack L).level x.var = none ∧
          ∀ y ∈ rest, evalLit (q.s.t.backtrack L).bools y = some false) := by
  obtain ⟨w, hg⟩ := h1.reach.good
  have hI := hg.keep.base.inv
  have hG := h1.good _ hI (Kept.refl _)
  have hi := hG.base.inv
  have hro := hG.rok
  have ht := hB.tight
  have hz := hB.zero
  have hf : ∀ c ∈ cs, ∀ l ∈ c, evalLit q.s.t.bools l = some false := fun c hc => (h2 c hc).1
  have hn : ∀ (ls : List Clause) (L : Nat), Learned q.s cs ls L → ∀ c ∈ ls, ∀ l ∈ c, l.ord < q.s.t.bools.num := by
    intro ls L hl c hc l hlc
    exact ((learned_spec hG (fun c hc => ⟨(h2 c hc).1, (h2 c hc).2 _ hI (Kept.refl _)⟩) hl).1 c hc).1.2 l hlc
  constructor
  · obtain ⟨learned, lvl, e1, e2, e3⟩ := conflicts_shape hi hro ht hz hne hf
    refine ⟨learned, lvl, e1, ?_⟩
    by_cases he : [] ∈ learned
    · exact Or.inl he
    obtain ⟨L, g1, g2, -, g4⟩ := learned_shape hi hro ht hz hne hf ⟨⟨learned, e1, he, rfl⟩⟩
    exact Or.inr ⟨g4, L, g1, g2⟩
  intro ls L hl
  obtain ⟨L', g1, g2, g3, g4⟩ := learned_shape hi hro ht hz hne hf hl
  cases g1
  refine ⟨g2, ?_⟩
  obtain ⟨-, b2, b3, -⟩ := Trail.backtrack_spec hi L g2.le
  rcases g3 with g3 | g3
  · refine Or.inr ⟨fun d hd => asserting_noSplit (g3 d hd), fun d hd => ?_⟩
    obtain ⟨x, rest, rfl, ⟨k, hk, hlk⟩, hrest, -⟩ := g3 d hd
    refine ⟨x, rest, rfl, hn ls L hl _ hd x (by simp), ?_, ?_⟩
    · rcases e : (q.s.t.backtrack L).level x.var with _ | m
      · rfl
      · obtain ⟨e1, e2⟩ := backtrack_low hi g2.le e
        rw [hk] at e1; cases e1; omega
    · intro y hy
      obtain ⟨f1, k', hk', f2⟩ := hrest y hy
      rw [evalLit_backtrack_low hi g2.le f2 hk']; exact f1
  · refine Or.inl ⟨fun d hd => splitAt_split (g3 d hd), fun d hd => ⟨?_, fun x hx => ?_⟩, ?_⟩
    · obtain ⟨x, y, rest, rfl, -⟩ := g3 d hd
      simp [topLits]
    · have hlev := topLits_level (g3 d hd) hx
      refine ⟨?_, hn ls L hl d hd x (topLits_mem hx), ?_⟩
      · obtain ⟨_, _, _, rfl, -, -, -, hrs, -⟩ := g3 d hd
        exact hrs x (topLits_mem hx) hlev
      · rcases e : (q.s.t.backtrack L).level x.var with _ | m
        · rfl
        · obtain ⟨e1, e2⟩ := backtrack_low hi g2.le e
          rw [hlev] at e1; cases e1; omega
    · cases ls with
      | nil => exact absurd rfl g4
      | cons d ds =>
        obtain ⟨a, ha, e⟩ := split_rational h1 hd (g3 d (by simp))
        exact ⟨a, ha, by rw [e]; simp⟩

end Qf
end Yaga
