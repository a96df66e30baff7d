/-
One iteration of the check loop for QF_LRA preserves the invariant.
-/
import Verif.Proofs.QfCore

set_option linter.unusedSectionVars false
set_option linter.unusedVariables false

namespace Yaga
open LinStore (Kept)
namespace Qf
open Spec BS Check

variable {hv : Nat → Nat} {hc : ℚ → Nat} {op : LaOpts} {S : LinStore} {A : List Clause}
  {b : Bool} {O : Type} {W : QOrder O} {Q : (Nat → ℚ) → Prop}

/-! ### The level to backtrack to -/

theorem level_le_dl {t : Trail Nat} (hi : t.Inv) {v : Var} {k : Nat} (h : t.level v = some k) :
    k ≤ t.decisionLevel := by
  obtain ⟨xs, hx, _⟩ := hi.own v k h
  have := (List.getElem?_eq_some_iff.mp hx).1
  unfold Trail.decisionLevel; omega

/-- `analyze` returns a level below the current one. -/
theorem analyze_below {deref : Nat → Clause} {t : Trail Nat} (hi : t.Inv) (hr : ReasonsOk deref t)
    {c c' : Clause} {lvl : Int} (hf : ∀ l ∈ c, evalLit t.bools l = some false) (h0 : t.decisionLevel ≠ 0)
    (h : analyze deref t c = some (c', lvl)) : lvl < t.decisionLevel := by
  obtain ⟨⟨s, top⟩, hs⟩ := initLoop_isSome t c [] 0 fun l hl => false_level hi (hf l hl)
  obtain ⟨i1, i2, -, i4, i5⟩ := initLoop_spec t c [] 0 s top hs List.nodup_nil
  have i2' : ∀ l, l ∈ s ↔ l ∈ c := by simpa using i2
  have htl : top ≤ t.decisionLevel := by
    rcases i5 with rfl | ⟨l, _, hl⟩
    · omega
    · exact level_le_dl hi hl
  set c0 : CA := ⟨s, top, countLevel t s top⟩ with hc0
  have hinit : CA.init t c = some c0 := by simp [CA.init, hs, hc0]
  have hopen : c0.LI deref t (t.assigned top).reverse := by
    refine ⟨⟨i1, rfl⟩, fun l hl => hf l ((i2' l).1 hl), ?_, ?_, ?_⟩
    · intro l hl n hn
      obtain ⟨k, hk, hle⟩ := i4 l ((i2' l).1 hl)
      rw [hn] at hk; cases hk; exact hle
    · intro l hl h1 _
      obtain ⟨xs, hx, a, ha, e⟩ := hi.own _ _ h1
      refine ⟨a, ?_, e⟩
      simp only [hc0] at hx
      simp [Trail.assigned, List.getD_eq_getElem?_getD, hx, ha]
    · intro _ hpos
      rcases i5 with e | ⟨l, hl, e⟩
      · simp only [hc0] at hpos; omega
      · exact ⟨l, (i2' l).2 hl, e⟩
  obtain ⟨htop, hres⟩ := loop_spec hi hr (t.assigned top).reverse [] c0 (by simp [hc0]) hopen
  set c1 := CA.loop deref t (t.assigned top).reverse c0 with hc1
  have hLI : c1.Ok t ∧ (∀ l ∈ c1.conflict, evalLit t.bools l = some false) ∧
      (∀ l ∈ c1.conflict, ∀ n, t.level l.var = some n → n ≤ c1.topLevel) := by
    rcases hres with h | h
    · exact ⟨h.ok, h.falsified, h.le⟩
    · exact ⟨h.1.ok, h.1.falsified, h.1.le⟩
  have hana : analyze deref t c = c1.finish t := by simp [analyze, hinit, hc1, hc0]
  have htop' : c1.topLevel = top := htop
  obtain ⟨hok, hfal, hle⟩ := hLI
  rw [hana] at h
  unfold CA.finish at h
  by_cases he : c1.conflict = []
  · rw [if_pos he] at h; cases h; omega
  · rw [if_neg he] at h
    simp only at h
    split at h
    · cases h; omega
    · rename_i hnt
      split at h
      · rename_i x second rest e
        simp only [Option.map_eq_some_iff, Prod.mk.injEq] at h
        obtain ⟨L2', hL2', _, rfl⟩ := h
        obtain ⟨L2, hL2, rfl⟩ : ∃ L : Nat, t.level second.var = some L ∧ (L : Int) = L2' := by
          rcases hx : t.level second.var with _ | L
          · rw [hx] at hL2'; simp at hL2'
          · rw [hx] at hL2'; simp at hL2'; exact ⟨L, rfl, hL2'⟩
        have hsort := finish_sorted t c1.conflict
        have hperm := sortBy_perm (CA.before t) c1.conflict
        rw [e] at hsort hperm
        have hx : x ∈ c1.conflict := hperm.mem_iff.1 (by simp)
        have hy : second ∈ c1.conflict := hperm.mem_iff.1 (by simp)
        obtain ⟨L1, hL1⟩ := false_level hi (hfal x hx)
        have h1 := hle x hx L1 hL1
        have h2 := hle second hy L2 hL2
        have h3 := (List.pairwise_cons.1 hsort).1 second (by simp)
        rw [levelOr_of_level hL1, levelOr_of_level hL2] at h3
        by_contra hcon
        have e1 : L1 = c1.topLevel := by omega
        have e2 : L2 = c1.topLevel := by omega
        have hcnt := hok.count
        unfold countLevel at hcnt
        rw [← hperm.countP_eq] at hcnt
        rw [List.countP_cons, List.countP_cons] at hcnt
        rw [hL1, hL2, e1, e2] at hcnt
        simp at hcnt
        omega
      · cases h; omega

theorem selectLowest_ne (rs : List (Clause × Int)) (cs : List Clause) (l0 : Int) (h : cs ≠ []) :
    (selectLowest rs (cs, some l0)).1 ≠ [] := by
  induction rs generalizing cs l0 with
  | nil => exact h
  | cons p rs ih =>
    obtain ⟨c, lc⟩ := p
    unfold selectLowest
    split
    · exact ih _ _ (by simp)
    · split
      · exact ih _ _ (by simp)
      · exact ih _ _ h

theorem analyzeConflicts_some {deref : Nat → Clause} {t : Trail Nat} {cs learned : List Clause}
    {l : Int} (h : analyzeConflicts deref t cs = some (learned, some l)) :
    ∃ d ∈ cs, ∃ c, c ∈ learned ∧ analyzeOne deref t d = some (c, l) := by
  have hne : learned ≠ [] := by
    have h' := h
    simp only [analyzeConflicts, Option.map_eq_some_iff] at h'
    obtain ⟨rs, h1, h2⟩ := h'
    rcases rs with _ | ⟨⟨c0, l0⟩, rs⟩
    · simp [selectLowest] at h2
    · unfold selectLowest at h2
      have e4 := selectLowest_ne rs [c0] l0 (by simp)
      rw [h2] at e4
      exact e4
  obtain ⟨c, ls, rfl⟩ := List.exists_cons_of_ne_nil hne
  obtain ⟨d, hd, l', e1, e2⟩ := analyzeConflicts_mem h c (by simp)
  cases e1
  exact ⟨d, hd, c, by simp, e2⟩

/-- The level to backtrack to is below the current one. -/
theorem learned_below {s : BS} (hi : s.t.Inv) (hr : ReasonsOk s.clause s.t) {cs ls : List Clause} {lvl : Int}
    (hcs : ∀ c ∈ cs, ∀ l ∈ c, evalLit s.t.bools l = some false) (h0 : s.t.decisionLevel ≠ 0)
    (hl : Learned s cs ls lvl) : lvl < s.t.decisionLevel := by
  obtain ⟨learned, ha, _, _⟩ := hl.analysed
  obtain ⟨d, hd, c, _, h1⟩ := analyzeConflicts_some ha
  simp only [analyzeOne, Option.map_eq_some_iff, Prod.mk.injEq] at h1
  obtain ⟨⟨c0, l0⟩, e1, _, rfl⟩ := h1
  exact analyze_below hi hr (hcs d hd) h0 e1

/-! ### Backtracking -/

theorem propHeads_assigns (L : Nat) (cs : List Clause) (r : Nat) (s : BS) (hi : s.t.Inv)
    (hdl : s.t.decisionLevel = L) (hn : ∀ c ∈ cs, ∀ x ∈ c.head?, x.ord < s.t.bools.num) :
    Assigns s.t (propHeads L cs r s).t := by
  suffices ∀ (t0 : Trail Nat), Assigns t0 s.t → Assigns t0 (propHeads L cs r s).t from this _ (.refl _)
  induction cs generalizing r s with
  | nil => intro t0 h; exact h
  | cons c cs ih =>
    intro t0 h
    rcases c with _ | ⟨x, rest⟩
    · unfold propHeads
      exact ih (r + 1) s hi hdl (fun c hc => hn c (by simp [hc])) t0 h
    · unfold propHeads
      by_cases hd : s.t.bools.defined x.ord = true
      · rw [if_pos hd]
        exact ih (r + 1) s hi hdl (fun c hc => hn c (by simp [hc])) t0 h
      · rw [if_neg hd]
        have hu : s.t.level x.var = none := by
          rcases hl : s.t.level x.var with _ | k
          · rfl
          · exact absurd ((hi.defined x.var).2 ⟨k, hl⟩) hd
        have hxr : x.ord < s.t.bools.num := hn (x :: rest) (by simp) x (by simp)
        have hg := grow_propagate hi (v := x.var) (r := some r) (lvl := L)
          (x := .b (!x.isNeg)) ⟨hxr, hu, rfl, hdl.ge⟩
        refine ih (r + 1) (s.assignLit x (some r) L) hg.inv ?_ ?_ t0 ?_
        · simpa [assignLit, Trail.decisionLevel, Trail.propagate] using hdl
        · intro c hc' y hy
          have := hn c (by simp [hc']) y hy
          simpa [assignLit, numBools_setValue, Trail.propagate] using this
        · have := Assigns.step (r := r) h hxr hu
          rw [hdl] at this
          exact this

theorem topLits_mem {t : Trail Nat} {c : Clause} {x : Lit} (h : x ∈ topLits t c) : x ∈ c := by
  rcases c with _ | ⟨y, c⟩
  · exact h
  · rcases List.mem_cons.1 h with rfl | h
    · simp
    · exact List.mem_cons_of_mem _ ((List.takeWhile_prefix _).subset h)

theorem _root_.Yaga.Queried.frame {la la' : LA Nat} (h : Queried la la') : la'.trail = la.trail ∧ la'.store = la.store := by
  induction h with
  | refl => exact ⟨rfl, rfl⟩
  | ask h x ih =>
    obtain ⟨b, e⟩ := LA.effectivelyDecided_eq _ x
    rw [e]; exact ih
  | take h ih => exact ih

theorem _root_.Yaga.Queried.reach {la la' : LA Nat} {st : Yaga.Stage} (h : Queried la la') (hr : LA.Reach hv hc op True la st) :
    LA.Reach hv hc op True la' st := by
  induction h with
  | refl => exact hr
  | ask h x ih => exact .query ih x
  | take h ih => exact .take ih

/-- The queries of the variable order keep the invariant. -/
theorem core_queried {st : Yaga.Stage} {q : QS} {la : LA Nat} (h : CoreQ Q hv hc op S A b st q)
    (hq : Queried q.la la) : CoreQ Q hv hc op S A b st ⟨q.s, la⟩ := by
  obtain ⟨e1, e2⟩ := hq.frame
  refine ⟨e1.trans h.trail, hq.reach h.reach, by rw [e2]; exact h.kept, ?_⟩
  intro F hF hK
  rw [e2] at hK
  exact h.good F hF hK

/-! ### The steps of an iteration after `propagate` -/

/-- A conflict at level 0. -/
theorem conf_zero {st' : Yaga.Stage} {q : QS} {cs : List Clause} (h1 : CoreQ Q hv hc op S A true st' q)
    (h2 : ∀ c ∈ cs, (∀ l ∈ c, evalLit q.s.t.bools l = some false) ∧
      ∀ F : LinStore, F.Inv → Kept q.la.store F → Ent (TheoryQ Q F) A c) (hne : cs ≠ []) (h0 : q.s.t.decisionLevel = 0) :
    UnsatIn (TheoryQ Q q.la.store) A := by
  obtain ⟨w, hg⟩ := h1.reach.good
  have hI := hg.keep.base.inv
  have hG := h1.good _ hI (Kept.refl _)
  obtain ⟨c', hc'⟩ := List.exists_mem_of_ne_nil _ hne
  obtain ⟨h3, h4⟩ := h2 c' hc'
  rintro ⟨σ, hm, hA⟩
  obtain ⟨l, hl, ht⟩ := h4 _ hI (Kept.refl _) σ hm hA
  have hf := h3 l hl
  obtain ⟨k, hk⟩ := false_level hG.base.inv hf
  have := level_le_dl hG.base.inv hk
  have : k = 0 := by omega
  subst this
  have := level_zero hG l.neg (evalLit_neg_true.2 hf) (by simpa using hk) σ hm hA
  rw [litTrue_neg] at this
  exact this ht

/-- An empty clause is derived. -/
theorem conf_empty {st' : Yaga.Stage} {q : QS} {cs : List Clause} (h1 : CoreQ Q hv hc op S A true st' q)
    (h2 : ∀ c ∈ cs, (∀ l ∈ c, evalLit q.s.t.bools l = some false) ∧
      ∀ F : LinStore, F.Inv → Kept q.la.store F → Ent (TheoryQ Q F) A c) {learned : List Clause} {lvl : Option Int}
    (ha : analyzeConflicts q.s.clause q.s.t cs = some (learned, lvl)) (hem : [] ∈ learned) :
    UnsatIn (TheoryQ Q q.la.store) A := by
  obtain ⟨w, hg⟩ := h1.reach.good
  have hI := hg.keep.base.inv
  have hG := h1.good _ hI (Kept.refl _)
  obtain ⟨d, hd, l, -, e⟩ := analyzeConflicts_mem ha _ hem
  have := analyzeOne_ent hG ((h2 d hd).2 _ hI (Kept.refl _)) e
  rintro ⟨σ, hm, hA⟩
  obtain ⟨l, hl, -⟩ := this σ hm hA
  simp at hl

theorem conf_restart {st' : Yaga.Stage} {q : QS} {cs : List Clause} (h1 : CoreQ Q hv hc op S A true st' q)
    (h2 : ∀ c ∈ cs, (∀ l ∈ c, evalLit q.s.t.bools l = some false) ∧
      ∀ F : LinStore, F.Inv → Kept q.la.store F → Ent (TheoryQ Q F) A c) {ls : List Clause} {lvl : Int} (hl : Check.Learned q.s cs ls lvl) (old : Nat) :
    CoreQ Q hv hc op S A false .changed (restart q ls old) := by
  obtain ⟨w, hg⟩ := h1.reach.good
  have hI := hg.keep.base.inv
  have hG := h1.good _ hI (Kept.refl _)
  have e : (q.s.learnAll ls).t = q.s.t :=
    (good_learnAll hG (learned_spec hG (fun c hc => ⟨(h2 c hc).1, (h2 c hc).2 _ hI (Kept.refl _)⟩) hl).1).2.1
  refine ⟨rfl, ?_, h1.kept, ?_⟩
  · have := LA.Reach.restart h1.reach
    have e2 : withTrail q.la.onBeforeBacktrack (Check.restart (q.s.learnAll ls) old).t = q.la.restart := by
      show withTrail _ ((q.s.learnAll ls).t.clear) = _
      rw [e, ← h1.trail]; rfl
    show LA.Reach hv hc op True (withTrail q.la.onBeforeBacktrack (Check.restart (q.s.learnAll ls) old).t) _
    rw [e2]; exact this
  · intro F hF hK
    have hGF := h1.good F hF hK
    exact good_restart (good_learnAll hGF (learned_spec hGF
      (fun c hc => ⟨(h2 c hc).1, (h2 c hc).2 _ hF hK⟩) hl).1).1 _

/-- The trail after backtracking and propagating the learned clauses. -/
theorem uip_trail {st' : Yaga.Stage} {q : QS} {cs : List Clause} (h1 : CoreQ Q hv hc op S A true st' q)
    (h2 : ∀ c ∈ cs, (∀ l ∈ c, evalLit q.s.t.bools l = some false) ∧
      ∀ F : LinStore, F.Inv → Kept q.la.store F → Ent (TheoryQ Q F) A c) {ls : List Clause} {L : Nat} (h0 : q.s.t.decisionLevel ≠ 0)
    (hl : Check.Learned q.s cs ls L) :
    L < q.s.t.decisionLevel ∧ Assigns (q.s.t.backtrack L) (uip q ls L).s.t := by
  obtain ⟨w, hg⟩ := h1.reach.good
  have hI := hg.keep.base.inv
  have hG := h1.good _ hI (Kept.refl _)
  have hL := learned_below hG.base.inv hG.rok (fun c hc => (h2 c hc).1) h0 hl
  have hL' : L < q.s.t.decisionLevel := by omega
  obtain ⟨l1, l2, l3⟩ := learned_spec hG (fun c hc => ⟨(h2 c hc).1, (h2 c hc).2 _ hI (Kept.refl _)⟩) hl
  obtain ⟨g1, e, g3, _⟩ := good_learnAll hG l1
  have hb : ((q.s.learnAll ls).backtrackTo L).t = q.s.t.backtrack L := by
    show (q.s.learnAll ls).t.backtrack L = _
    rw [e]
  have hbi : (q.s.t.backtrack L).Inv := Trail.backtrack_inv hG.base.inv L hL'.le
  have hbdl : (q.s.t.backtrack L).decisionLevel = L := by
    have := (Trail.backtrack_spec hG.base.inv L hL'.le).1
    unfold Trail.decisionLevel at hL' ⊢
    rw [this, List.length_take]; omega
  have hn : (q.s.t.backtrack L).bools.num = q.s.t.bools.num := numBools_backtrack hG.base.inv hL'.le
  refine ⟨hL', ?_⟩
  show Assigns (q.s.t.backtrack L) ((q.s.learnAll ls).backtrackUip ls L).t
  unfold backtrackUip
  have := propHeads_assigns L ls ((q.s.learnAll ls).cls.length - ls.length) ((q.s.learnAll ls).backtrackTo L)
    (by rw [hb]; exact hbi) (by rw [hb]; exact hbdl) (by
      intro c hc x hx
      rw [hb, hn]
      exact (l1 c hc).1.2 x (List.mem_of_mem_head? hx))
  rw [hb] at this
  exact this

theorem conf_uip {st' : Yaga.Stage} {q : QS} {cs : List Clause} (h1 : CoreQ Q hv hc op S A true st' q)
    (h2 : ∀ c ∈ cs, (∀ l ∈ c, evalLit q.s.t.bools l = some false) ∧
      ∀ F : LinStore, F.Inv → Kept q.la.store F → Ent (TheoryQ Q F) A c) {ls : List Clause} {L : Nat} (h0 : q.s.t.decisionLevel ≠ 0) (hl : Check.Learned q.s cs ls L)
    (hsp : ls.head?.any (isSemanticSplit q.s.t) = false) :
    ∃ st2, st2 ≠ .conflict ∧ CoreQ Q hv hc op S A true st2 (uip q ls L) := by
  obtain ⟨hL', ha⟩ := uip_trail h1 h2 h0 hl
  have hR := LA.Reach.backtrack h1.reach L (by rw [h1.trail]; exact hL')
  obtain ⟨st2, hs2, hr2⟩ := assigns_reach hR (Or.inr rfl) ha (by
    show q.la.trail.backtrack L = _
    rw [h1.trail])
  refine ⟨st2, by rcases hs2 with rfl | rfl <;> simp, rfl, hr2, h1.kept, ?_⟩
  intro F hF hK
  have hGF := h1.good F hF hK
  obtain ⟨k1, k2, -⟩ := learned_spec hGF (fun c hc => ⟨(h2 c hc).1, (h2 c hc).2 _ hF hK⟩) hl
  exact good_uip hGF k1 hL'.le (k2 _ rfl hsp)

/-- The trail after backtracking. -/
theorem learned_trail {st' : Yaga.Stage} {q : QS} {cs : List Clause} (h1 : CoreQ Q hv hc op S A true st' q)
    (h2 : ∀ c ∈ cs, (∀ l ∈ c, evalLit q.s.t.bools l = some false) ∧
      ∀ F : LinStore, F.Inv → Kept q.la.store F → Ent (TheoryQ Q F) A c) {ls : List Clause} {lvl : Int}
    (hl : Check.Learned q.s cs ls lvl) : (q.s.learnAll ls).t = q.s.t := by
  obtain ⟨w, hg⟩ := h1.reach.good
  have hI := hg.keep.base.inv
  have hG := h1.good _ hI (Kept.refl _)
  exact (good_learnAll hG (learned_spec hG (fun c hc => ⟨(h2 c hc).1, (h2 c hc).2 _ hI (Kept.refl _)⟩) hl).1).2.1

theorem conf_split {st' : Yaga.Stage} {q : QS} {cs : List Clause} (h1 : CoreQ Q hv hc op S A true st' q)
    (h2 : ∀ c ∈ cs, (∀ l ∈ c, evalLit q.s.t.bools l = some false) ∧
      ∀ F : LinStore, F.Inv → Kept q.la.store F → Ent (TheoryQ Q F) A c) {ls : List Clause} {L : Nat} {c0 : Clause} {x : Lit} (h0 : q.s.t.decisionLevel ≠ 0)
    (hl : Check.Learned q.s cs ls L) (hc0 : ls.head? = some c0) (hx : x ∈ topLits q.s.t c0)
    (hu : (q.s.t.backtrack L).level x.var = none) :
    CoreQ Q hv hc op S A true .changed (split q ls L x) := by
  obtain ⟨w, hg⟩ := h1.reach.good
  have hI := hg.keep.base.inv
  have hG := h1.good _ hI (Kept.refl _)
  have hL := learned_below hG.base.inv hG.rok (fun c hc => (h2 c hc).1) h0 hl
  have hL' : L < q.s.t.decisionLevel := by omega
  obtain ⟨l1, l2, l3⟩ := learned_spec hG (fun c hc => ⟨(h2 c hc).1, (h2 c hc).2 _ hI (Kept.refl _)⟩) hl
  obtain ⟨g1, e, g3, _⟩ := good_learnAll hG l1
  have hb : ((q.s.learnAll ls).backtrackTo L).t = q.s.t.backtrack L := by
    show (q.s.learnAll ls).t.backtrack L = _
    rw [e]
  have hn : (q.s.t.backtrack L).bools.num = q.s.t.bools.num := numBools_backtrack hG.base.inv hL'.le
  have hxr : x.ord < q.s.t.bools.num :=
    (l1 c0 (List.mem_of_mem_head? hc0)).1.2 x (topLits_mem hx)
  have hR := LA.Reach.split h1.reach L (by rw [h1.trail]; exact hL')
    (fun v => (h1.reach.late trivial).listed hg.keep.base.tinv) x.ord (!x.isNeg)
    (by rw [h1.trail]; exact hxr) (by
      show (q.la.trail.backtrack L).level _ = none
      rw [h1.trail]; exact hu)
  refine ⟨rfl, ?_, h1.kept, ?_⟩
  · have e2 : withTrail q.la.onBeforeBacktrack
        (((q.s.learnAll ls).backtrackTo L).decideOther x.var (.b (!x.isNeg))).t =
        (q.la.backtrack L).decideBool x.ord (!x.isNeg) := by
      show withTrail _ (((((q.s.learnAll ls).backtrackTo L).t).decide x.var).setValue x.var (.b (!x.isNeg))) = _
      rw [hb, ← h1.trail]; rfl
    show LA.Reach hv hc op True (withTrail q.la.onBeforeBacktrack
        (((q.s.learnAll ls).backtrackTo L).decideOther x.var (.b (!x.isNeg))).t) _
    rw [e2]; exact hR
  · intro F hF hK
    have hGF := h1.good F hF hK
    obtain ⟨k1, k2, -⟩ := learned_spec hGF (fun c hc => ⟨(h2 c hc).1, (h2 c hc).2 _ hF hK⟩) hl
    refine good_decideOther (good_backtrackTo (good_learnAll hGF k1).1 (by rw [e]; exact hL'.le)) ?_
    rw [hb]
    refine ⟨?_, hu, rfl⟩
    show x.ord < (q.s.t.backtrack L).bools.num
    rw [hn]; exact hxr

theorem core_decideBool {q : QS} {la0 : LA Nat} {n : Nat} (h1 : CoreQ Q hv hc op S A true .settled q)
    (hpk : Queried q.la la0) (g1 : n < q.la.trail.bools.num) (g2 : q.la.trail.level (.bool n) = none) :
    CoreQ Q hv hc op S A true .changed ⟨q.s.decide (.bool n), withTrail la0 (q.s.decide (.bool n)).t⟩ := by
  rw [h1.trail] at g1 g2
  replace h1 := core_queried h1 hpk
  obtain ⟨b, e⟩ := decide_eq_decideOther q.s n
  rw [e]
  refine ⟨rfl, ?_, h1.kept, fun F hF hK => good_decideOther (h1.good F hF hK) ⟨g1, g2, rfl⟩⟩
  have := LA.Reach.decideBool h1.reach n b (by rw [h1.trail]; exact g1) (by rw [h1.trail]; exact g2)
  have e2 : withTrail la0 (q.s.decideOther (.bool n) (.b b)).t = la0.decideBool n b := by
    show withTrail _ ((q.s.t.decide (.bool n)).setValue (.bool n) (.b b)) = _
    rw [← h1.trail]; rfl
  show LA.Reach hv hc op True (withTrail la0 (q.s.decideOther (.bool n) (.b b)).t) _
  rw [e2]; exact this

theorem core_decideRat {q : QS} {la0 la : LA Nat} {n fuel : Nat} (h1 : CoreQ Q hv hc op S A true .settled q)
    (hpk : Queried q.la la0) (g1 : n < q.la.trail.rats.num) (g2 : q.la.trail.level (.rat n) = none)
    (hd : la0.decide fuel n = some la) :
    CoreQ Q hv hc op S A true .decided ⟨{ q.s with t := la.trail }, la⟩ := by
  rw [h1.trail] at g1 g2
  replace h1 := core_queried h1 hpk
  obtain ⟨w, hg⟩ := h1.reach.good
  have hx : n < la0.trail.rats.num := by rw [h1.trail]; exact g1
  have hu : la0.level n = none := by
    show la0.trail.level ⟨.rational, n⟩ = none
    rw [h1.trail]; exact g2
  have hw := hg.normal (by rintro ⟨⟩)
  subst hw
  obtain ⟨_, _, _, e3, v, e4⟩ := LA.Keep.decide hg.keep (by
    rintro o (⟨h1, _⟩ | ⟨_, h2⟩ | h1)
    · omega
    · rw [hg.settled rfl] at h2; cases h2
    · exact absurd h1 LA.not_fresh) (fun k o => LA.not_fresh) hx hu hd
  refine ⟨rfl, LA.Reach.decideRat h1.reach n fuel hx hu hd, ?_, ?_⟩
  · show Kept S la.store
    rw [e3]; exact h1.kept
  · intro F hF hK
    have hK' : Kept la0.store F := by rw [← e3]; exact hK
    have := good_decideOther (h1.good F hF hK') (v := .rat n) (x := .q v) ⟨g1, g2, rfl⟩
    have e5 : ({ q.s with t := la.trail } : BS) = q.s.decideOther (.rat n) (.q v) := by
      show _ = ({ q.s with t := _ } : BS)
      rw [e4, h1.trail]
    show Check.Good (TheoryQ Q F) A true { q.s with t := la.trail }
    rw [e5]; exact this

theorem core_iter {st : Yaga.Stage} {c : QC O} {out : Out O} (h : CoreQ Q hv hc op S A b st c.q)
    (hs : st ≠ .conflict) (hP : PicksFree hv hc op W c) (hi : Iter hv hc op W c out) :
    (out = .unsat → ∃ q st', CoreQ Q hv hc op S A true st' q ∧ UnsatIn (TheoryQ Q q.la.store) A) ∧
    (∀ q, out = .sat q → CoreQ Q hv hc op S A true .settled q) ∧
    ∀ c', out = .run c' → ∃ b' st', st' ≠ .conflict ∧ CoreQ Q hv hc op S A b' st' c'.q := by
  cases hi with
  | @unsatZero cs q hp hne h0 =>
    obtain ⟨st', h1, _, h2⟩ := core_prop hp h hs
    exact ⟨fun _ => ⟨q, st', h1, conf_zero h1 h2 hne h0⟩, by simp, by simp⟩
  | @unsatEmpty cs q learned lvl hp hne h0 ha hem =>
    obtain ⟨st', h1, _, h2⟩ := core_prop hp h hs
    exact ⟨fun _ => ⟨q, st', h1, conf_empty h1 h2 ha hem⟩, by simp, by simp⟩
  | @restart cs q ls lvl o hp hne h0 hl he =>
    refine ⟨by simp, by simp, ?_⟩
    rintro c' h'
    cases h'
    obtain ⟨st', h1, _, h2⟩ := core_prop hp h hs
    exact ⟨false, .changed, by simp, conf_restart h1 h2 hl c.old⟩
  | @uip cs q ls L o hp hne h0 hl he hsp =>
    refine ⟨by simp, by simp, ?_⟩
    rintro c' h'
    cases h'
    obtain ⟨st', h1, _, h2⟩ := core_prop hp h hs
    exact ⟨true, conf_uip h1 h2 h0 hl hsp⟩
  | @split cs q ls L o c0 x hp hne h0 hl he hc0 hsp hx hu =>
    refine ⟨by simp, by simp, ?_⟩
    rintro c' h'
    cases h'
    obtain ⟨st', h1, _, h2⟩ := core_prop hp h hs
    exact ⟨true, .changed, by simp, conf_split h1 h2 h0 hl hc0 hx hu⟩
  | @sat q o la0 hp hpk =>
    refine ⟨by simp, ?_, by simp⟩
    intro q' e
    cases e
    obtain ⟨st', h1, h3, _⟩ := core_prop hp h hs
    rw [h3 rfl] at h1
    exact core_queried h1 (W.queried hpk)
  | @decideBool q o la0 n hp hpk =>
    refine ⟨by simp, by simp, ?_⟩
    rintro c' h'
    cases h'
    obtain ⟨st', h1, h3, _⟩ := core_prop hp h hs
    rw [h3 rfl] at h1
    obtain ⟨g1, g2⟩ := hP _ _ _ _ hp hpk
    exact ⟨true, .changed, by simp, core_decideBool h1 (W.queried hpk) g1 g2⟩
  | @decideRat q o la0 n fuel la hp hpk hd =>
    refine ⟨by simp, by simp, ?_⟩
    rintro c' h'
    cases h'
    obtain ⟨st', h1, h3, _⟩ := core_prop hp h hs
    rw [h3 rfl] at h1
    obtain ⟨g1, g2⟩ := hP _ _ _ _ hp hpk
    exact ⟨true, .decided, by simp, core_decideRat h1 (W.queried hpk) g1 g2 hd⟩

end Qf
end Yaga
