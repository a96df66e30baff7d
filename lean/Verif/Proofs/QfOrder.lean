/-
The solver for QF_LRA with `Generalized_vsids`: invariant of the loop for the variable order.
-/
import Verif.Model.QfOrder
import Verif.Proofs.QfDerived
import Verif.Proofs.LraDomain
import Verif.Props.C12

set_option linter.unusedSectionVars false
set_option linter.unusedVariables false

namespace Yaga
open LinStore (Kept)
open Spec

namespace GVsids
variable {S : Type} [LinearOrder S] [ScoreOps S]

theorem popEff_ok : ∀ (n : Nat) (q : PQ S) (la : LA Nat), q.Ok → q.size ≤ n →
    (popEff n q la).1.Ok ∧ (∀ v, (popEff n q la).1.contains v = true → q.contains v = true) ∧
    (0 < (popEff n q la).1.size → la.trail.level (popEff n q la).1.top = none)
  | 0, q, la, h, hn => by
    refine ⟨h, fun _ h => h, fun hs => ?_⟩
    simp only [popEff] at hs; omega
  | n + 1, q, la, h, hn => by
    have ht : (la.effectivelyDecided q.top.ord).1.trail = la.trail := (Queried.refl.ask _).frame.1
    simp only [popEff]
    by_cases hs : 0 < q.size
    · obtain ⟨p1, p2⟩ := PQ.pop_ok h hs
      have hsz : q.pop.size ≤ n := by rw [PQ.pop_size]; omega
      rw [if_pos hs]
      by_cases ha : (la.trail.level q.top).isSome = true
      · rw [if_pos ha]
        obtain ⟨k1, k2, k3⟩ := popEff_ok n q.pop la p1 hsz
        exact ⟨k1, fun v hv => ((p2 v).1 (k2 v hv)).2, k3⟩
      · rw [if_neg ha]
        by_cases hd : (la.effectivelyDecided q.top.ord).2 = true
        · rw [if_pos hd]
          exact ⟨h, fun _ h => h, fun _ => Option.not_isSome_iff_eq_none.1 ha⟩
        · rw [if_neg hd]
          obtain ⟨k1, k2, k3⟩ := popEff_ok n q.pop (la.effectivelyDecided q.top.ord).1 p1 hsz
          rw [ht] at k3
          exact ⟨k1, fun v hv => ((p2 v).1 (k2 v hv)).2, k3⟩
    · rw [if_neg hs]
      exact ⟨h, fun _ h => h, fun h => absurd h hs⟩

theorem pickLa_ok {g : GVsids S} {la : LA Nat} {L : Var → Prop} (h : GInv g la.trail L)
    (hE : ∀ i ∈ la.decided, i < la.trail.rats.num) {g' : GVsids S} {r : Option Var} {la' : LA Nat}
    (hp : g.pickLa la = some (g', r, la')) :
    GInv g' la.trail L ∧ (∀ v, r = some v → inRange la.trail v ∧ la.trail.level v = none) ∧
      (r = none → ∀ v, inRange la.trail v → la.trail.level v ≠ none ∨ L v) := by
  unfold pickLa at hp
  rw [Option.map_eq_some_iff] at hp
  obtain ⟨g1, hg1, hp⟩ := hp
  obtain ⟨q1, n1, v1⟩ := pushEff_ok la.decided h.q (by rw [h.num]; exact hE) hg1
  obtain ⟨e1, e2, e4⟩ := popEff_ok g1.eff.size g1.eff la.takeDecided q1.eff (le_refl _)
  have ht : (popEff g1.eff.size g1.eff la.takeDecided).2.trail = la.trail :=
    (popEff_queried la _ _ _ Queried.refl.take).frame.1
  simp only at hp
  rw [ht] at hp
  obtain ⟨p1, p2, p3, p4⟩ := popWhile_ok (fun v => (la.trail.level v).isSome) g1.vars.size
    g1.vars q1.vars (le_refl _)
  set eff := (popEff g1.eff.size g1.eff la.takeDecided).1 with heff
  set vars := GVsids.popWhile (fun v => (la.trail.level v).isSome) g1.vars.size g1.vars with hvars
  have n2 : g1.num = la.trail.numVars := n1.trans h.num
  split at hp
  · rename_i hs
    simp only [Prod.mk.injEq] at hp
    obtain ⟨rfl, rfl, -⟩ := hp
    refine ⟨⟨h.trail, ⟨q1.vars, e1, q1.varsRange, fun v hv => q1.effRange v (e2 v hv)⟩, n2, ?_⟩, ?_, ?_⟩
    · intro v hv
      show _ ∨ g1.vars.contains v = true ∨ _
      rw [v1]; exact h.cover v hv
    · rintro v hv
      cases hv
      refine ⟨?_, e4 hs⟩
      have := q1.effRange _ (e2 _ (PQ.contains_top e1 hs))
      rw [n2] at this; exact this
    · intro h; cases h
  · simp only [Prod.mk.injEq] at hp
    obtain ⟨rfl, rfl, -⟩ := hp
    refine ⟨⟨h.trail, ⟨p1, e1, fun v hv => q1.varsRange v (p2 v hv),
      fun v hv => q1.effRange v (e2 v hv)⟩, n2, ?_⟩, ?_, ?_⟩
    · intro v hv
      rcases h.cover v hv with hc | hc | hc
      · exact Or.inl hc
      · rw [← v1] at hc
        rcases p3 v hc with hc | hc
        · exact Or.inr (Or.inl hc)
        · left
          simpa [Option.isSome_iff_ne_none] using hc
      · exact Or.inr (Or.inr hc)
    · intro v hv
      split at hv
      · rename_i hs
        cases hv
        refine ⟨?_, ?_⟩
        · have := q1.varsRange _ (p2 _ (PQ.contains_top p1 hs))
          rw [n2] at this; exact this
        · have := p4 hs
          exact Option.not_isSome_iff_eq_none.1 (by simp [this])
      · cases hv
    · intro hr v hv
      split at hr
      · cases hr
      · rename_i hs
        rcases h.cover v hv with hc | hc | hc
        · exact Or.inl hc
        · rw [← v1] at hc
          rcases p3 v hc with hc | hc
          · exact absurd (PQ.contains_size p1 hc) hs
          · left
            simpa [Option.isSome_iff_ne_none] using hc
        · exact Or.inr hc

/-- State of the order that does not know the latest Boolean variables. -/
structure GHead (g : GVsids S) (t : Trail Nat) (L : Var → Prop) : Prop where
  q : g.QInv
  bools : g.num .boolean ≤ t.bools.num
  rats : g.num .rational = t.rats.num
  cover : ∀ v : Var, v.ord < g.num v.type → t.level v ≠ none ∨ g.vars.contains v = true ∨ L v

theorem GHead.of {g : GVsids S} {t t' : Trail Nat} {L : Var → Prop} (h : GInv g t L) (hl : Qf.Later t t') :
    GHead g t' L where
  q := h.q
  bools := by rw [h.num]; exact hl.bools
  rats := by rw [h.num]; exact hl.rats.symm
  cover v hv := by
    rw [h.num] at hv
    rcases h.cover v hv with h1 | h1
    · left
      obtain ⟨k, hk⟩ := Option.ne_none_iff_exists'.1 h1
      rw [hl.old v k hk]; simp
    · exact Or.inr h1

theorem GHead.later {g : GVsids S} {t t' : Trail Nat} {L : Var → Prop} (h : GHead g t L) (hl : Qf.Later t t') :
    GHead g t' L where
  q := h.q
  bools := h.bools.trans hl.bools
  rats := h.rats.trans hl.rats.symm
  cover v hv := by
    rcases h.cover v hv with h1 | h1
    · left
      obtain ⟨k, hk⟩ := Option.ne_none_iff_exists'.1 h1
      rw [hl.old v k hk]; simp
    · exact Or.inr h1

theorem GHead.sync {g : GVsids S} {t : Trail Nat} {L : Var → Prop} (h : GHead g t L) (ht : t.Inv) :
    GInv (g.sync t) t L := by
  obtain ⟨k1, k2⟩ := resize_ok h.q .boolean t.bools.num h.bools
  refine ⟨ht, k1, ?_, ?_⟩
  · funext ty
    cases ty
    · simp [GVsids.sync, resize, Trail.numVars]
    · simpa [GVsids.sync, resize, Trail.numVars] using h.rats
  · intro v hv
    unfold GVsids.sync
    rw [k2]
    by_cases hlt : v.ord < g.num v.type
    · rcases h.cover v hlt with h1 | h1 | h1
      · exact Or.inl h1
      · exact Or.inr (Or.inl (Or.inl h1))
      · exact Or.inr (Or.inr h1)
    · refine Or.inr (Or.inl (Or.inr ?_))
      obtain ⟨ty, n⟩ := v
      cases ty
      · exact ⟨rfl, by simpa using hlt, hv⟩
      · exfalso
        apply hlt
        show n < g.num .rational
        rw [h.rats]; exact hv

theorem Bumped.same {cvars : Nat → List Nat} {g g' : GVsids S} (h : g.QInv) (hb : Bumped cvars g g') : Same g g' := by
  induction hb with
  | refl => exact .refl h
  | resolved _ c ih => exact ih.trans (onResolved_same cvars ih.inv c)
  | learned _ c ih => exact ih.trans (onLearned_same cvars ih.inv c)

theorem Same.ginv {g g' : GVsids S} {t : Trail Nat} {L : Var → Prop} (hs : Same g g') (h : GInv g t L) :
    GInv g' t L :=
  ⟨h.trail, hs.inv, hs.num.trans h.num, fun v hv => by rw [hs.mem]; exact h.cover v hv⟩

/-- Variables that lose their value are put into the queue. -/
theorem ghead_backtrack {g : GVsids S} {t t' : Trail Nat} {L L' : Var → Prop} (h : GInv g t L) {n : Nat}
    (hL : ∀ v, L v → L' v) (hlow : ∀ v k, t.level v = some k → k ≤ n → t'.level v ≠ none ∨ L' v)
    (hb : t.bools.num ≤ t'.bools.num) (hr : t'.rats.num = t.rats.num) : GHead (g.onBeforeBacktrack t n) t' L' := by
  obtain ⟨k1, k2, k3, k4⟩ := onBeforeBacktrack_ok h.q h.trail h.num n
  refine ⟨k1, by rw [k2, h.num]; exact hb, by rw [k2, h.num]; exact hr.symm, ?_⟩
  intro v hv
  rw [k2, h.num] at hv
  rcases h.cover v hv with h1 | h1 | h1
  · obtain ⟨k, hk⟩ := Option.ne_none_iff_exists'.1 h1
    rcases Nat.lt_or_ge n k with hlt | hge
    · exact Or.inr (Or.inl (k4 v k hk hlt))
    · rcases hlow v k hk hge with h2 | h2
      · exact Or.inl h2
      · exact Or.inr (Or.inr h2)
  · exact Or.inr (Or.inl (k3 v h1))
  · exact Or.inr (Or.inr (hL v h1))

theorem Declared.inv {g : GVsids S} (h : g.Declared) :
    g.QInv ∧ ∀ v : Var, v.ord < g.num v.type → g.vars.contains v = true := by
  induction h with
  | new =>
    refine ⟨⟨PQ.empty_ok _, PQ.empty_ok _, ?_, ?_⟩, ?_⟩
    · intro v hv; cases hv
    · intro v hv; cases hv
    · intro v hv; exact absurd hv (Nat.not_lt_zero _)
  | @resize g _ ty n hn ih =>
    obtain ⟨k1, k2⟩ := resize_ok ih.1 ty n hn
    refine ⟨k1, fun v hv => ?_⟩
    rw [k2]
    by_cases hlt : v.ord < g.num v.type
    · exact Or.inl (ih.2 v hlt)
    · right
      have hv' : v.ord < (Function.update g.num ty n) v.type := hv
      rw [Function.update_apply] at hv'
      split at hv'
      · rename_i e; rw [e] at hlt; exact ⟨e, by omega, hv'⟩
      · exact absurd hv' hlt

end GVsids

namespace Qf
open BS Check GVsids

variable {hv : Nat → Nat} {hc : ℚ → Nat} {op : LaOpts} {S0 : LinStore} {A : List Clause}
  {b : Bool} {Th : Assignment → Prop} {Q : (Nat → ℚ) → Prop} {S : Type} [LinearOrder S] [ScoreOps S]

/-- Variables of derived literals. -/
def DerivedVar (cs : List Clause) (v : Var) : Prop := ∃ l : Lit, l.var = v ∧ Derived cs l

/-- Invariant of the loop for the variable order. -/
structure OHead (q : QS) (o : GVsids S) : Prop where
  nodup : LearnedNodup q.s
  head : ∃ cs, Covers cs q.s.cls ∧ GHead o q.s.t (DerivedVar cs)

/-- The order when it is called after a propagation. -/
structure OProp (q : QS) (o : GVsids S) : Prop where
  nodup : LearnedNodup q.s
  inv : ∃ ds, Covers ds q.s.cls ∧ GInv (o.sync q.la.trail) q.la.trail (DerivedVar ds)

/-- After a propagation. -/
theorem OHead.prop {q0 q : QS} {o : GVsids S} {st : Yaga.Stage} (h : OHead q0 o) (h1 : Moves q0.s q.s)
    (h2 : Later q0.s.t q.s.t) (g1 : CoreQ Q hv hc op S0 A b st q) : OProp q o := by
  obtain ⟨ds, d1, d2⟩ := h.head
  obtain ⟨w, hg⟩ := g1.reach.good
  refine ⟨h1.nodup h.nodup, ds, d1.trans h1.covers, ?_⟩
  refine (d2.later ?_).sync hg.keep.base.tinv
  rw [g1.trail]; exact h2

/-- `Generalized_vsids` picks declared variables without a value, and all of them. -/
theorem OProp.picks {q : QS} {o o' : GVsids S} {st : Yaga.Stage} (h : OProp q o) (g1 : CoreQ Q hv hc op S0 A b st q)
    (hcomp : BoolOk A .complete q.s) {v : Option Var} {la' : LA Nat} (hpk : (gvOrder S).pick o q.la v o' la') :
    (∀ x, v = some x → inRange q.la.trail x ∧ q.la.trail.level x = none) ∧
    (v = none → ∀ x, inRange q.la.trail x → q.la.trail.level x ≠ none) := by
  obtain ⟨ds, d1, d2⟩ := h.inv
  obtain ⟨-, e1, e2⟩ := pickLa_ok d2 g1.reach.decidedDom hpk
  refine ⟨e1, fun hn x hx => (e2 hn x hx).elim id ?_⟩
  rintro ⟨l, rfl, hl⟩
  have ht := derived_true hcomp d1 hl
  rw [g1.trail]
  obtain ⟨k, hk⟩ := (evalLit_isSome hcomp.stage.1 l).1 ⟨_, ht⟩
  rw [hk]; simp

theorem assigns_later {t t' : Trail Nat} (h : Assigns t t') : Later t t' := by
  induction h with
  | refl => exact .refl _
  | @step t1 l r h hn hu ih =>
    refine ih.trans ⟨?_, le_refl _, rfl⟩
    intro v k hk
    have hne : v ≠ l.var := by rintro rfl; rw [hu] at hk; cases hk
    rw [Trail.level_setValue]
    simp only [Trail.propagate, Function.update_of_ne hne]
    exact hk

theorem decide_later (t : Trail Nat) {v : Var} (hu : t.level v = none) (x : Val) :
    Later t ((t.decide v).setValue v x) := by
  refine ⟨?_, ?_, ?_⟩
  · intro w k hk
    have hne : w ≠ v := by rintro rfl; rw [hu] at hk; cases hk
    rw [Trail.level_setValue]
    simp only [Trail.decide, Function.update_of_ne hne]
    exact hk
  · exact le_of_eq (congrFun (Trail.numVars_setValue (t.decide v) v x) .boolean).symm
  · exact congrFun (Trail.numVars_setValue (t.decide v) v x) .rational

theorem backtrack_keeps {t : Trail Nat} (hi : t.Inv) {L : Nat} (hL : L ≤ t.decisionLevel) {v : Var} {k : Nat}
    (h : t.level v = some k) (hk : k ≤ L) : (t.backtrack L).level v = some k := by
  obtain ⟨-, -, h3, -, -⟩ := Trail.backtrack_spec hi L hL
  rw [(h3 v (fun l hl => by rw [h] at hl; cases hl; exact hk)).1, h]

theorem propHeads_cls (L : Nat) : ∀ (cs : List Clause) (r : Nat) (s : BS),
    (propHeads L cs r s).cls = s.cls ∧ (propHeads L cs r s).na = s.na
  | [], _, _ => ⟨rfl, rfl⟩
  | [] :: cs, r, s => propHeads_cls L cs (r + 1) s
  | (x :: _) :: cs, r, s => by
    unfold propHeads
    obtain ⟨h1, h2⟩ := propHeads_cls L cs (r + 1) (if s.t.bools.defined x.ord then s else s.assignLit x (some r) L)
    rw [h1, h2]
    split <;> exact ⟨rfl, rfl⟩

/-- A restart. -/
theorem OProp.restart {q : QS} {o o' : GVsids S} {st : Yaga.Stage} (h : OProp q o) (h1 : CoreQ Q hv hc op S0 A true st q)
    (hB' : BoolOk A .conflict q.s) {cs : List Clause} (h2 : Confl Q A q cs) {ls : List Clause} {lvl : Int} (hl : Learned q.s cs ls lvl)
    (he : (gvOrder S).events o q.la none o') (old : Nat) : OHead (Qf.restart q ls old) o' := by
  obtain ⟨hn, ds, d1, d2⟩ := h
  obtain ⟨w, hg⟩ := h1.reach.good
  have hI := hg.keep.base.inv
  have hG := h1.good _ hI (Kept.refl _)
  obtain ⟨hl1, -, -⟩ := learned_spec hG (fun c hc => ⟨(h2 c hc).1, (h2 c hc).2 _ hI (Kept.refl _)⟩) hl
  obtain ⟨g1, e1, e2, e3⟩ := good_learnAll hG hl1
  have hna : q.s.na ≤ q.s.cls.length := by rw [hB'.asr.na]; exact hB'.asr.le
  have hn' := learnAll_nodup hn (learned_nodup hG.base.inv hG.rok hB'.tight hB'.zero
    (fun c hc => (h2 c hc).1) hl) hna e2 e3
  have hna' : (q.s.learnAll ls).na ≤ (q.s.learnAll ls).cls.length := by
    rw [e3, e2, List.length_append]; omega
  have hcov := restart_covers hn' (fun c hc => by
    obtain ⟨r, hr, rfl⟩ := mem_clause hc
    exact g1.base.db.ne r hr) old
  obtain ⟨g, hbp, rfl⟩ := he
  refine ⟨restart_nodup hn' hna' _, ds ++ q.s.cls, ?_, ?_⟩
  · refine Covers.trans ?_ hcov
    rw [e2]
    intro x hx
    rcases List.mem_append.1 hx with hx | hx
    · obtain ⟨y, hy, hy'⟩ := d1 x hx
      exact ⟨y, List.mem_append_left _ hy, hy'⟩
    · exact ⟨x, List.mem_append_left _ hx, Or.inl (.refl _)⟩
  · refine ghead_backtrack ((Bumped.same d2.q hbp).ginv d2) ?_ ?_ ?_ ?_
    · rintro v ⟨l, e, hl⟩
      exact ⟨l, e, hl.mono fun _ h => List.mem_append_left _ h⟩
    · intro v k hk hk0
      right
      have hk0 : k = 0 := by simpa using hk0
      subst hk0
      obtain ⟨ty, n⟩ := v
      cases ty
      · rw [h1.trail] at hk
        refine ⟨trueLit q.s.t ⟨.boolean, n⟩, trueLit_var rfl, ?_⟩
        exact (derived_zero hG hB'.zero rfl hk).mono fun _ h => List.mem_append_right _ h
      · exfalso
        have := (hg.keep.base.rat_level hk hk).2
        omega
    · show _ ≤ (q.s.learnAll ls).t.bools.num
      rw [e1, h1.trail]
    · show (q.s.learnAll ls).t.rats.num = _
      rw [e1, h1.trail]

/-- A learned clause is propagated. -/
theorem OProp.uip {q : QS} {o o' : GVsids S} {st : Yaga.Stage} (h : OProp q o) (h1 : CoreQ Q hv hc op S0 A true st q)
    (hB' : BoolOk A .conflict q.s) {cs : List Clause} (h2 : Confl Q A q cs) {ls : List Clause} {L : Nat}
    (h0 : q.s.t.decisionLevel ≠ 0) (hl : Learned q.s cs ls L) (he : (gvOrder S).events o q.la (some L) o') :
    OHead (Qf.uip q ls L) o' := by
  obtain ⟨hn, ds, d1, d2⟩ := h
  obtain ⟨w, hg⟩ := h1.reach.good
  have hI := hg.keep.base.inv
  have hG := h1.good _ hI (Kept.refl _)
  obtain ⟨hl1, -, -⟩ := learned_spec hG (fun c hc => ⟨(h2 c hc).1, (h2 c hc).2 _ hI (Kept.refl _)⟩) hl
  obtain ⟨g1, e1, e2, e3⟩ := good_learnAll hG hl1
  have hna : q.s.na ≤ q.s.cls.length := by rw [hB'.asr.na]; exact hB'.asr.le
  have hn' := learnAll_nodup hn (learned_nodup hG.base.inv hG.rok hB'.tight hB'.zero
    (fun c hc => (h2 c hc).1) hl) hna e2 e3
  have hL := learned_below hG.base.inv hG.rok (fun c hc => (h2 c hc).1) h0 hl
  have hL' : L < q.s.t.decisionLevel := by omega
  obtain ⟨g, hbp, rfl⟩ := he
  have hcls : (Qf.uip q ls L).s.cls = q.s.cls ++ ls ∧ (Qf.uip q ls L).s.na = q.s.na := by
    rw [← e2, ← e3]
    exact propHeads_cls L ls _ _
  have hdl : (q.s.t.backtrack L).decisionLevel = L := Trail.decisionLevel_backtrack hG.base.inv L hL'.le
  have hlat : Later (q.s.t.backtrack L) (Qf.uip q ls L).s.t := by
    have := propHeads_assigns L ls ((q.s.learnAll ls).cls.length - ls.length) ((q.s.learnAll ls).backtrackTo L)
      (by show ((q.s.learnAll ls).t.backtrack L).Inv
          rw [e1]; exact Trail.backtrack_inv hG.base.inv L hL'.le)
      (by show ((q.s.learnAll ls).t.backtrack L).decisionLevel = L
          rw [e1]; exact hdl)
      (by
        intro c hc x hx
        show _ < ((q.s.learnAll ls).t.backtrack L).bools.num
        rw [e1, numBools_backtrack hG.base.inv hL'.le]
        exact (hl1 c hc).1.2 x (List.mem_of_mem_head? hx))
    have h3 := assigns_later this
    rw [← e1]; exact h3
  refine ⟨?_, ds, ?_, ?_⟩
  · intro x hx
    refine hn' x ?_
    rw [e2, e3]
    rw [hcls.1, hcls.2] at hx
    exact hx
  · rw [hcls.1]
    intro x hx
    obtain ⟨y, hy, hy'⟩ := d1 x hx
    exact ⟨y, List.mem_append_left _ hy, hy'⟩
  · refine ghead_backtrack ((Bumped.same d2.q hbp).ginv d2) (fun _ h => h) ?_ ?_ ?_
    · intro v k hk hkL
      left
      rw [h1.trail] at hk
      rw [hlat.old v k (backtrack_keeps hG.base.inv hL'.le hk (by simpa using hkL))]
      simp
    · rw [h1.trail, ← numBools_backtrack hG.base.inv hL'.le]; exact hlat.bools
    · rw [h1.trail, ← backtrack_num hG.base.inv hL'.le]; exact hlat.rats

/-- A semantic split. -/
theorem OProp.split {q : QS} {o o' : GVsids S} {st : Yaga.Stage} (h : OProp q o) (h1 : CoreQ Q hv hc op S0 A true st q)
    (hB' : BoolOk A .conflict q.s) {cs : List Clause} (h2 : Confl Q A q cs) {ls : List Clause} {L : Nat}
    (h0 : q.s.t.decisionLevel ≠ 0) (hl : Learned q.s cs ls L) (he : (gvOrder S).events o q.la (some L) o') {x : Lit}
    (hu : (q.s.t.backtrack L).level x.var = none) : OHead (Qf.split q ls L x) o' := by
  obtain ⟨hn, ds, d1, d2⟩ := h
  obtain ⟨w, hg⟩ := h1.reach.good
  have hI := hg.keep.base.inv
  have hG := h1.good _ hI (Kept.refl _)
  obtain ⟨hl1, -, -⟩ := learned_spec hG (fun c hc => ⟨(h2 c hc).1, (h2 c hc).2 _ hI (Kept.refl _)⟩) hl
  obtain ⟨g1, e1, e2, e3⟩ := good_learnAll hG hl1
  have hna : q.s.na ≤ q.s.cls.length := by rw [hB'.asr.na]; exact hB'.asr.le
  have hn' := learnAll_nodup hn (learned_nodup hG.base.inv hG.rok hB'.tight hB'.zero
    (fun c hc => (h2 c hc).1) hl) hna e2 e3
  have hL := learned_below hG.base.inv hG.rok (fun c hc => (h2 c hc).1) h0 hl
  have hL' : L < q.s.t.decisionLevel := by omega
  obtain ⟨g, hbp, rfl⟩ := he
  have hlat : Later (q.s.t.backtrack L) (Qf.split q ls L x).s.t := by
    have := decide_later (q.s.t.backtrack L) hu (.b (!x.isNeg))
    rw [← e1] at this ⊢; exact this
  refine ⟨hn', ds, ?_, ?_⟩
  · show Covers ds (q.s.learnAll ls).cls
    rw [e2]
    intro x hx
    obtain ⟨y, hy, hy'⟩ := d1 x hx
    exact ⟨y, List.mem_append_left _ hy, hy'⟩
  · refine ghead_backtrack ((Bumped.same d2.q hbp).ginv d2) (fun _ h => h) ?_ ?_ ?_
    · intro v k hk hkL
      left
      rw [h1.trail] at hk
      rw [hlat.old v k (backtrack_keeps hG.base.inv hL'.le hk (by simpa using hkL))]
      simp
    · rw [h1.trail, ← numBools_backtrack hG.base.inv hL'.le]; exact hlat.bools
    · rw [h1.trail, ← backtrack_num hG.base.inv hL'.le]; exact hlat.rats

theorem OProp.decideBool {q : QS} {o o' : GVsids S} {st : Yaga.Stage} (h : OProp q o) (h1 : CoreQ Q hv hc op S0 A b st q)
    {n : Nat} {la0 : LA Nat} (hpk : (gvOrder S).pick o q.la (some (.bool n)) o' la0)
    (g2 : q.la.trail.level (.bool n) = none) :
    OHead ⟨q.s.decide (.bool n), withTrail la0 (q.s.decide (.bool n)).t⟩ o' := by
  obtain ⟨hn, ds, d1, d2⟩ := h
  rw [h1.trail] at g2
  obtain ⟨b, e⟩ := decide_eq_decideOther q.s n
  obtain ⟨d3, -, -⟩ := pickLa_ok d2 h1.reach.decidedDom hpk
  rw [h1.trail] at d3
  simp only [e]
  exact ⟨hn, ds, d1, GHead.of d3 (decide_later q.s.t g2 (.b b))⟩

theorem OProp.decideRat {q : QS} {o o' : GVsids S} (h : OProp q o) (h1 : CoreQ Q hv hc op S0 A true .settled q)
    {n fuel : Nat} {la0 la : LA Nat} (hpk : (gvOrder S).pick o q.la (some (.rat n)) o' la0)
    (g1 : n < q.la.trail.rats.num) (g2 : q.la.trail.level (.rat n) = none) (hd : la0.decide fuel n = some la) :
    OHead ⟨{ q.s with t := la.trail }, la⟩ o' := by
  obtain ⟨hn, ds, d1, d2⟩ := h
  obtain ⟨d3, -, -⟩ := pickLa_ok d2 h1.reach.decidedDom hpk
  rw [h1.trail] at d3
  rw [h1.trail] at g1 g2
  replace h1 := core_queried h1 ((gvOrder S).queried hpk)
  obtain ⟨w, hg⟩ := h1.reach.good
  have hx : n < la0.trail.rats.num := by rw [h1.trail]; exact g1
  have hu : la0.level n = none := by
    show la0.trail.level ⟨.rational, n⟩ = none
    rw [h1.trail]; exact g2
  have hw := hg.normal (by rintro ⟨⟩)
  subst hw
  obtain ⟨_, _, _, e3, v, e4⟩ := LA.Keep.decide hg.keep (by
    rintro o (⟨h1, _⟩ | ⟨_, h2⟩ | h1)
    · omega
    · rw [hg.settled rfl] at h2; cases h2
    · exact absurd h1 LA.not_fresh) (fun k o => LA.not_fresh) hx hu hd
  have := decide_later q.s.t g2 (.q v)
  refine ⟨hn, ds, d1, GHead.of d3 ?_⟩
  show Later q.s.t la.trail
  rw [e4, h1.trail]; exact this


/-- Invariant of the order in the loop. -/
abbrev OInv (c : QC (GVsids S)) : Prop := OHead c.q c.o

theorem OHead.qprop {c : QC (GVsids S)} {q : QS} {cs : List Clause} {st : Yaga.Stage} (h : OInv c)
    (hC : Core hv hc op S0 A b st c.q) (hs : st ≠ .conflict) (hp : QProp hv hc op c.q cs q) : OProp q c.o := by
  obtain ⟨h1, h2⟩ := prop_later hp hC hs
  obtain ⟨st', g1, -, -⟩ := core_prop hp hC hs
  exact OHead.prop h h1 h2 g1

theorem OHead.qpicks {c : QC (GVsids S)} {st : Yaga.Stage} (h : OInv c)
    (hC : Core hv hc op S0 A b st c.q) (hs : st ≠ .conflict) (hB : BoolInv A c.q.s) :
    PicksFree hv hc op (gvOrder S) c ∧ PicksAll hv hc op (gvOrder S) c := by
  have key : ∀ q, QProp hv hc op c.q [] q → ∀ v o' la', (gvOrder S).pick c.o q.la v o' la' →
      (∀ x, v = some x → inRange q.la.trail x ∧ q.la.trail.level x = none) ∧
      (v = none → ∀ x, inRange q.la.trail x → q.la.trail.level x ≠ none) := by
    intro q hp v o' la' hpk
    obtain ⟨st', g1, -, -⟩ := core_prop hp hC hs
    exact (OHead.qprop h hC hs hp).picks g1 (by simpa using bool_prop hp hC hs hB) hpk
  exact ⟨fun q v o' la' hp hpk => (key q hp _ _ _ hpk).1 v rfl,
    fun q o' la' hp hpk => (key q hp _ _ _ hpk).2 rfl⟩

theorem OHead.qiter {c c' : QC (GVsids S)} {st : Yaga.Stage} (h : OInv c)
    (hC : Core hv hc op S0 A b st c.q) (hs : st ≠ .conflict) (hB : BoolInv A c.q.s)
    (hi : Iter hv hc op (gvOrder S) c (.run c')) : OInv c' := by
  have hP := (OHead.qpicks h hC hs hB).1
  cases hi with
  | @restart cs q ls lvl o hp hne h0 hl he =>
    obtain ⟨st', h1, _, h2⟩ := core_prop hp hC hs
    have hB' := bool_prop hp hC hs hB
    rw [if_neg hne] at hB'
    exact (OHead.qprop h hC hs hp).restart h1 hB' h2 hl he _
  | @uip cs q ls L o hp hne h0 hl he hsp =>
    obtain ⟨st', h1, _, h2⟩ := core_prop hp hC hs
    have hB' := bool_prop hp hC hs hB
    rw [if_neg hne] at hB'
    exact (OHead.qprop h hC hs hp).uip h1 hB' h2 h0 hl he
  | @split cs q ls L o c0 x hp hne h0 hl he hc0 hsp hx hu =>
    obtain ⟨st', h1, _, h2⟩ := core_prop hp hC hs
    have hB' := bool_prop hp hC hs hB
    rw [if_neg hne] at hB'
    exact (OHead.qprop h hC hs hp).split h1 hB' h2 h0 hl he hu
  | @decideBool q o la0 n hp hpk =>
    obtain ⟨st', h1, h3, _⟩ := core_prop hp hC hs
    obtain ⟨g1, g2⟩ := hP _ _ _ _ hp hpk
    exact (OHead.qprop h hC hs hp).decideBool h1 hpk g2
  | @decideRat q o la0 n fuel la hp hpk hd =>
    obtain ⟨st', h1, h3, _⟩ := core_prop hp hC hs
    rw [h3 rfl] at h1
    obtain ⟨g1, g2⟩ := hP _ _ _ _ hp hpk
    exact (OHead.qprop h hC hs hp).decideRat h1 hpk g1 g2 hd

theorem oInv_start {P : List QAtom} {c : QC (GVsids S)} (h : Start hv hc A P c) (ho : OrderStart A c) : OInv c := by
  obtain ⟨g, h1, h2, h3⟩ := ho
  obtain ⟨i1, i2⟩ := h1.inv
  have hs := onInit_same c.q.la.cvars i1 A
  refine ⟨?_, [], by simp [Covers], ?_⟩
  · intro x hx
    rw [h.cls, h.na] at hx
    simp at hx
  · rw [h3, h.trail]
    refine ⟨hs.inv, ?_, ?_, ?_⟩
    · rw [hs.num, h2]; exact le_refl _
    · rw [hs.num, h2]; rfl
    · intro v hv
      rw [hs.num] at hv
      rw [hs.mem]
      exact Or.inr (Or.inl (i2 v hv))

/-- All reachable states with `Generalized_vsids`. -/
theorem gv_reach {P : List QAtom} {c0 c : QC (GVsids S)} (h : Start hv hc A P c0) (ho : OrderStart A c0)
    (hr : Reach hv hc op (gvOrder S) c0 c) :
    OInv c ∧ ∃ b st, st ≠ .conflict ∧ Core hv hc op c0.q.la.store A b st c.q ∧ BoolInv A c.q.s := by
  induction hr with
  | refl => exact ⟨oInv_start h ho, false, .changed, by simp, (core_start h).1, boolInv_start h⟩
  | step hr hi ih =>
    obtain ⟨hO, b, st, hs, hb, hB⟩ := ih
    have hP := (OHead.qpicks hO hb hs hB).1
    obtain ⟨b', st', hs', hb'⟩ := (core_iter hb hs hP hi).2.2 _ rfl
    exact ⟨OHead.qiter hO hb hs hB hi, b', st', hs', hb', (bool_iter hb hs hB hP hi).2 _ rfl⟩

/-- The assumptions on the variable order hold for `Generalized_vsids`. -/
theorem gv_picks {P : List QAtom} {c0 c : QC (GVsids S)} (h : Start hv hc A P c0) (ho : OrderStart A c0)
    (hr : Reach hv hc op (gvOrder S) c0 c) :
    PicksFree hv hc op (gvOrder S) c ∧ PicksAll hv hc op (gvOrder S) c := by
  obtain ⟨hO, b, st, hs, hb, hB⟩ := gv_reach h ho hr
  exact OHead.qpicks hO hb hs hB

theorem gv_handles (c : QC (GVsids S)) : Handles hv hc op (gvOrder S) c :=
  fun _ _ _ _ _ => ⟨_, _, .refl, rfl⟩

/-- Without propagation of rational variables no assertion of the queues fails. -/
theorem gv_answers {P : List QAtom} {c0 c : QC (GVsids S)} (hop : op.propRational = false)
    (h : Start hv hc A P c0) (ho : OrderStart A c0) (hr : Reach hv hc op (gvOrder S) c0 c) :
    Answers hv hc op (gvOrder S) c := by
  obtain ⟨hO, b, st, hs, hb, hB⟩ := gv_reach h ho hr
  intro q hp
  obtain ⟨st', h1, -, -⟩ := core_prop hp hb hs
  have hd := h1.reach.decided_nil hop
  have : ∃ r, (c.o.sync q.la.trail).pickLa q.la = some r := by
    simp only [pickLa, hd, pushEff]
    exact ⟨_, rfl⟩
  obtain ⟨⟨o', v, la'⟩, hr⟩ := this
  exact ⟨v, o', la', hr⟩

end Qf
end Yaga
