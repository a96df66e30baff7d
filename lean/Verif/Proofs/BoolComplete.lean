/-
Unit propagation misses nothing: invariant over the histories of the check loop.
-/
import Verif.Proofs.BoolHist

set_option linter.unusedSectionVars false
set_option linter.unusedVariables false

namespace Yaga
namespace BS
open Spec

/-- Every false watched literal is fine or in `R`. -/
def Dom (s : BS) (R : Var → Prop) : Prop :=
  ∀ r < s.cls.length, ∀ w ∈ (s.clause r).take 2, evalLit s.t.bools w = some false →
    Fine s.t (s.clause r) w ∨ R w.var

/-- Literals of unit clauses are assigned at level 0. -/
def Units (s : BS) : Prop := ∀ r < s.cls.length, ∀ l, s.clause r = [l] → s.t.level l.var = some 0

/-- Not processed by the Boolean plugin. -/
def Pending (s : BS) (v : Var) : Prop := ∃ a ∈ s.unprocessed, a.var = v

/-- The members used by `Theory::assigned` describe a prefix of the current level. -/
structure Idx (s : BS) : Prop where
  lvl : s.curLevel ≤ s.t.decisionLevel
  idx : s.curLevel = s.t.decisionLevel → s.nextIndex ≤ (s.t.assigned s.t.decisionLevel).length

/-- Invariant of each stage. -/
def StageInv : Stage → BS → Prop
  | .fresh, s => s.t.Inv ∧ s.t.isEmpty = true ∧ DbOk s
  | .ready, s => s.t.Inv ∧ WS s ∧ Dom s (Pending s) ∧ Units s ∧ Idx s
  | .conflict, s => s.t.Inv ∧ WS s ∧ Dom s (InRecent s.t) ∧ (s.t.decisionLevel = 0 ∨ Units s)
  | .complete, s => s.t.Inv ∧ WS s ∧ Dom s (fun _ => False) ∧ Units s ∧ Idx s

theorem pending_recent {s : BS} {v : Var} (h : Pending s v) : InRecent s.t v := by
  obtain ⟨a, ha, e⟩ := h
  simp only [unprocessed, assigned] at ha
  exact ⟨a, List.mem_of_mem_drop ha, e⟩

theorem evalLit_neg_true {m : PModel Bool} {l : Lit} :
    evalLit m l.neg = some true ↔ evalLit m l = some false := by
  rw [evalLit_neg]
  rcases evalLit m l with _ | _ | _ <;> simp

theorem perm_singleton' {c : Clause} {l : Lit} (h : c.Perm [l]) : c = [l] := List.perm_singleton.1 h

/-- Propagation from the stages `ready` and `fresh`. -/
theorem prop_stage {s s' : BS} {c : Option Clause} (hi : s.t.Inv) (hdb : DbOk s)
    (hne : s.t.isEmpty = false → WS s ∧ Dom s (Pending s) ∧ Units s)
    (h : Propagates s c s') : StageInv (if c = none then .complete else .conflict) s' := by
  obtain ⟨s0, a1, a2, a3, a4, a5, a6, a7, hx, b1, b2, b3, b4, b5⟩ :=
    propagates_spec (Q := fun l => evalLit s.t.bools l = some true ∧ ¬ Pending s l.var) hi hdb
      (fun h => (hne h).1) (fun l h => h.1) (by
        intro he r hr w hw hq
        have hf := evalLit_neg_true.1 hq.1
        rcases (hne he).2.1 r hr w hw hf with h1 | h1
        · exact h1
        · exact absurd h1 (by simpa using hq.2)) h
  have hclause : s0.clause = s.clause := by funext r; simp [clause, a1]
  have hdl : s'.t.decisionLevel = s.t.decisionLevel := by rw [hx.dl, a2]
  have hidx : Idx s' := by
    refine ⟨by rw [hx.curLevel, a7, hdl], fun _ => ?_⟩
    rw [hx.nextIndex, a6, hdl, ← a2]
    exact (hx.lists _).length_le
  have hunits : s.t.isEmpty = false → Units s' := by
    intro he r hr l hl
    have hlen : r < s.cls.length := by rw [hx.cls.len, a1] at hr; exact hr
    have hp := hx.cls.perm r
    rw [hl, hclause] at hp
    have := (hne he).2.2 r hlen l (perm_singleton' hp.symm)
    rw [← a2] at this
    exact (hx.old _ _ this).1
  rcases hc : c with _ | c'
  · obtain ⟨Q', q1, q2, q3, q4, q5, q6⟩ := b4 hc
    have hcov : ∀ l, evalLit s'.t.bools l = some true → Q' l := by
      intro l hl
      rcases q4 l hl with h1 | h1
      · by_cases hp : Pending s l.var
        · exact q2 l h1 hp
        · exact q1 l ⟨h1, hp⟩
      · exact h1
    refine ⟨b1, b2, ?_, ?_, hidx⟩
    · intro r hr w hw hf
      exact Or.inl (q6 r hr w hw (hcov _ (evalLit_neg_true.2 hf)))
    · rcases he : s.t.isEmpty with _ | _
      · exact hunits he
      · intro r hr l hl
        have hlen : r < s.cls.length := by rw [hx.cls.len, a1] at hr; exact hr
        have hp := hx.cls.perm r
        rw [hl, hclause] at hp
        have hq := q3 he r l hlen (perm_singleton' hp.symm)
        have ht := q5 l hq
        obtain ⟨k, hk⟩ := (evalLit_isSome b1 l).1 ⟨_, ht⟩
        have hb := b1.bound _ _ hk
        have : s.t.decisionLevel = 0 := by simp [Trail.decisionLevel, isEmpty_levels he]
        rw [hdl, this] at hb
        rw [hk]; congr 1; omega
  · refine ⟨b1, b2, ?_, ?_⟩
    · intro r hr w hw hf
      have ht := evalLit_neg_true.2 hf
      rcases h0 : evalLit s.t.bools w.neg with _ | b
      · -- newly assigned
        right
        have hlev : s0.t.level w.var = none := by
          rw [a2]; simpa using (evalLit_none hi _).1 h0
        obtain ⟨k, hk⟩ := false_level b1 hf
        obtain ⟨-, e, -⟩ := hx.new _ _ hlev hk
        rw [e, ← hx.dl] at hk
        exact mem_assigned_of_level b1 hk
      · have hb : b = true := by
          have := hx.keep w.neg b (by rw [a2]; exact h0)
          rw [ht] at this; cases this; rfl
        subst hb
        by_cases hp : Pending s w.var
        · right
          obtain ⟨a, ha, e⟩ := pending_recent hp
          refine ⟨a, ?_, e⟩
          rw [hdl]
          have := hx.lists s.t.decisionLevel
          rw [a2] at this
          exact this.subset ha
        · exact b3 r hr w hw ⟨h0, by simpa using hp⟩
    · rcases he : s.t.isEmpty with _ | _
      · exact Or.inr (hunits he)
      · left; rw [hdl]; simp [Trail.decisionLevel, isEmpty_levels he]

/-- Changes of the trail by other plugins: values, lists and levels only grow. -/
structure Grow (t t1 : Trail Nat) : Prop where
  inv : t1.Inv
  lists : ∀ i, t.assigned i <+: t1.assigned i
  old : ∀ v k, t.level v = some k → t1.level v = some k
  keep : ∀ m b, evalLit t.bools m = some b → evalLit t1.bools m = some b

theorem Grow.fine {t t1 : Trail Nat} (h : Grow t t1) {c : Clause} {w : Lit} (hf : Fine t c w) :
    Fine t1 c w := by
  obtain ⟨o, h1, h2, lo, lw, h3, h4, h5⟩ := hf
  refine ⟨o, h1, h.keep _ _ h2, lo, lw, h.old _ _ h3, h.old _ _ h4, ?_⟩
  intro b hb1 hb2
  obtain ⟨a, ha, e⟩ := h5 b hb1 hb2
  exact ⟨a, (h.lists b).subset ha, e⟩

theorem grow_propagate {t : Trail Nat} (hi : t.Inv) {v : Var} {r : Option Nat} {lvl : Nat} {x : Val}
    (hp : t.Pre (.propagate v r lvl x)) : Grow t ((t.propagate v r lvl).setValue v x) := by
  obtain ⟨h1, h2, h3, h4⟩ := hp
  refine ⟨Trail.propagate_inv hi v r lvl x h1 h2 h3 h4, fun i => assigned_propagate t v r lvl x i,
    ?_, ?_⟩
  · intro w k hw
    have hne : w ≠ v := by rintro rfl; rw [h2] at hw; cases hw
    simp [Trail.propagate, Function.update_of_ne hne, hw]
  · intro m b hm
    have hne : m.var ≠ v := by
      rintro rfl
      have := (evalLit_none hi m).2 h2
      rw [this] at hm; cases hm
    rw [evalLit_setValue_ne _ _ _ _ hne]; exact hm

theorem grow_decide {t : Trail Nat} (hi : t.Inv) {v : Var} {x : Val}
    (hp : t.Pre (.decide v x)) : Grow t ((t.decide v).setValue v x) := by
  obtain ⟨h1, h2, h3⟩ := hp
  refine ⟨Trail.decide_inv hi v x h1 h2 h3, ?_, ?_, ?_⟩
  · intro i
    simp only [Trail.assigned, Trail.levels_setValue, Trail.decide, List.getD_eq_getElem?_getD]
    rcases Nat.lt_or_ge i t.levels.length with hlt | hge
    · rw [List.getElem?_append_left hlt]
    · rw [List.getElem?_eq_none hge]; simp
  · intro w k hw
    have hne : w ≠ v := by rintro rfl; rw [h2] at hw; cases hw
    simp [Trail.decide, Function.update_of_ne hne, hw]
  · intro m b hm
    have hne : m.var ≠ v := by
      rintro rfl
      have := (evalLit_none hi m).2 h2
      rw [this] at hm; cases hm
    rw [evalLit_setValue_ne _ _ _ _ hne]; exact hm

/-- A literal that became false when `v` got a value is the literal of `v`. -/
theorem new_false_propagate {t : Trail Nat} (hi : t.Inv) {v : Var} {r : Option Nat} {lvl : Nat} {x : Val}
    {m : Lit} (hm : evalLit ((t.propagate v r lvl).setValue v x).bools m = some false) :
    evalLit t.bools m = some false ∨ m.var = v := by
  by_cases e : m.var = v
  · exact Or.inr e
  · left; rw [evalLit_setValue_ne _ _ _ _ e] at hm; exact hm

theorem new_false_decide {t : Trail Nat} (hi : t.Inv) {v : Var} {x : Val}
    {m : Lit} (hm : evalLit ((t.decide v).setValue v x).bools m = some false) :
    evalLit t.bools m = some false ∨ m.var = v := by
  by_cases e : m.var = v
  · exact Or.inr e
  · left; rw [evalLit_setValue_ne _ _ _ _ e] at hm; exact hm

theorem grow_units {s : BS} {t1 : Trail Nat} (h : Units s) (hg : Grow s.t t1) :
    Units { s with t := t1 } := fun r hr l hl => hg.old _ _ (h r hr l hl)

/-- `backtrack` to `L` leaves only pending literals of the new current level. -/
theorem dom_backtrack {s : BS} (hi : s.t.Inv) {L : Nat} (hL : L ≤ s.t.decisionLevel)
    {r : Nat} {c : Clause} {w : Lit} (hf : evalLit (s.t.backtrack L).bools w = some false)
    (hd : Fine s.t c w ∨ InRecent s.t w.var) :
    Fine (s.t.backtrack L) c w ∨ InRecent (s.t.backtrack L) w.var := by
  obtain ⟨h1, h2, h3, h4, h5⟩ := Trail.backtrack_spec hi L hL
  have hib := Trail.backtrack_inv hi L hL
  have hdl := Trail.decisionLevel_backtrack hi L hL
  obtain ⟨k, hk⟩ := false_level hib hf
  have hkL : k ≤ L := by have := hib.bound _ _ hk; omega
  have hk0 : s.t.level w.var = some k := by
    rcases hl : s.t.level w.var with _ | n
    · have := (h3 w.var (by simp [hl])).1; rw [this, hl] at hk; cases hk
    · rcases Nat.lt_or_ge L n with hlt | hge
      · rw [(h2 w.var n hl hlt).1] at hk; cases hk
      · have := (h3 w.var (by intro m hm; rw [hl] at hm; cases hm; exact hge)).1
        rw [this, hl] at hk; exact hk
  have hlist : ∀ b, b ≤ L → (s.t.backtrack L).assigned b = s.t.assigned b := by
    intro b hb
    simp only [Trail.assigned, h1, List.getD_eq_getElem?_getD, List.getElem?_take]
    rw [if_pos (by omega)]
  have hrec : (∃ a ∈ s.t.assigned L, a.var = w.var) → InRecent (s.t.backtrack L) w.var := by
    intro h
    unfold InRecent
    rw [hdl, hlist L (le_refl _)]; exact h
  rcases hd with ⟨o, g1, g2, lo, lw, g3, g4, g5⟩ | ⟨a, ha, e⟩
  · rw [g4] at hk0; cases hk0
    rcases Nat.lt_or_ge L lo with hlt | hge
    · exact Or.inr (hrec (g5 L hkL hlt.le))
    · left
      refine ⟨o, g1, ?_, lo, k, ?_, hk, ?_⟩
      · rw [evalLit_backtrack_low hi hL g3 hge]; exact g2
      · rw [(h3 o.var (by intro m hm; rw [g3] at hm; cases hm; exact hge)).1]; exact g3
      · intro b hb1 hb2
        obtain ⟨a, ha, e⟩ := g5 b hb1 hb2
        exact ⟨a, by rw [hlist b (by omega)]; exact ha, e⟩
  · right
    exact hrec (hi.interval w.var k L s.t.decisionLevel _ _ hk0 hkL hL
      (getElem?_assigned (lt_levels hi (le_refl _))) ⟨a, ha, e⟩
      (getElem?_assigned (lt_levels hi hL)))

/-- Propagation of the heads of learned clauses. -/
theorem propHeads_spec (L : Nat) (cs : List Clause) (r : Nat) (s : BS) (hi : s.t.Inv)
    (hdl : s.t.decisionLevel = L) (hdom : Dom s (InRecent s.t))
    (hr : ∀ c ∈ cs, ∀ x rest, c = x :: rest → x.ord < s.t.bools.num) :
    (propHeads L cs r s).t.Inv ∧ (propHeads L cs r s).t.decisionLevel = L ∧
    (propHeads L cs r s).cls = s.cls ∧ (propHeads L cs r s).watched = s.watched ∧
    (propHeads L cs r s).na = s.na ∧ (propHeads L cs r s).curLevel = s.curLevel ∧
    (propHeads L cs r s).nextIndex = s.nextIndex ∧
    (propHeads L cs r s).t.numVars = s.t.numVars ∧
    (∀ v k, s.t.level v = some k → (propHeads L cs r s).t.level v = some k) ∧
    (∀ v k, s.t.level v = none → (propHeads L cs r s).t.level v = some k → k = L) ∧
    (∀ c ∈ cs, ∀ x rest, c = x :: rest → ∃ k, (propHeads L cs r s).t.level x.var = some k) ∧
    Dom (propHeads L cs r s) (InRecent (propHeads L cs r s).t) := by
  induction cs generalizing r s with
  | nil => exact ⟨hi, hdl, rfl, rfl, rfl, rfl, rfl, rfl, fun _ _ h => h,
      fun v k h1 h2 => (by rw [propHeads, h1] at h2; cases h2), by simp, hdom⟩
  | cons c cs ih =>
    have hr' : ∀ c ∈ cs, ∀ x rest, c = x :: rest → x.ord < s.t.bools.num :=
      fun c hc => hr c (List.mem_cons_of_mem _ hc)
    match c with
    | [] =>
      obtain ⟨h1, h2, h3, h4, h5, h6, h7, h8, h9, h10, h11, h12⟩ := ih (r + 1) s hi hdl hdom hr'
      unfold propHeads
      refine ⟨h1, h2, h3, h4, h5, h6, h7, h8, h9, h10, ?_, h12⟩
      intro c hc x rest e
      rcases List.mem_cons.1 hc with rfl | hc
      · cases e
      · exact h11 c hc x rest e
    | x :: rest =>
      unfold propHeads
      by_cases hd : s.t.bools.defined x.ord = true
      · rw [if_pos hd]
        obtain ⟨h1, h2, h3, h4, h5, h6, h7, h8, h9, h10, h11, h12⟩ := ih (r + 1) s hi hdl hdom hr'
        refine ⟨h1, h2, h3, h4, h5, h6, h7, h8, h9, h10, ?_, h12⟩
        intro c hc x' rest' e
        rcases List.mem_cons.1 hc with rfl | hc
        · cases e
          obtain ⟨k, hk⟩ := (hi.defined x.var).1 hd
          exact ⟨k, h9 _ _ hk⟩
        · exact h11 c hc x' rest' e
      · rw [if_neg hd]
        have hu : evalLit s.t.bools x = none := by simp [evalLit, hd]
        have hst := tstep_propagate (r := r) hi (hr _ (by simp) x rest rfl) hu
        rw [hdl] at hst
        have hdom' : Dom (s.assignLit x (some r) L) (InRecent (s.assignLit x (some r) L).t) := by
          intro i hi' w hw hf
          rcases h0 : evalLit s.t.bools w with _ | b
          · right
            rcases hst.open_ w h0 with h1 | h1 | h1
            · exact absurd (h1.symm.trans hf) (by simp)
            · rw [h1]; exact hst.recent
            · rw [h1, Lit.var_neg]; exact hst.recent
          · have hb : b = false := by
              have := hst.keep w b h0
              have h2 : evalLit (s.assignLit x (some r) L).t.bools w = some b := this
              rw [hf] at h2; cases h2; rfl
            subst hb
            rcases hdom i hi' w hw h0 with h1 | h1
            · exact Or.inl (hst.fine h1)
            · exact Or.inr (hst.inRecent h1)
        have hlx : (s.assignLit x (some r) L).t.level x.var = some L := by
          simp [assignLit, Trail.propagate]
        obtain ⟨h1, h2, h3, h4, h5, h6, h7, h8, h9, h10, h11, h12⟩ := ih (r + 1)
          (s.assignLit x (some r) L) hst.inv (hst.dl.trans hdl) hdom' (by
            intro c hc y rest' e
            have := hr' c hc y rest' e
            have hn := congrFun hst.num .boolean
            simp only [Trail.numVars] at hn
            simp only [assignLit]
            omega)
        refine ⟨h1, h2, h3, h4, h5, h6, h7, h8.trans hst.num, ?_, ?_, ?_, h12⟩
        · intro v k hv; exact h9 v k (hst.old v k hv).1
        · intro v k hv hk
          by_cases e : v = x.var
          · subst e
            rw [h9 _ _ hlx] at hk; cases hk; rfl
          · refine h10 v k ?_ hk
            simp [assignLit, Trail.propagate, Function.update_of_ne e, hv]
        · intro c hc y rest' e
          rcases List.mem_cons.1 hc with rfl | hc
          · cases e; exact ⟨L, h9 _ _ hlx⟩
          · exact h11 c hc y rest' e

/-- A decision. -/
theorem stage_decide {s : BS} {v : Var} {x : Val} (ih : StageInv .complete s)
    (hp : s.t.Pre (.decide v x)) : StageInv .ready (s.decideOther v x) := by
  obtain ⟨h1, h2, h3, h4, h5⟩ := ih
  have hg := grow_decide h1 hp
  have hlen := h1.length_pos
  have hdl : (s.decideOther v x).t.decisionLevel = s.t.decisionLevel + 1 := by
    simp [decideOther, Trail.decisionLevel, Trail.decide]; omega
  have hlv : (s.decideOther v x).t.level v = some (s.t.decisionLevel + 1) := by
    simp only [decideOther, Trail.level_setValue, Trail.decide, Function.update_self,
      Trail.decisionLevel]
    congr 1; omega
  have hne : ((s.decideOther v x).t.decisionLevel : Int) ≠ (s.decideOther v x).curLevel := by
    rw [hdl]
    have := h5.lvl
    show ((s.t.decisionLevel + 1 : Nat) : Int) ≠ s.curLevel
    omega
  refine ⟨hg.inv, ws_congr h2 rfl rfl (numBools_setValue _ _ _), ?_, grow_units h4 hg, ?_⟩
  · intro r hr w hw hf
    rcases new_false_decide h1 hf with h0 | h0
    · exact Or.inl (hg.fine ((h3 r hr w hw h0).resolve_right id))
    · right
      obtain ⟨a, ha, e⟩ := mem_assigned_of_level hg.inv hlv
      refine ⟨a, ?_, e.trans h0.symm⟩
      simp only [unprocessed, assigned]
      rw [if_neg hne, List.drop_zero, hdl]
      exact ha
  · refine ⟨?_, fun h => absurd h.symm hne⟩
    rw [hdl]
    have := h5.lvl
    show s.curLevel ≤ _
    omega

/-- Learning asserting clauses and backtracking. -/
theorem stage_jump {s : BS} {cs : List Clause} {L : Nat} (ih : StageInv .conflict s)
    (hL : L < s.t.decisionLevel) (hcs : ∀ c ∈ cs, ClauseOk s c ∧ Asserting s L c) :
    StageInv .ready ((s.learnAll cs).backtrackUip cs L) := by
  obtain ⟨h1, h2, h3, h4⟩ := ih
  have h4 : Units s := h4.resolve_left (by omega)
  obtain ⟨g1, g2, g3, -⟩ := learnAll_ws h2 (fun c hc => (hcs c hc).1)
  generalize hs1 : s.learnAll cs = s1 at *
  have hL1 : L ≤ s1.t.decisionLevel := by rw [g3]; omega
  have hi1 : s1.t.Inv := by rw [g3]; exact h1
  have hold : ∀ r < s.cls.length, s1.clause r = s.clause r := fun r hr => clause_append_lt g2 hr
  have hnew : ∀ r, r < s1.cls.length → ¬ r < s.cls.length → s1.clause r ∈ cs := by
    intro r hr hge
    rw [g2, List.length_append] at hr
    have hlt : r - s.cls.length < cs.length := by omega
    have : s1.clause r = cs[r - s.cls.length] := by
      simp [clause, List.getD_eq_getElem?_getD, g2,
        List.getElem?_append_right (show s.cls.length ≤ r by omega),
        List.getElem?_eq_getElem hlt]
    rw [this]; exact List.getElem_mem hlt
  obtain ⟨b1, b2, b3, b4, b5⟩ := Trail.backtrack_spec hi1 L hL1
  have hib := Trail.backtrack_inv hi1 L hL1
  have hdlb := Trail.decisionLevel_backtrack hi1 L hL1
  have hgone : ∀ c ∈ cs, ∀ x rest, c = x :: rest → (s1.t.backtrack L).level x.var = none := by
    intro c hc x rest e
    obtain ⟨x', rest', e', ⟨k, hk, hkL⟩, -⟩ := (hcs c hc).2
    rw [e] at e'; cases e'
    rw [← g3] at hk
    exact (b2 _ _ hk hkL).1
  have hdomb : Dom (s1.backtrackTo L) (InRecent (s1.backtrackTo L).t) := by
    intro r hr w hw hf
    by_cases hlt : r < s.cls.length
    · refine dom_backtrack (r := r) hi1 hL1 hf ?_
      have hw' : w ∈ (s.clause r).take 2 := by rw [← hold r hlt]; exact hw
      have hff : evalLit s.t.bools w = some false := by
        obtain ⟨k, hk⟩ := false_level hib hf
        have hkl := hib.bound _ _ hk
        rw [hdlb] at hkl
        rcases hlv : s1.t.level w.var with _ | n
        · rw [(b3 w.var (by simp [hlv])).1, hlv] at hk; cases hk
        · rcases Nat.lt_or_ge L n with hl | hg
          · rw [(b2 _ _ hlv hl).1] at hk; cases hk
          · rw [← g3, ← evalLit_backtrack_low hi1 hL1 hlv hg]; exact hf
      have := h3 r hlt w hw' hff
      rw [g3]
      show Fine s.t (s1.clause r) w ∨ _
      rw [hold r hlt]; exact this
    · have hc := hnew r hr hlt
      obtain ⟨x, rest, e, ⟨k, hk, hkL⟩, hrest, -, hsnd⟩ := (hcs _ hc).2
      have hw' : w ∈ (s1.clause r).take 2 := hw
      rw [e] at hw'
      right
      have hwx : w ≠ x := by
        intro hwx
        have h0 : evalLit (s1.t.backtrack L).bools x = none :=
          (evalLit_none hib _).2 (hgone _ hc x rest e)
        rw [← hwx] at h0
        exact absurd (h0.symm.trans hf) (by simp)
      rcases rest with _ | ⟨y, ys⟩
      · simp [hwx] at hw'
      · have hwy : w = y := by simpa [hwx] using hw'
        subst hwy
        have hy := hsnd w ys rfl
        rw [← g3] at hy
        have hyb : (s1.t.backtrack L).level w.var = some L := by
          rw [(b3 w.var (by intro l hl; rw [hy] at hl; cases hl; exact le_refl _)).1]; exact hy
        have := mem_assigned_of_level hib hyb
        unfold InRecent
        show ∃ a ∈ (s1.t.backtrack L).assigned (s1.t.backtrack L).decisionLevel, _
        rw [hdlb]; exact this
  have hnum : (s1.backtrackTo L).t.bools.num = s1.t.bools.num := numBools_backtrack hi1 hL1
  obtain ⟨p1, p2, p3, p4, p5, p6, p7, p8, p9, p10, p11, p12⟩ := propHeads_spec L cs
    (s1.cls.length - cs.length) (s1.backtrackTo L) hib hdlb hdomb (by
      intro c hc x rest e
      have := (hcs c hc).1.2 x (by rw [e]; simp)
      rw [hnum, g3]; exact this)
  have hfin : s1.backtrackUip cs L = propHeads L cs (s1.cls.length - cs.length) (s1.backtrackTo L) :=
    rfl
  rw [hfin]
  generalize propHeads L cs (s1.cls.length - cs.length) (s1.backtrackTo L) = s3 at *
  have hcl : s3.clause = s1.clause := by
    funext r; simp only [clause, p3]; rfl
  have hcur : s3.curLevel = -1 := p6
  have hun : s3.unprocessed = s3.t.assigned s3.t.decisionLevel := by
    simp only [unprocessed, assigned, hcur]
    rw [if_neg (by omega)]; rfl
  have hws0 : WS (s1.backtrackTo L) := ws_congr g1 rfl rfl hnum
  refine ⟨p1, ws_congr hws0 p3 p4 (congrFun p8 .boolean), ?_, ?_, ?_⟩
  · intro r hr w hw hf
    rcases p12 r hr w hw hf with h6 | ⟨a, ha, e⟩
    · exact Or.inl h6
    · exact Or.inr ⟨a, by rw [hun]; exact ha, e⟩
  · intro r hr l hl
    rw [hcl] at hl
    have hr1 : r < s1.cls.length := by rw [p3] at hr; exact hr
    by_cases hlt : r < s.cls.length
    · rw [hold r hlt] at hl
      have := h4 r hlt l hl
      rw [← g3] at this
      refine p9 _ _ ?_
      show (s1.t.backtrack L).level l.var = some 0
      rw [(b3 l.var (by intro k hk; rw [this] at hk; cases hk; omega)).1]; exact this
    · have hc := hnew r hr1 hlt
      obtain ⟨x, rest, e, -, -, hun0, -⟩ := (hcs _ hc).2
      rw [hl] at e
      simp only [List.cons.injEq] at e
      obtain ⟨rfl, rfl⟩ := e
      have hL0 := hun0 rfl
      obtain ⟨k, hk⟩ := p11 _ hc l [] hl
      rw [hk, p10 l.var k (hgone _ hc l [] hl) hk, hL0]
  · refine ⟨by rw [hcur, p2]; omega, fun h => ?_⟩
    rw [hcur] at h; omega

/-- Learning clauses and backtracking for a semantic split. -/
theorem stage_split {s : BS} {cs : List Clause} {L : Nat} (ih : StageInv .conflict s)
    (hL : L < s.t.decisionLevel) (hcs : ∀ c ∈ cs, ClauseOk s c ∧ Splitting s L c)
    (hlate : ∀ r < s.cls.length, ∀ w ∈ (s.clause r).take 2, evalLit s.t.bools w = some false →
      ∀ k ≤ L, s.t.level w.var = some k → ∀ a ∈ s.t.assigned (L + 1), a.var ≠ w.var) :
    StageInv .complete ((s.learnAll cs).backtrackTo L) := by
  obtain ⟨h1, h2, h3, h4⟩ := ih
  have h4 : Units s := h4.resolve_left (by omega)
  obtain ⟨g1, g2, g3, -⟩ := learnAll_ws h2 (fun c hc => (hcs c hc).1)
  generalize hs1 : s.learnAll cs = s1 at *
  have hL1 : L ≤ s1.t.decisionLevel := by rw [g3]; omega
  have hi1 : s1.t.Inv := by rw [g3]; exact h1
  have hold : ∀ r < s.cls.length, s1.clause r = s.clause r := fun r hr => clause_append_lt g2 hr
  have hnew : ∀ r, r < s1.cls.length → ¬ r < s.cls.length → s1.clause r ∈ cs := by
    intro r hr hge
    rw [g2, List.length_append] at hr
    have hlt : r - s.cls.length < cs.length := by omega
    have : s1.clause r = cs[r - s.cls.length] := by
      simp [clause, List.getD_eq_getElem?_getD, g2,
        List.getElem?_append_right (show s.cls.length ≤ r by omega),
        List.getElem?_eq_getElem hlt]
    rw [this]; exact List.getElem_mem hlt
  obtain ⟨b1, b2, b3, b4, b5⟩ := Trail.backtrack_spec hi1 L hL1
  have hib := Trail.backtrack_inv hi1 L hL1
  have hdlb := Trail.decisionLevel_backtrack hi1 L hL1
  have hnum : (s1.backtrackTo L).t.bools.num = s1.t.bools.num := numBools_backtrack hi1 hL1
  have hdl : (s1.backtrackTo L).t.decisionLevel = L := hdlb
  refine ⟨hib, ws_congr g1 rfl rfl hnum, ?_, ?_, ⟨?_, ?_⟩⟩
  · intro r hr w hw hf
    left
    have hf' : evalLit (s1.t.backtrack L).bools w = some false := hf
    obtain ⟨k, hk⟩ := false_level hib hf'
    have hkL := hib.bound _ _ hk
    rw [hdlb] at hkL
    have hk1 : s1.t.level w.var = some k := by
      rcases hlv : s1.t.level w.var with _ | n
      · rw [(b3 w.var (by simp [hlv])).1, hlv] at hk; cases hk
      · rcases Nat.lt_or_ge L n with hl | hg
        · rw [(b2 _ _ hlv hl).1] at hk; cases hk
        · rw [(b3 w.var (by intro m hm; rw [hlv] at hm; cases hm; exact hg)).1, hlv] at hk; exact hk
    by_cases hlt : r < s.cls.length
    · have hw' : w ∈ (s.clause r).take 2 := by rw [← hold r hlt]; exact hw
      have hff : evalLit s.t.bools w = some false := by
        rw [← g3, ← evalLit_backtrack_low hi1 hL1 hk1 hkL]; exact hf'
      rw [g3] at hk1
      have hno : ∀ b, L < b → b ≤ s.t.decisionLevel → ¬ ∃ a ∈ s.t.assigned b, a.var = w.var := by
        intro b hb hb2 he
        obtain ⟨a, ha, e⟩ := h1.interval w.var k (L + 1) b _ _ hk1 (by omega) (by omega)
          (getElem?_assigned (lt_levels h1 hb2)) he (getElem?_assigned (lt_levels h1 (by omega)))
        exact hlate r hlt w hw' hff k hkL hk1 a ha e
      show Fine (s1.t.backtrack L) (s1.clause r) w
      rw [hold r hlt]
      rcases h3 r hlt w hw' hff with ⟨o, q1, q2, lo, lw, q3, q4, q5⟩ | q
      · rw [hk1] at q4; cases q4
        have hlo : lo ≤ L := by
          by_contra hc
          have hb := h1.bound _ _ q3
          exact hno lo (by omega) hb (q5 lo (by omega) le_rfl)
        rw [← g3] at q2 q3 q5
        refine ⟨o, q1, ?_, lo, k, ?_, hk, ?_⟩
        · rw [evalLit_backtrack_low hi1 hL1 q3 hlo]; exact q2
        · rw [(b3 o.var (by intro m hm; rw [q3] at hm; cases hm; exact hlo)).1]; exact q3
        · intro b hb1 hb2
          obtain ⟨a, ha, e⟩ := q5 b hb1 hb2
          refine ⟨a, ?_, e⟩
          simp only [Trail.assigned, b1, List.getD_eq_getElem?_getD, List.getElem?_take] at ha ⊢
          rw [if_pos (by omega)]; exact ha
      · exact absurd q (hno _ hL le_rfl)
    · exfalso
      obtain ⟨x, y, rest, e, ⟨kx, hx, hxL⟩, ky, hy, hyL⟩ := (hcs _ (hnew r hr hlt)).2
      have hw' : w ∈ (s1.clause r).take 2 := hw
      rw [e] at hw'
      rw [← g3] at hx hy
      simp only [List.take_succ_cons, List.take_zero, List.mem_cons, List.not_mem_nil, or_false] at hw'
      rcases hw' with rfl | rfl
      · rw [hk1] at hx; cases hx; omega
      · rw [hk1] at hy; cases hy; omega
  · intro r hr l hl
    have hl' : s1.clause r = [l] := hl
    by_cases hlt : r < s.cls.length
    · rw [hold r hlt] at hl'
      have := h4 r hlt l hl'
      rw [← g3] at this
      show (s1.t.backtrack L).level l.var = some 0
      rw [(b3 l.var (by intro k hk; rw [this] at hk; cases hk; omega)).1]; exact this
    · obtain ⟨x, y, rest, e, -⟩ := (hcs _ (hnew r hr hlt)).2
      rw [hl'] at e; simp at e
  · rw [hdl]; show (-1 : Int) ≤ _; omega
  · rw [hdl]; intro h; exact absurd (show (-1 : Int) = (L : Int) from h) (by omega)

theorem hist_inv {st : Stage} {s : BS} (h : Hist st s) : StageInv st s := by
  induction h with
  | start s h1 h2 => exact ⟨inv_of_clear h1, isEmpty_of_clear h1, h2⟩
  | propFresh _ hp ih =>
    exact prop_stage ih.1 ih.2.2 (fun h => by rw [ih.2.1] at h; cases h) hp
  | prop _ hp ih =>
    exact prop_stage ih.1 ih.2.1.db (fun _ => ⟨ih.2.1, ih.2.2.1, ih.2.2.2.1⟩) hp
  | relax _ ih =>
    exact ⟨ih.1, ih.2.1, fun r hr w hw hf => Or.inl ((ih.2.2.1 r hr w hw hf).resolve_right id),
      ih.2.2.2⟩
  | @assign s v lvl x _ hp ih =>
    obtain ⟨h1, h2, h3, h4, h5⟩ := ih
    have hg := grow_propagate h1 hp
    have hdl : (s.assignOther v x lvl).t.decisionLevel = s.t.decisionLevel := by
      simp [assignOther, Trail.decisionLevel, Trail.propagate]
    have hlv : (s.assignOther v x lvl).t.level v = some lvl := by simp [assignOther, Trail.propagate]
    have hrec : (s.assignOther v x lvl).t.assigned s.t.decisionLevel =
        s.t.assigned s.t.decisionLevel ++ [⟨v, none⟩] := by
      have := getElem?_assigned (lt_levels h1 (le_refl s.t.decisionLevel))
      simp only [Trail.assigned, List.getD_eq_getElem?_getD] at this ⊢
      simp only [assignOther, Trail.levels_setValue, Trail.propagate, Trail.getElem?_pushFrom]
      rw [this]
      simp [hp.2.2.2]
    have hcur : (s.assignOther v x lvl).curLevel = s.curLevel := rfl
    have hni : (s.assignOther v x lvl).nextIndex = s.nextIndex := rfl
    have hpend : ∀ w, w = v ∨ Pending s w → Pending (s.assignOther v x lvl) w := by
      intro w hw
      unfold Pending unprocessed
      simp only [assigned, hdl, hrec, hcur, hni]
      rcases hw with rfl | ⟨a, ha, e⟩
      · refine ⟨⟨w, none⟩, ?_, rfl⟩
        split
        · rename_i e
          rw [List.drop_append_of_le_length (h5.idx e.symm)]; simp
        · simp
      · refine ⟨a, ?_, e⟩
        simp only [unprocessed, assigned] at ha
        split at ha
        · rename_i e
          rw [if_pos e, List.drop_append_of_le_length (h5.idx e.symm)]
          exact List.mem_append_left _ ha
        · rename_i e
          rw [if_neg e]
          simp only [List.drop_zero] at ha ⊢
          exact List.mem_append_left _ ha
    refine ⟨hg.inv, ws_congr h2 rfl rfl (numBools_setValue _ _ _), ?_, grow_units h4 hg, ?_⟩
    · intro r hr w hw hf
      rcases new_false_propagate h1 hf with h0 | h0
      · rcases h3 r hr w hw h0 with h6 | h6
        · exact Or.inl (hg.fine h6)
        · exact Or.inr (hpend _ (Or.inr h6))
      · exact Or.inr (hpend _ (Or.inl h0))
    · refine ⟨by rw [hdl]; exact h5.lvl, fun h => ?_⟩
      rw [hdl] at h ⊢
      have := h5.idx h
      rw [hrec, hni, List.length_append]
      omega
  | @resizeBool s n _ hn ih =>
    obtain ⟨h1, h2, h3, h4, h5⟩ := ih
    have hrange : ∀ v l, v.type = .boolean → s.t.level v = some l → v.ord < n := by
      intro v l hv hl
      have := h1.range v l hl
      rw [hv] at this
      exact lt_of_lt_of_le this hn
    obtain ⟨e1, e2, e3, e4⟩ := Trail.level_resize s.t h1 .boolean n hrange
    have hev : ∀ m : Lit, ∀ b, evalLit (s.t.resize .boolean n).bools m = some b ↔
        evalLit s.t.bools m = some b := by
      intro m b
      have hd : (s.t.resize .boolean n).bools.defined m.ord = s.t.bools.defined m.ord :=
        congrFun e3 m.var
      unfold evalLit
      rw [hd]
      by_cases hdm : s.t.bools.defined m.ord = true
      · obtain ⟨k, hk⟩ := (h1.defined m.var).1 hdm
        have hr1 : m.ord < s.t.bools.num := h1.range _ _ hk
        have : (s.t.resize .boolean n).bools.value m.ord = s.t.bools.value m.ord := by
          have : m.ord < n := by omega
          simp [Trail.resize, PModel.resize, hr1, this]
        rw [this]
      · simp [hdm]
    have hass : ∀ i, (s.t.resize .boolean n).assigned i = s.t.assigned i := by
      intro i; simp [Trail.assigned, e4]
    have hdl : (s.t.resize .boolean n).decisionLevel = s.t.decisionLevel := by
      simp [Trail.decisionLevel, e4]
    have hg : Grow s.t (s.t.resize .boolean n) := ⟨Trail.resize_inv h1 _ _ hrange,
      fun i => by rw [hass], fun v k h => by rw [e1]; exact h, fun m b h => (hev m b).2 h⟩
    have hpend : ∀ v, Pending s v → Pending (s.resizeBool n) v := by
      rintro v ⟨a, ha, e⟩
      refine ⟨a, ?_, e⟩
      simp only [unprocessed, assigned] at ha ⊢
      show a ∈ List.drop (if ((s.t.resize .boolean n).decisionLevel : Int) = s.curLevel then
        s.nextIndex else 0) ((s.t.resize .boolean n).assigned (s.t.resize .boolean n).decisionLevel)
      rw [hdl, hass]; exact ha
    refine ⟨hg.inv, (resizeBool_ws h2 hn).1, ?_, fun r hr l hl => hg.old _ _ (h4 r hr l hl), ?_⟩
    · intro r hr w hw hf
      rcases h3 r hr w hw ((hev w false).1 hf) with h6 | h6
      · exact Or.inl (hg.fine h6)
      · exact Or.inr (hpend _ h6)
    · refine ⟨?_, ?_⟩
      · show s.curLevel ≤ ((s.t.resize .boolean n).decisionLevel : Int)
        rw [hdl]; exact h5.lvl
      · show s.curLevel = ((s.t.resize .boolean n).decisionLevel : Int) → s.nextIndex ≤
          ((s.t.resize .boolean n).assigned (s.t.resize .boolean n).decisionLevel).length
        rw [hdl, hass]; exact h5.idx
  | @resizeRat s n _ hn ih =>
    obtain ⟨h1, h2, h3, h4, h5⟩ := ih
    have hrange : ∀ v l, v.type = .rational → s.t.level v = some l → v.ord < n := by
      intro v l hv hl
      have := h1.range v l hl
      rw [hv] at this
      exact lt_of_lt_of_le this hn
    obtain ⟨e1, e2, e3, e4⟩ := Trail.level_resize s.t h1 .rational n hrange
    have hass : ∀ i, (s.t.resize .rational n).assigned i = s.t.assigned i := by
      intro i; simp [Trail.assigned, e4]
    have hdl : (s.t.resize .rational n).decisionLevel = s.t.decisionLevel := by
      simp [Trail.decisionLevel, e4]
    have hg : Grow s.t (s.t.resize .rational n) := ⟨Trail.resize_inv h1 _ _ hrange,
      fun i => by rw [hass], fun v k h => by rw [e1]; exact h, fun m b h => h⟩
    have hpend : ∀ v, Pending s v → Pending { s with t := s.t.resize .rational n } v := by
      rintro v ⟨a, ha, e⟩
      refine ⟨a, ?_, e⟩
      simp only [unprocessed, assigned] at ha ⊢
      rw [hdl, hass]; exact ha
    refine ⟨hg.inv, ws_congr h2 rfl rfl rfl, ?_, grow_units h4 hg, ?_⟩
    · intro r hr w hw hf
      rcases h3 r hr w hw hf with h6 | h6
      · exact Or.inl (hg.fine h6)
      · exact Or.inr (hpend _ h6)
    · refine ⟨?_, ?_⟩
      · show s.curLevel ≤ ((s.t.resize .rational n).decisionLevel : Int)
        rw [hdl]; exact h5.lvl
      · show s.curLevel = ((s.t.resize .rational n).decisionLevel : Int) → s.nextIndex ≤
          ((s.t.resize .rational n).assigned (s.t.resize .rational n).decisionLevel).length
        rw [hdl, hass]; exact h5.idx
  | otherConflict _ ih =>
    exact ⟨ih.1, ih.2.1, fun r hr w hw hf => (ih.2.2.1 r hr w hw hf).imp id pending_recent,
      Or.inr ih.2.2.2.1⟩
  | decide _ hp ih => exact stage_decide ih hp
  | jump _ hL hcs ih => exact stage_jump ih hL hcs
  | split _ hL hcs hl hp ih => exact stage_decide (stage_split ih hL hcs hl) hp

end BS
end Yaga
