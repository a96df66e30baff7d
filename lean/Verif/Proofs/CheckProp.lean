/-
The check loop of the propositional solver: invariant for satisfiable answers and progress.
-/
import Verif.Model.Propositional
import Verif.Proofs.Check
import Verif.Props.C12
import Verif.Props.C14

set_option linter.unusedSectionVars false
set_option linter.unusedVariables false

namespace Yaga
namespace Check
open Spec BS

variable {S : Type} [LinearOrder S] [ScoreOps S]

/-- Any assignment is a model of propositional logic. -/
def AnyModel : Assignment → Prop := fun _ => True

/-- Every list contains the variables of its own level only. -/
def NoLate (t : Trail Nat) : Prop := ∀ i, ∀ a ∈ t.assigned i, t.level a.var = some i

/-- At most one variable of a level has no reason. -/
def OneDec (t : Trail Nat) : Prop := ∀ v w k, t.level v = some k → t.level w = some k →
  t.reason v = none → t.reason w = none → v = w

/-- The first clauses are the asserted ones, up to the order of literals. -/
structure Asr (A : List Clause) (s : BS) : Prop where
  na : s.na = A.length
  le : A.length ≤ s.cls.length
  perm : ∀ r, ∀ h : r < A.length, (s.clause r).Perm A[r]

/-- The trail of the propositional solver. -/
structure TrailP (s : BS) : Prop where
  tight : Tight s.clause s.t
  zero : ZeroReason s.t
  late : NoLate s.t
  one : OneDec s.t

/-- State of the order. -/
def OrderOk (n : Nat) (o : Evsids S) : Prop :=
  ∃ ops : List EvOp, lastResize ops 0 = n ∧ o = ops.foldl Evsids.step .new

/-- Invariant of the state in a stage. -/
structure PS (A : List Clause) (n : Nat) (b : Bool) (st : Stage) (s : BS) : Prop where
  good : Good AnyModel A b s
  hist : Hist st s
  asr : Asr A s
  tr : TrailP s
  num : s.t.bools.num = n

/-- Invariant of the propositional loop. -/
def PGood (A : List Clause) (n : Nat) (c : CS (Evsids S)) : Prop :=
  (PS A n true .ready c.s ∨ PS A n false .fresh c.s) ∧ OrderOk n c.o

theorem asr_perm {A : List Clause} {s s' : BS} (h : Asr A s) (h1 : s'.na = s.na)
    (h2 : s'.cls.length = s.cls.length) (h3 : ∀ r, (s'.clause r).Perm (s.clause r)) : Asr A s' :=
  ⟨h1.trans h.na, by rw [h2]; exact h.le, fun r hr => (h3 r).trans (h.perm r hr)⟩

theorem tight_congr {d d' : Nat → Clause} {t : Trail Nat} (h : Tight d t)
    (he : ∀ v r, t.reason v = some r → d' r = d r) : Tight d' t := by
  intro v r l hv hl hp
  rw [he v r hv]
  exact h v r l hv hl hp

/-- A call of `propagate`. -/
theorem trailP_propagates {A : List Clause} {b : Bool} {s s' : BS} {c : Option Clause}
    (h : Good AnyModel A b s) (ht : TrailP s) (hp : Propagates s c s') :
    TrailP s' ∧ s'.na = s.na ∧ s'.cls.length = s.cls.length ∧
    (∀ r, (s'.clause r).Perm (s.clause r)) ∧ s'.t.bools.num = s.t.bools.num := by
  obtain ⟨s0, a1, a2, a3, -, -, -, -, hx, b1, b2, -, -, b5⟩ := propagates_spec (Q := fun _ => False)
    h.base.inv h.base.db (fun h' => h.base.ws (Or.inr h')) (by simp) (by simp) hp
  have hcl : s0.clause = s.clause := by funext r; simp [clause, a1]
  have hi := h.base.inv
  have hlate : NoLate s'.t := by
    intro i a ha
    rcases hx.added i a ha with h1 | ⟨h1, h2⟩
    · rw [a2] at h1
      have := ht.late i a h1
      rw [← a2] at this
      exact (hx.old _ _ this).1
    · have : i < s'.t.levels.length := by
        rcases Nat.lt_or_ge i s'.t.levels.length with h | h
        · exact h
        · simp [Trail.assigned, List.getD_eq_getElem?_getD, List.getElem?_eq_none h] at ha
      obtain ⟨k, hk, -⟩ := b1.listed i _ a (getElem?_assigned this) ha
      obtain ⟨-, e, -⟩ := hx.new _ _ h1 hk
      rw [hk, e, h2]
  have hg : Grow s.t s'.t := by
    refine ⟨b1, ?_, ?_, ?_⟩
    · rw [← a2]; exact hx.lists
    · rw [← a2]; exact fun v k hv => (hx.old v k hv).1
    · rw [← a2]; exact hx.keep
  refine ⟨⟨?_, ?_, hlate, ?_⟩, hx.na.trans a3, by rw [hx.cls.len, a1],
    fun r => by rw [← hcl]; exact hx.cls.perm r, ?_⟩
  · intro v r k hv hk hpos
    rcases h0 : s.t.level v with _ | k0
    · obtain ⟨c1, c2, r', rest, c3, c4, c5, c6, c7⟩ := hx.new v k (by rw [a2]; exact h0) hk
      rw [hv] at c4; cases c4
      rcases c7 with c7 | ⟨m, hm, a, ha, e⟩
      · rw [hx.dl] at c7; omega
      · have hm := List.mem_of_mem_head? hm
        refine ⟨m, by rw [c5]; simp [hm], ?_, ?_⟩
        · rintro rfl
          have := (c6 _ hm).1
          rw [trueLit_eval b1 c1 hk] at this
          cases this
        · rw [← e, hlate _ a ha, hx.dl, c2]
    · have hv0 : s.t.reason v = some r := by
        have := (hx.old v k0 (by rw [a2]; exact h0)).2.1
        rw [a2, hv] at this; exact this.symm
      have hk0 : k0 = k := by
        have := hg.old _ _ h0
        rw [hk] at this; cases this; rfl
      subst hk0
      obtain ⟨m, h1, h2, h3⟩ := ht.tight v r k0 hv0 h0 hpos
      obtain ⟨g1, rest, g2, -⟩ := h.head v r hv0
      have hceq : s'.clause r = s.clause r := by
        rw [← hcl]
        exact hx.cls.head r _ rest (by rw [hcl]; exact g2)
          (by rw [a2]; exact trueLit_eval hi (h.rok.isBool v r hv0) h0)
      refine ⟨m, by rw [hceq]; exact h1, ?_, hg.old _ _ h3⟩
      rw [trueLit_grow hi hg (h.rok.isBool v r hv0) h0]; exact h2
  · intro n hn
    rcases h0 : s.t.level (.bool n) with _ | k0
    · obtain ⟨-, -, r', -, -, c4, -⟩ := hx.new (.bool n) 0 (by rw [a2]; exact h0) hn
      rw [c4]; simp
    · have hk0 := hg.old _ _ h0
      rw [hn] at hk0; cases hk0
      have := (hx.old (.bool n) 0 (by rw [a2]; exact h0)).2.1
      rw [this, a2]; exact ht.zero n h0
  · have hnew : ∀ v k, s'.t.level v = some k → s'.t.reason v = none →
        s.t.level v = some k ∧ s.t.reason v = none := by
      intro v k hk hn
      rcases h0 : s.t.level v with _ | k0
      · obtain ⟨-, -, r', -, -, c4, -⟩ := hx.new v k (by rw [a2]; exact h0) hk
        rw [hn] at c4; cases c4
      · have hk0 := hg.old _ _ h0
        rw [hk] at hk0; cases hk0
        have := (hx.old v k (by rw [a2]; exact h0)).2.1
        rw [a2, hn] at this
        exact ⟨rfl, this.symm⟩
    intro v w k hv hw h1 h2
    obtain ⟨p1, p2⟩ := hnew v k hv h1
    obtain ⟨q1, q2⟩ := hnew w k hw h2
    exact ht.one v w k p1 q1 p2 q2
  · have := congrFun hx.num .boolean
    rw [a2] at this
    exact this

/-! ### Analysis -/

/-- In the propositional solver the analysed and minimised clause is asserting. -/
theorem prop_asserting {A : List Clause} {s : BS} (h : Good AnyModel A true s) (ht : TrailP s)
    {c : Clause} (hf : ∀ l ∈ c, evalLit s.t.bools l = some false) :
    ∃ c' lvl, analyzeOne s.clause s.t c = some (c', lvl) ∧
      (c' = [] ∨ ∃ L : Nat, lvl = L ∧ L < s.t.decisionLevel ∧ Asserting s L c') := by
  have hi := h.base.inv
  obtain ⟨c0, lvl, e1, e2, e3, e4, e5⟩ := analyze_spec hi h.rok ht.tight ht.zero c hf
  refine ⟨if c0 = [] then c0 else minimize s.clause s.t c0, lvl, by simp [analyzeOne, e1], ?_⟩
  rcases e5 with ⟨rfl, -⟩ | ⟨L, rfl, e5⟩
  · left; simp
  · right
    refine ⟨L, rfl, ?_⟩
    rcases e5 with ⟨x, rest, n, rfl, g2, g3, g4, g5⟩ | ⟨x, y, rest, rfl, g2, g3, g4⟩
    · have hb := hi.bound _ _ g2
      refine ⟨by omega, ?_⟩
      rw [if_neg (by simp)]
      set c1 := minimize s.clause s.t (x :: rest) with hc1
      have hsub : c1.Sublist (x :: rest) := minimize_sublist _ _ _
      have hlv : ∀ k, 0 < k → (∃ l ∈ x :: rest, s.t.level l.var = some k) →
          ∃ l ∈ c1, s.t.level l.var = some k := fun k hk he =>
        minimize_levels hi h.rok ht.tight _ k hk he
      obtain ⟨l, hl, hln⟩ := hlv n (by omega) ⟨x, by simp, g2⟩
      have hlx : l = x := by
        rcases List.mem_cons.1 (hsub.subset hl) with e | e
        · exact e
        · obtain ⟨k, hk, hkL⟩ := g4 l e
          rw [hln] at hk; cases hk; omega
      subst hlx
      have hnd : c1.Nodup := hsub.nodup e3
      have hsort : c1.Pairwise (fun a b => levelOr s.t b ≤ levelOr s.t a) := e4.sublist hsub
      obtain ⟨rest1, hr1, hsub1⟩ : ∃ rest1, c1 = l :: rest1 ∧ rest1.Sublist rest := by
        cases hcc : c1 with
        | nil => rw [hcc] at hl; simp at hl
        | cons z zs =>
          rw [hcc] at hsub hl
          cases hsub with
          | cons _ hs =>
            exfalso
            have := hs.subset hl
            exact (List.nodup_cons.1 e3).1 this
          | cons_cons _ hs => exact ⟨zs, rfl, hs⟩
      refine ⟨l, rest1, hr1, ⟨n, g2, g3⟩, ?_, ?_, ?_⟩
      · intro m hm
        have hm' := hsub1.subset hm
        obtain ⟨k, hk, hkL⟩ := g4 m hm'
        exact ⟨e2 m (by simp [hm']), k, hkL, hk⟩
      · intro he
        rcases g5 with ⟨-, g5⟩ | ⟨y, ys, g5, g6⟩
        · exact g5
        · by_contra hL0
          obtain ⟨l', hl', hl'L⟩ := hlv L (by omega) ⟨y, by simp [g5], g6⟩
          rw [hr1, he] at hl'
          rw [List.mem_singleton] at hl'
          subst hl'
          rw [g2] at hl'L; cases hl'L; omega
      · intro y ys he
        have hy' := hsub1.subset (show y ∈ rest1 by rw [he]; simp)
        obtain ⟨k, hk, hkL⟩ := g4 y hy'
        rcases Nat.eq_zero_or_pos L with hL0 | hLpos
        · rw [hk]; congr 1; omega
        · rcases g5 with ⟨g5, -⟩ | ⟨z, zs, g5, g6⟩
          · rw [g5] at hy'; simp at hy'
          · obtain ⟨l', hl', hl'L⟩ := hlv L hLpos ⟨z, by simp [g5], g6⟩
            rw [hr1] at hl'
            rcases List.mem_cons.1 hl' with rfl | hl'
            · rw [g2] at hl'L; cases hl'L; omega
            · rw [he] at hl'
              rcases List.mem_cons.1 hl' with rfl | hl'
              · exact hl'L
              · rw [hr1, he] at hsort
                have := (List.pairwise_cons.1 (List.pairwise_cons.1 hsort).2).1 l' hl'
                rw [levelOr_of_level hl'L, levelOr_of_level hk] at this
                rw [hk]; congr 1; omega
    · exfalso
      have hx := g4 x (by simp) g2
      have hy := g4 y (by simp) g3
      have hxy := ht.one _ _ _ g2 g3 hx hy
      have hx2 := ((evalLit_false_iff _ _).1 (e2 x (by simp))).2
      have hy2 := ((evalLit_false_iff _ _).1 (e2 y (by simp))).2
      have hord : x.ord = y.ord := by simpa [Lit.var] using hxy
      rw [hord, ← hy2] at hx2
      rw [hx2] at e3
      simp at e3

theorem analyzeConflicts_one (deref : Nat → Clause) (t : Trail Nat) (c : Clause) :
    analyzeConflicts deref t [c] = (analyzeOne deref t c).map fun p => ([p.1], some p.2) := by
  unfold analyzeConflicts
  rcases hx : analyzeOne deref t c with _ | ⟨c', l⟩
  · simp [hx]
  · simp [hx, selectLowest]

theorem learnSelect_one (t : Trail Nat) (c : Clause) : learnSelect t [c] = [c] := by
  have : uniq (sortBy clauseLt [c]) = [c] := by simp [sortBy, insertBy, uniq]
  unfold learnSelect
  simp only [this]
  rcases h : isSemanticSplit t c with _ | _ <;> simp [h]

/-- `propagate` of the propositional solver. -/
theorem prop_propRun {s s' : BS} {cs : List Clause} (h : PropRun (propEnv S) s cs s') :
    (cs = [] ∧ Propagates s none s') ∨ (∃ c, cs = [c] ∧ Propagates s (some c) s') ∨
    (∃ s1, Propagates s none s1 ∧ PropRun (propEnv S) s1 cs s') := by
  have hres : ∀ s s', Resizes (propEnv S) s s' → s' = s := by
    intro s s' h
    cases h with
    | refl => rfl
    | bool h => exact h.elim
    | rat h => exact h.elim
  have hoth : ∀ s s', Others (propEnv S) s s' → s' = s := by
    intro s s' h
    cases h with
    | resizes h => exact hres _ _ h
    | assign _ h => exact h.elim
  cases h with
  | boolConflict h => exact Or.inr (Or.inl ⟨_, rfl, h⟩)
  | otherConflict _ _ hne h =>
    obtain ⟨c, hc⟩ := List.exists_mem_of_ne_nil _ hne
    exact (h c hc).elim
  | done h1 h2 =>
    rw [hres _ _ h2]; exact Or.inl ⟨rfl, h1⟩
  | again h1 h2 h3 =>
    rw [hoth _ _ h2] at h3
    exact Or.inr (Or.inr ⟨_, h1, h3⟩)

theorem ps_propagates {A : List Clause} {n : Nat} {s s' : BS} {c : Option Clause}
    (h : PS A n true .ready s ∨ PS A n false .fresh s) (hp : Propagates s c s') :
    PS A n true (if c = none then .complete else .conflict) s' ∧
    (∀ c', c = some c' → (∀ l ∈ c', evalLit s'.t.bools l = some false) ∧ c' ∈ s'.cls) ∧
    s'.t.decisionLevel = s.t.decisionLevel := by
  have key : ∀ b, Good AnyModel A b s → Asr A s → TrailP s → s.t.bools.num = n →
      Hist (if c = none then .complete else .conflict) s' →
      PS A n true (if c = none then .complete else .conflict) s' ∧
      (∀ c', c = some c' → (∀ l ∈ c', evalLit s'.t.bools l = some false) ∧ c' ∈ s'.cls) ∧
      s'.t.decisionLevel = s.t.decisionLevel := by
    intro b hg ha ht hn hh
    obtain ⟨h1, h2, h3⟩ := good_propagates hg hp
    obtain ⟨g1, g2, g3, g4, g5⟩ := trailP_propagates hg ht hp
    exact ⟨⟨h1, hh, asr_perm ha g2 g3 g4, g1, g5.trans hn⟩, h2, h3⟩
  rcases h with h | h
  · exact key true h.good h.asr h.tr h.num (Hist.prop h.hist hp)
  · exact key false h.good h.asr h.tr h.num (Hist.propFresh h.hist hp)

theorem ps_propRun {A : List Clause} {n : Nat} {s s' : BS} {cs : List Clause}
    (h : PS A n true .ready s ∨ PS A n false .fresh s) (hr : PropRun (propEnv S) s cs s') :
    (cs = [] ∧ PS A n true .complete s') ∨ ∃ c, cs = [c] ∧ PS A n true .conflict s' ∧
      (∀ l ∈ c, evalLit s'.t.bools l = some false) := by
  induction hr with
  | boolConflict hp =>
    obtain ⟨h1, h2, -⟩ := ps_propagates h hp
    exact Or.inr ⟨_, rfl, by simpa using h1, (h2 _ rfl).1⟩
  | otherConflict _ _ hne hc =>
    obtain ⟨c, hc'⟩ := List.exists_mem_of_ne_nil _ hne
    exact (hc c hc').elim
  | done hp hz =>
    cases hz with
    | refl => 
      obtain ⟨h1, -⟩ := ps_propagates h hp
      exact Or.inl ⟨rfl, by simpa using h1⟩
    | bool h => exact h.elim
    | rat h => exact h.elim
  | again hp ho _ ih =>
    have hs : ∀ {s s' : BS}, Others (propEnv S) s s' → s' = s := by
      intro s s' h
      cases h with
      | resizes h =>
        cases h with
        | refl => rfl
        | bool h => exact h.elim
        | rat h => exact h.elim
      | assign _ h => exact h.elim
    have := hs ho
    subst this
    obtain ⟨h1, -⟩ := ps_propagates h hp
    rw [if_pos rfl] at h1
    exact ih (Or.inl ⟨h1.good, Hist.relax h1.hist, h1.asr, h1.tr, h1.num⟩)

theorem trailP_learnAll {A : List Clause} {s : BS} (h : Good AnyModel A true s) (ht : TrailP s)
    (ha : Asr A s) {ls : List Clause} (hl : ∀ c ∈ ls, ClauseOk s c ∧ Ent AnyModel A c) :
    TrailP (s.learnAll ls) ∧ Asr A (s.learnAll ls) := by
  obtain ⟨-, h2, h3, h4⟩ := good_learnAll h hl
  have hcl : ∀ r, r < s.cls.length → (s.learnAll ls).clause r = s.clause r :=
    fun r hr => clause_append_lt h3 hr
  refine ⟨⟨?_, by rw [h2]; exact ht.zero, by rw [h2]; exact ht.late, by rw [h2]; exact ht.one⟩,
    h4.trans ha.na, by rw [h3, List.length_append]; have := ha.le; omega, ?_⟩
  · rw [h2]
    exact tight_congr ht.tight fun v r hv => hcl r (h.head v r hv).1
  · intro r hr
    rw [hcl r (by have := ha.le; omega)]
    exact ha.perm r hr

theorem assigned_backtrack {t : Trail Nat} (hi : t.Inv) {L : Nat} (hL : L ≤ t.decisionLevel)
    (i : Nat) : ∀ a ∈ (t.backtrack L).assigned i, a ∈ t.assigned i ∧ i ≤ L := by
  intro a ha
  simp only [Trail.assigned, List.getD_eq_getElem?_getD, (Trail.backtrack_spec hi L hL).1,
    List.getElem?_take] at ha ⊢
  split at ha
  · exact ⟨ha, by omega⟩
  · simp at ha

theorem trailP_backtrackTo {A : List Clause} {s : BS} (h : Good AnyModel A true s) (ht : TrailP s)
    {L : Nat} (hL : L ≤ s.t.decisionLevel) : TrailP (s.backtrackTo L) := by
  have hi := h.base.inv
  have hib := Trail.backtrack_inv hi L hL
  obtain ⟨h1, h2, h3, h4, h5⟩ := Trail.backtrack_spec hi L hL
  have hlow : ∀ v k, (s.t.backtrack L).level v = some k → s.t.level v = some k ∧
      (s.t.backtrack L).reason v = s.t.reason v := by
    intro v k hv
    rcases hl : s.t.level v with _ | n
    · rw [(h3 v (by simp [hl])).1, hl] at hv; cases hv
    · rcases Nat.lt_or_ge L n with hlt | hge
      · rw [(h2 v n hl hlt).1] at hv; cases hv
      · have := h3 v (by intro l hl'; rw [hl] at hl'; cases hl'; exact hge)
        rw [this.1, hl] at hv
        exact ⟨hv, this.2.1⟩
  refine ⟨tight_backtrack hi h.rok ht.tight L hL, zeroReason_backtrack hi ht.zero L hL, ?_, ?_⟩
  · intro i a ha
    obtain ⟨g1, g2⟩ := assigned_backtrack hi hL i a ha
    have := ht.late i a g1
    exact (h3 a.var (by intro l hl; rw [this] at hl; cases hl; exact g2)).1.trans this
  · intro v w k hv hw h1 h2
    obtain ⟨p1, p2⟩ := hlow v k hv
    obtain ⟨q1, q2⟩ := hlow w k hw
    exact ht.one v w k p1 q1 (by rw [← p2]; exact h1) (by rw [← q2]; exact h2)

theorem trailP_assignLit {A : List Clause} {s : BS} (h : Good AnyModel A true s) (ht : TrailP s)
    {x : Lit} {r : Nat} (hu : s.t.level x.var = none)
    (htight : 0 < s.t.decisionLevel → ∃ m ∈ s.clause r, m ≠ x ∧
      s.t.level m.var = some s.t.decisionLevel) :
    TrailP (s.assignLit x (some r) s.t.decisionLevel) := by
  have hi := h.base.inv
  have hxo : Lit.ofVal x.ord (!x.isNeg) = x := Lit.ofVal_self x
  refine ⟨tight_propagate h.rok ht.tight x.ord r _ (!x.isNeg) hu (by rw [hxo]; exact htight),
    zeroReason_propagate ht.zero x.var r s.t.decisionLevel (.b (!x.isNeg)), ?_, ?_⟩
  · intro i a ha
    simp only [assignLit, Trail.assigned, Trail.levels_setValue, Trail.propagate,
      List.getD_eq_getElem?_getD, Trail.getElem?_pushFrom] at ha
    rcases hx : s.t.levels[i]? with _ | xs
    · rw [hx] at ha; simp at ha
    · rw [hx] at ha
      have hold : ∀ a ∈ xs, (s.assignLit x (some r) s.t.decisionLevel).t.level a.var = some i := by
        intro a ha
        have := ht.late i a (by simpa [Trail.assigned, List.getD_eq_getElem?_getD, hx] using ha)
        have hne : a.var ≠ x.var := by intro e; rw [e, hu] at this; cases this
        simpa [assignLit, Trail.propagate, Function.update_of_ne hne] using this
      simp only [Option.map_some, Option.getD_some] at ha
      split at ha
      · rename_i hle
        rcases List.mem_append.1 ha with ha | ha
        · exact hold a ha
        · rw [List.mem_singleton.1 ha]
          have : i < s.t.levels.length := by
            rcases Nat.lt_or_ge i s.t.levels.length with h | h
            · exact h
            · rw [List.getElem?_eq_none h] at hx; cases hx
          have : s.t.decisionLevel = i := by
            simp only [Trail.decisionLevel] at hle ⊢
            omega
          simp [assignLit, Trail.propagate, this]
      · exact hold a ha
  · have hnew : ∀ v, (s.assignLit x (some r) s.t.decisionLevel).t.reason v = none → 
        v ≠ x.var ∧ s.t.reason v = none ∧
        (s.assignLit x (some r) s.t.decisionLevel).t.level v = s.t.level v := by
      intro v hv
      simp only [assignLit, Trail.reason_setValue, Trail.level_setValue, Trail.propagate,
        Function.update_apply] at hv ⊢
      split at hv
      · cases hv
      · rename_i e; exact ⟨e, hv, by rw [if_neg e]⟩
    intro v w k hv hw h1 h2
    obtain ⟨-, p2, p3⟩ := hnew v h1
    obtain ⟨-, q2, q3⟩ := hnew w h2
    exact ht.one v w k (p3 ▸ hv) (q3 ▸ hw) p2 q2

theorem trailP_decide {A : List Clause} {s : BS} (h : Good AnyModel A true s) (ht : TrailP s)
    {v : Var} {x : Val} (hp : s.t.Pre (.decide v x)) : TrailP (s.decideOther v x) := by
  have hi := h.base.inv
  have hlen := hi.length_pos
  refine ⟨tight_decide h.rok ht.tight v x hp.2.1, zeroReason_decide hi ht.zero v x, ?_, ?_⟩
  · intro i a ha
    simp only [decideOther, Trail.assigned, Trail.levels_setValue, Trail.decide,
      List.getD_eq_getElem?_getD] at ha
    rcases Nat.lt_or_ge i s.t.levels.length with hlt | hge
    · rw [List.getElem?_append_left hlt] at ha
      have := ht.late i a (by simpa [Trail.assigned, List.getD_eq_getElem?_getD] using ha)
      have hne : a.var ≠ v := by intro e; rw [e, hp.2.1] at this; cases this
      simpa [decideOther, Trail.decide, Function.update_of_ne hne] using this
    · rw [List.getElem?_append_right hge] at ha
      rcases Nat.eq_or_lt_of_le hge with e | hlt
      · rw [← e] at ha ⊢
        simp at ha
        subst ha
        simp [decideOther, Trail.decide]
      · rw [List.getElem?_eq_none (by simp; omega)] at ha
        simp at ha
  · have hcase : ∀ w k, (s.decideOther v x).t.level w = some k →
        (s.decideOther v x).t.reason w = none →
        (w = v ∧ k = s.t.levels.length) ∨ (w ≠ v ∧ s.t.level w = some k ∧ s.t.reason w = none) := by
      intro w k hk hr
      simp only [decideOther, Trail.reason_setValue, Trail.level_setValue, Trail.decide,
        Function.update_apply] at hk hr
      split at hk
      · cases hk; exact Or.inl ⟨by assumption, rfl⟩
      · rename_i e; rw [if_neg e] at hr; exact Or.inr ⟨e, hk, hr⟩
    intro a w k ha hw h1 h2
    have hb : ∀ w k, s.t.level w = some k → k < s.t.levels.length := by
      intro w k hk
      have := hi.bound _ _ hk
      simp only [Trail.decisionLevel] at this; omega
    rcases hcase a k ha h1 with ⟨rfl, e1⟩ | ⟨-, p1, p2⟩ <;>
      rcases hcase w k hw h2 with ⟨rfl, e2⟩ | ⟨-, q1, q2⟩
    · rfl
    · have := hb _ _ q1; omega
    · have := hb _ _ p1; omega
    · exact ht.one _ _ _ p1 q1 p2 q2

/-- Learning an asserting clause and backtracking. -/
theorem ps_uip {A : List Clause} {n : Nat} {s : BS} (h : PS A n true .conflict s) {c : Clause}
    {L : Nat} (hc : ClauseOk s c) (he : Ent AnyModel A c) (ha : Asserting s L c)
    (hL : L < s.t.decisionLevel) : PS A n true .ready ((s.learnAll [c]).backtrackUip [c] L) := by
  have hl : ∀ d ∈ [c], ClauseOk s d ∧ Ent AnyModel A d := by
    intro d hd; rw [List.mem_singleton] at hd; subst hd; exact ⟨hc, he⟩
  obtain ⟨x, rest, rfl, ⟨k, hk, hkL⟩, a2, a3, a4⟩ := id ha
  have hhead : HeadOk s.t L (x :: rest) := ⟨x, rest, rfl, Or.inr a2⟩
  have hgood := good_uip (L := L) h.good hl (by omega) (fun d hd => by
    rw [List.mem_singleton] at hd; subst hd; exact hhead)
  have hhist : Hist .ready ((s.learnAll [x :: rest]).backtrackUip [x :: rest] L) :=
    Hist.jump h.hist hL (fun d hd => by
      rw [List.mem_singleton] at hd; subst hd; exact ⟨hc, ha⟩)
  obtain ⟨g1, g2, g3, g4⟩ := good_learnAll h.good hl
  obtain ⟨t1, t2⟩ := trailP_learnAll h.good h.tr h.asr hl
  set s1 := s.learnAll [x :: rest] with hs1
  have hi := h.good.base.inv
  have hL1 : L ≤ s1.t.decisionLevel := by rw [g2]; omega
  have g5 := good_backtrackTo g1 hL1
  have t3 := trailP_backtrackTo g1 t1 hL1
  have hbt : (s1.backtrackTo L).t = s.t.backtrack L := by
    show s1.t.backtrack L = _; rw [g2]
  have hbdl : (s1.backtrackTo L).t.decisionLevel = L := by
    rw [hbt]; exact Trail.decisionLevel_backtrack hi L (by omega)
  obtain ⟨b1, b2, b3, b4, b5⟩ := Trail.backtrack_spec hi L (show L ≤ s.t.decisionLevel by omega)
  have hxu : (s1.backtrackTo L).t.level x.var = none := by rw [hbt]; exact (b2 _ _ hk hkL).1
  have hxd : (s1.backtrackTo L).t.bools.defined x.ord = false := by
    rw [hbt]; exact (b2 _ _ hk hkL).2.2
  have heq : s1.backtrackUip [x :: rest] L = (s1.backtrackTo L).assignLit x
      (some (s1.cls.length - 1)) L := by
    simp [backtrackUip, propHeads, hxd]
  have hasr : Asr A (s1.backtrackUip [x :: rest] L) := by
    rw [heq]; exact ⟨t2.na, t2.le, t2.perm⟩
  have hnum : (s1.backtrackUip [x :: rest] L).t.bools.num = n := by
    rw [heq]
    show (((s1.backtrackTo L).t.propagate x.var (some (s1.cls.length - 1)) L).setValue x.var
      (.b (!x.isNeg))).bools.num = n
    rw [numBools_setValue]
    show (s1.backtrackTo L).t.bools.num = n
    rw [hbt, numBools_backtrack hi (by omega)]
    exact h.num
  refine ⟨hgood, hhist, hasr, ?_, hnum⟩
  rw [heq]
  have hclause : (s1.backtrackTo L).clause (s1.cls.length - 1) = x :: rest := by
    have : (s1.backtrackTo L).cls = s.cls ++ [x :: rest] := g3
    simp [clause, List.getD_eq_getElem?_getD, this, g3]
  have := trailP_assignLit g5 t3 (x := x) (r := s1.cls.length - 1) hxu (by
    rw [hbdl, hclause, hbt]
    intro hpos
    cases hrest : rest with
    | nil => have := a3 hrest; omega
    | cons y ys =>
      have hy := a4 y ys hrest
      refine ⟨y, by simp, ?_, ?_⟩
      · rintro rfl; rw [hy] at hk; cases hk; omega
      · rw [(b3 y.var (by intro l hl; rw [hy] at hl; cases hl; exact le_rfl)).1]; exact hy)
  rw [hbdl] at this
  exact this

theorem ps_restart {A : List Clause} {n : Nat} {s : BS} (h : PS A n true .conflict s)
    {ls : List Clause} (hl : ∀ c ∈ ls, ClauseOk s c ∧ Ent AnyModel A c) (old : Nat) :
    PS A n false .fresh (restart (s.learnAll ls) old) := by
  obtain ⟨g1, g2, g3, g4⟩ := good_learnAll h.good hl
  obtain ⟨t1, t2⟩ := trailP_learnAll h.good h.tr h.asr hl
  have g5 := good_restart g1 old
  have hlev : ∀ v, (restart (s.learnAll ls) old).t.level v = none := fun v => rfl
  have hre : ∀ v, (restart (s.learnAll ls) old).t.reason v = none := fun v => rfl
  refine ⟨g5, Hist.start _ rfl g5.base.db, ⟨t2.na, ?_, ?_⟩, ⟨tight_of_noReason hre,
    zeroReason_of_unassigned hlev, ?_, ?_⟩, ?_⟩
  · have := t2.le
    simp only [restart, List.length_append, List.length_take]
    rw [t2.na]
    omega
  · intro r hr
    have hle := t2.le
    have hc : (restart (s.learnAll ls) old).clause r = (s.learnAll ls).clause r := by
      simp only [clause, restart, List.getD_eq_getElem?_getD]
      rw [List.getElem?_append_left (by rw [List.length_take, t2.na]; omega), List.getElem?_take,
        if_pos (by rw [t2.na]; exact hr)]
    rw [hc]; exact t2.perm r hr
  · intro i a ha
    rcases i with _ | i <;> simp [restart, Trail.assigned, Trail.clear] at ha
  · intro v w k hv; rw [hlev] at hv; cases hv
  · show (s.learnAll ls).t.bools.num = n
    rw [g2]; exact h.num

theorem ps_decide {A : List Clause} {n : Nat} {s : BS} (h : PS A n true .complete s) {v : Var}
    {x : Val} (hp : s.t.Pre (.decide v x)) : PS A n true .ready (s.decideOther v x) := by
  refine ⟨good_decideOther h.good hp, Hist.decide h.hist hp, ⟨h.asr.na, h.asr.le, h.asr.perm⟩,
    trailP_decide h.good h.tr hp, ?_⟩
  show ((s.t.decide v).setValue v x).bools.num = n
  rw [numBools_setValue]; exact h.num

theorem orderOk_events {n : Nat} {o o' : Evsids S} (h : OrderOk n o)
    (he : (propEnv S).events o o') : OrderOk n o' := by
  obtain ⟨ops, h1, rfl⟩ := h
  obtain ⟨ops', h2, rfl⟩ := he
  refine ⟨ops ++ ops', ?_, by rw [List.foldl_append]⟩
  have key : ∀ ops : List EvOp, ∀ n, lastResize (ops ++ ops') n = lastResize ops n := by
    intro ops
    induction ops with
    | nil =>
      intro n
      simp only [List.nil_append]
      clear h1
      induction ops' generalizing n with
      | nil => rfl
      | cons op ops' ih =>
        have := h2 op (by simp)
        cases op with
        | resize k => exact this.elim
        | init => exact ih (fun o ho => h2 o (by simp [ho])) _
        | resolved => exact ih (fun o ho => h2 o (by simp [ho])) _
        | learned => exact ih (fun o ho => h2 o (by simp [ho])) _
    | cons op ops ih =>
      intro n
      cases op <;> exact ih _
  rw [key]; exact h1

theorem orderOk_pick {n : Nat} {o : Evsids S} {s : BS} (h : OrderOk n o) (hn : s.t.bools.num = n)
    (hi : s.t.Inv) : PickOk s.t (fun v => v.type = .boolean ∧ inRange s.t v) (o.pick s.t.bools) := by
  obtain ⟨ops, h1, rfl⟩ := h
  exact (C12_evsids ops s.t hi (h1.trans hn.symm)).1

/-- One iteration of the propositional loop. -/
theorem pgood_iter {A : List Clause} {n : Nat} {c : CS (Evsids S)} {out : Out (Evsids S)}
    (h : PGood A n c) (hi : Iter (propEnv S) c out) :
    (∀ s, out = .sat s → PS A n true .complete s ∧ ∀ v : Nat, v < n → s.t.level (.bool v) ≠ none) ∧
    ∀ c', out = .run c' → PGood A n c' := by
  obtain ⟨hs, ho⟩ := h
  have hconf : ∀ {cs : List Clause} {s : BS}, PropRun (propEnv S) c.s cs s → cs ≠ [] →
      ∃ d, cs = [d] ∧ PS A n true .conflict s ∧ (∀ l ∈ d, evalLit s.t.bools l = some false) ∧
        Ent AnyModel A d := by
    intro cs s hp hne
    rcases ps_propRun hs hp with ⟨e, -⟩ | ⟨d, e1, e2, e3⟩
    · exact absurd e hne
    · refine ⟨d, e1, e2, e3, ?_⟩
      have hgood : ∃ b, Good AnyModel A b c.s := by
        rcases hs with h | h
        · exact ⟨_, h.good⟩
        · exact ⟨_, h.good⟩
      obtain ⟨b, hb⟩ := hgood
      -- the conflict is a clause of the database
      subst e1
      have : ∀ {s s' : BS} {cs : List Clause}, PropRun (propEnv S) s cs s' →
          ∀ b, Good AnyModel A b s → ∀ d ∈ cs, Ent AnyModel A d := by
        intro s s' cs h
        induction h with
        | boolConflict hp =>
          intro b hb d hd
          obtain ⟨h1, h2, -⟩ := good_propagates hb hp
          rw [List.mem_singleton] at hd; subst hd
          exact h1.ent _ (h2 _ rfl).2
        | otherConflict _ _ _ hc => intro b hb d hd; exact (hc d hd).elim
        | done => intro b hb d hd; simp at hd
        | again hp ho _ ih =>
          intro b hb d hd
          have hs : ∀ {s s' : BS}, Others (propEnv S) s s' → s' = s := by
            intro s s' h
            cases h with
            | resizes h =>
              cases h with
              | refl => rfl
              | bool h => exact h.elim
              | rat h => exact h.elim
            | assign _ h => exact h.elim
          have := hs ho
          subst this
          exact ih true (good_propagates hb hp).1 d hd
      exact this hp b hb d (by simp)
  have hdone : ∀ {s : BS}, PropRun (propEnv S) c.s [] s → PS A n true .complete s := by
    intro s hp
    rcases ps_propRun hs hp with ⟨-, e⟩ | ⟨d, e1, -⟩
    · exact e
    · cases e1
  have hlearn : ∀ {s : BS} {d : Clause} {ls : List Clause} {lvl : Int},
      PS A n true .conflict s → (∀ l ∈ d, evalLit s.t.bools l = some false) → Ent AnyModel A d →
      Learned s [d] ls lvl →
      (∀ c ∈ ls, ClauseOk s c ∧ Ent AnyModel A c) ∧ ∃ c' L, ls = [c'] ∧ lvl = (L : Nat) ∧
        L < s.t.decisionLevel ∧ Asserting s L c' := by
    intro s d ls lvl h1 h2 h3 h4
    have hsp := learned_spec h1.good (cs := [d]) (by
      intro c hc; rw [List.mem_singleton] at hc; subst hc; exact ⟨h2, h3⟩) h4
    refine ⟨hsp.1, ?_⟩
    obtain ⟨learned, g1, g2, g3⟩ := h4.analysed
    obtain ⟨c', lvl', e1, e2⟩ := prop_asserting h1.good h1.tr h2
    rw [analyzeConflicts_one, e1] at g1
    simp only [Option.map_some, Option.some.injEq, Prod.mk.injEq] at g1
    obtain ⟨g1, g1'⟩ := g1
    subst g1 g1'
    rw [learnSelect_one] at g3
    rcases e2 with rfl | ⟨L, e2, e3, e4⟩
    · simp at g2
    · exact ⟨c', L, g3, e2, e3, e4⟩
  cases hi with
  | unsatZero => exact ⟨by simp, by simp⟩
  | unsatEmpty => exact ⟨by simp, by simp⟩
  | restart hp hne h0 hl he =>
    refine ⟨by simp, ?_⟩
    rintro c' h'; cases h'
    obtain ⟨d, rfl, h1, h2, h3⟩ := hconf hp hne
    exact ⟨Or.inr (ps_restart h1 (hlearn h1 h2 h3 hl).1 _), orderOk_events ho he⟩
  | uip hp hne h0 hl he hL hsp =>
    refine ⟨by simp, ?_⟩
    rintro c' h'; cases h'
    obtain ⟨d, rfl, h1, h2, h3⟩ := hconf hp hne
    obtain ⟨g1, c1, L1, rfl, g3, g4, g5⟩ := hlearn h1 h2 h3 hl
    have : L1 = _ := (Int.ofNat.inj g3).symm
    subst this
    exact ⟨Or.inl (ps_uip h1 (g1 c1 (by simp)).1 (g1 c1 (by simp)).2 g5 g4), orderOk_events ho he⟩
  | @split cs s ls L o c0 x hp hne h0 hl he hL hhd hsp hx hpre =>
    refine ⟨by simp, ?_⟩
    rintro c' h'; cases h'
    exfalso
    obtain ⟨d, rfl, h1, h2, h3⟩ := hconf hp hne
    obtain ⟨g1, c1, L1, rfl, g3, g4, ⟨y, rest, rfl, ⟨k, g5, g6⟩, g7, -⟩⟩ := hlearn h1 h2 h3 hl
    simp at hhd
    subst hhd
    cases rest with
    | nil => simp [isSemanticSplit] at hsp
    | cons z zs =>
      obtain ⟨-, k', hk', e⟩ := g7 z (by simp)
      simp [isSemanticSplit, g5, e] at hsp
      omega
  | @sat s o hp hpk =>
    refine ⟨?_, by simp⟩
    intro s' e; cases e
    have h1 := hdone hp
    refine ⟨h1, ?_⟩
    have := orderOk_pick ho h1.num h1.good.base.inv
    rw [← hpk.1] at this
    intro v hv
    exact this (.bool v) ⟨rfl, show v < s.t.bools.num by rw [h1.num]; exact hv⟩
  | @decideBool s o v hp hpk =>
    refine ⟨by simp, ?_⟩
    rintro c' h'; cases h'
    have h1 := hdone hp
    have hpick := orderOk_pick ho h1.num h1.good.base.inv
    rw [← hpk.1] at hpick
    obtain ⟨b, e⟩ := decide_eq_decideOther s v
    refine ⟨Or.inl ?_, by rw [hpk.2]; exact ho⟩
    simp only
    rw [e]
    exact ps_decide h1 ⟨hpick.1.2, hpick.2, rfl⟩
  | decideRat _ _ hch => exact hch.elim

theorem pgood_start {A : List Clause} {c : CS (Evsids S)} (h : PropStart A c) :
    PGood A c.s.t.bools.num c := by
  have hlev : ∀ v, c.s.t.level v = none := by intro v; rw [h.start.empty]; rfl
  have hre : ∀ v, c.s.t.reason v = none := by intro v; rw [h.start.empty]; rfl
  refine ⟨Or.inr ⟨good_start h.start, Hist.start _ h.start.empty h.start.db, ⟨h.start.na, ?_, ?_⟩,
    ⟨tight_of_noReason hre, zeroReason_of_unassigned hlev, ?_, ?_⟩, rfl⟩, ?_⟩
  · rw [h.start.cls]
  · intro r hr
    have : c.s.clause r = A[r] := by
      simp [clause, h.start.cls, List.getD_eq_getElem?_getD, List.getElem?_eq_getElem hr]
    rw [this]
  · intro i a ha
    rw [h.start.empty] at ha
    rcases i with _ | i <;> simp [Trail.assigned, Trail.clear] at ha
  · intro v w k hv; rw [hlev] at hv; cases hv
  · refine ⟨[.resize c.s.t.bools.num, .init A], rfl, ?_⟩
    rw [h.order]; rfl

theorem pgood_reach {A : List Clause} {c0 c : CS (Evsids S)} (h : PropStart A c0)
    (hr : Reach (propEnv S) c0 c) : PGood A c0.s.t.bools.num c := by
  induction hr with
  | refl => exact pgood_start h
  | step _ hi ih => exact (pgood_iter ih hi).2 _ rfl

theorem sound_propEnv : Sound (propEnv S) AnyModel :=
  ⟨fun _ _ _ h => h.elim, fun _ _ h => h.elim⟩

theorem picksFree_prop {A : List Clause} {n : Nat} {c : CS (Evsids S)} (h : PGood A n c) :
    PicksFree (propEnv S) c := by
  intro s v o' hp hpk
  rcases ps_propRun h.1 hp with ⟨-, h1⟩ | ⟨d, e, -⟩
  · have hpick := orderOk_pick h.2 h1.num h1.good.base.inv
    rw [← hpk.1] at hpick
    exact ⟨hpick.1.2, hpick.2⟩
  · cases e

theorem pgood_good {A : List Clause} {n : Nat} {c : CS (Evsids S)} (h : PGood A n c) :
    ∃ b, Good AnyModel A b c.s := by
  rcases h.1 with h | h
  · exact ⟨_, h.good⟩
  · exact ⟨_, h.good⟩

end Check
end Yaga
