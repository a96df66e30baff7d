/-
The check loop of the propositional solver ends: every conflict adds a clause that no clause of the database
subsumes, and between conflicts every iteration assigns a variable.
-/
import Verif.Proofs.CheckProp
import Verif.Props.C08
import Mathlib.Data.Finset.Powerset
import Mathlib.Algebra.Order.BigOperators.Group.Finset
import Mathlib.Tactic.Linarith

namespace Yaga
namespace Check
open Spec BS

variable {S : Type} [LinearOrder S] [ScoreOps S]

/-- The literal has the value at a level up to `k`. -/
def At (t : Trail Nat) (k : Nat) (l : Lit) (b : Bool) : Prop :=
  evalLit t.bools l = some b ∧ ∃ j ≤ k, t.level l.var = some j

/-- Two trails agree up to level `k`. -/
def SameLow (k : Nat) (t t' : Trail Nat) : Prop := ∀ l b, At t k l b ↔ At t' k l b

/-- Unit propagation is complete for the assignments up to level `k`. -/
def Closed (s : BS) (k : Nat) : Prop := ∀ c ∈ s.cls, c.Nodup → ∀ x ∈ c,
  (∀ m ∈ c, m ≠ x → At s.t k m false) → At s.t k x true

/-- It is so for all levels below the current one. -/
def ClosedBelow (s : BS) : Prop := ∀ k < s.t.decisionLevel, Closed s k

theorem eval_of_level {t : Trail Nat} (hi : t.Inv) {l : Lit} {k : Nat} (h : t.level l.var = some k) :
    ∃ b, evalLit t.bools l = some b := by
  have hd : t.bools.defined l.ord = true := (hi.defined l.var).2 ⟨k, h⟩
  unfold evalLit
  rw [if_pos hd]
  exact ⟨_, rfl⟩

theorem level_of_eval {t : Trail Nat} (hi : t.Inv) {l : Lit} {b : Bool} (h : evalLit t.bools l = some b) :
    ∃ k, t.level l.var = some k := by
  refine (hi.defined l.var).1 ?_
  unfold evalLit at h
  split at h
  · assumption
  · cases h

theorem sameLow_grow {t t' : Trail Nat} {k : Nat} (hi : t.Inv) (hg : Grow t t')
    (hn : ∀ v j, t.level v = none → t'.level v = some j → k < j) : SameLow k t t' := by
  intro l b
  constructor
  · rintro ⟨h1, j, h2, h3⟩
    exact ⟨hg.keep _ _ h1, j, h2, hg.old _ _ h3⟩
  · rintro ⟨h1, j, h2, h3⟩
    rcases h : t.level l.var with _ | j0
    · have := hn _ _ h h3; omega
    · have e := hg.old _ _ h
      rw [h3] at e; cases e
      obtain ⟨b0, hb⟩ := eval_of_level hi h
      have := hg.keep _ _ hb
      rw [h1] at this; cases this
      exact ⟨hb, j, h2, h⟩

theorem SameLow.trans {k : Nat} {t1 t2 t3 : Trail Nat} (h : SameLow k t1 t2) (h' : SameLow k t2 t3) :
    SameLow k t1 t3 := fun l b => (h l b).trans (h' l b)

theorem sameLow_backtrack {t : Trail Nat} (hi : t.Inv) {L k : Nat} (hL : L ≤ t.decisionLevel) (hk : k ≤ L) :
    SameLow k t (t.backtrack L) := by
  obtain ⟨-, b2, b3, -, -⟩ := Trail.backtrack_spec hi L hL
  intro l b
  constructor
  · rintro ⟨h1, j, h2, h3⟩
    refine ⟨by rw [evalLit_backtrack_low hi hL h3 (by omega)]; exact h1, j, h2, ?_⟩
    rw [(b3 l.var (by intro m hm; rw [h3] at hm; cases hm; omega)).1]; exact h3
  · rintro ⟨h1, j, h2, h3⟩
    rcases h : t.level l.var with _ | j0
    · rw [(b3 l.var (by intro m hm; rw [h] at hm; cases hm)).1, h] at h3; cases h3
    · rcases Nat.lt_or_ge L j0 with hlt | hge
      · rw [(b2 _ _ h hlt).1] at h3; cases h3
      · rw [(b3 l.var (by intro m hm; rw [h] at hm; cases hm; exact hge)).1, h] at h3
        cases h3
        rw [evalLit_backtrack_low hi hL h hge] at h1
        exact ⟨h1, j, h2, h⟩

theorem closed_congr {s s' : BS} {k : Nat} (h : Closed s k) (hs : SameLow k s.t s'.t)
    (hc : ∀ c ∈ s'.cls, ∃ c0 ∈ s.cls, c.Perm c0) : Closed s' k := by
  intro c hm hnd x hx hf
  obtain ⟨c0, h0, hp⟩ := hc c hm
  refine (hs x true).1 (h c0 h0 (hp.nodup_iff.1 hnd) x (hp.mem_iff.1 hx) fun m hm' hne => ?_)
  exact (hs m false).2 (hf m (hp.mem_iff.2 hm') hne)

/-- A complete state is closed at the current level. -/
theorem closed_complete {s : BS} (hi : s.t.Inv) (hh : Hist .complete s) : Closed s s.t.decisionLevel := by
  intro c hc hnd x hx hf
  have hnot := C14_propagation_complete hh c hc
  rcases hv : evalLit s.t.bools x with _ | b
  · exfalso
    refine hnot (Or.inr ?_)
    obtain ⟨xs, ys, rfl⟩ := List.append_of_mem hx
    refine ⟨xs, x, ys, rfl, hv, fun m hm => ?_⟩
    have hne : m ≠ x := by
      rintro rfl
      rw [List.nodup_append] at hnd
      rcases List.mem_append.1 hm with hm | hm
      · exact hnd.2.2 m hm m (by simp) rfl
      · exact (List.nodup_cons.1 hnd.2.1).1 hm
    exact (hf m (by
      rcases List.mem_append.1 hm with hm | hm
      · simp [hm]
      · simp [hm]) hne).1
  · cases b with
    | false =>
      exfalso
      refine hnot (Or.inl fun m hm => ?_)
      by_cases e : m = x
      · rw [e]; exact hv
      · exact (hf m hm e).1
    | true =>
      obtain ⟨j, hj⟩ := level_of_eval hi hv
      exact ⟨hv, j, hi.bound _ _ hj, hj⟩

/-- What propagation keeps. -/
structure Kept (s s' : BS) : Prop where
  dl : s'.t.decisionLevel = s.t.decisionLevel
  low : ∀ k < s.t.decisionLevel, SameLow k s.t s'.t
  perm : ∀ r, (s'.clause r).Perm (s.clause r)
  len : s'.cls.length = s.cls.length
  old : ∀ v k, s.t.level v = some k → s'.t.level v = some k

theorem Kept.cls {s s' : BS} (h : Kept s s') : (∀ c ∈ s'.cls, ∃ c0 ∈ s.cls, c.Perm c0) ∧
    (∀ c ∈ s.cls, ∃ c0 ∈ s'.cls, c.Perm c0) := by
  constructor
  · intro c hc
    obtain ⟨r, hr, rfl⟩ := mem_clause hc
    exact ⟨s.clause r, clause_mem (by rw [← h.len]; exact hr), h.perm r⟩
  · intro c hc
    obtain ⟨r, hr, rfl⟩ := mem_clause hc
    exact ⟨s'.clause r, clause_mem (by rw [h.len]; exact hr), (h.perm r).symm⟩

theorem kept_propagates {A : List Clause} {b : Bool} {s s' : BS} {c : Option Clause}
    (h : Good AnyModel A b s) (hp : Propagates s c s') : Kept s s' := by
  obtain ⟨s0, a1, a2, a3, -, -, -, -, hx, b1, b2, -, -, b5⟩ := propagates_spec (Q := fun _ => False)
    h.base.inv h.base.db (fun h' => h.base.ws (Or.inr h')) (by simp) (by simp) hp
  have hcl : s0.clause = s.clause := by funext r; simp [clause, a1]
  have hg : Grow s.t s'.t := by
    refine ⟨b1, ?_, ?_, ?_⟩
    · rw [← a2]; exact hx.lists
    · rw [← a2]; exact fun v k hv => (hx.old v k hv).1
    · rw [← a2]; exact hx.keep
  refine ⟨by rw [hx.dl, a2], fun k hk => sameLow_grow h.base.inv hg fun v j h0 h1 => ?_,
    fun r => by rw [← hcl]; exact hx.cls.perm r, by rw [hx.cls.len, a1], hg.old⟩
  obtain ⟨-, e, -⟩ := hx.new v j (by rw [a2]; exact h0) h1
  rw [a2] at e
  omega

theorem Kept.trans {s1 s2 s3 : BS} (h : Kept s1 s2) (h' : Kept s2 s3) : Kept s1 s3 :=
  ⟨h'.dl.trans h.dl, fun k hk => (h.low k hk).trans (h'.low k (by rw [h.dl]; exact hk)),
    fun r => (h'.perm r).trans (h.perm r), h'.len.trans h.len, fun v k hv => h'.old v k (h.old v k hv)⟩

theorem kept_propRun {A : List Clause} {b : Bool} {s s' : BS} {cs : List Clause}
    (h : Good AnyModel A b s) (hr : PropRun (propEnv S) s cs s') : Kept s s' := by
  induction hr generalizing b with
  | boolConflict hp => exact kept_propagates h hp
  | otherConflict _ _ hne hc =>
    obtain ⟨c, hc'⟩ := List.exists_mem_of_ne_nil _ hne
    exact (hc c hc').elim
  | done hp hz =>
    cases hz with
    | refl => exact kept_propagates h hp
    | bool h => exact h.elim
    | rat h => exact h.elim
  | again hp ho _ ih =>
    have hs : ∀ {s s' : BS}, Others (propEnv S) s s' → s' = s := by
      intro s s' h
      cases h with
      | resizes h =>
        cases h with
        | refl => rfl
        | bool h => exact h.elim
        | rat h => exact h.elim
      | assign _ h => exact h.elim
    have := hs ho
    subst this
    exact (kept_propagates h hp).trans (ih (good_propagates h hp).1)

theorem closedBelow_kept {s s' : BS} (h : ClosedBelow s) (hk : Kept s s') : ClosedBelow s' := by
  intro k hlt
  rw [hk.dl] at hlt
  exact closed_congr (h k hlt) (hk.low k hlt) hk.cls.1

/-- A learned clause is not subsumed. -/
theorem learned_new {A : List Clause} {s : BS} (h : Good AnyModel A true s) (hc : ClosedBelow s) {c : Clause} {L : Nat}
    (hL : L < s.t.decisionLevel) (ha : Asserting s L c) (hf : ∀ l ∈ c, evalLit s.t.bools l = some false) :
    ∀ d ∈ s.cls, d.Nodup → ¬ d ⊆ c := by
  intro d hd hnd hsub
  obtain ⟨x, rest, rfl, -, a2, -, -⟩ := ha
  have hlow : ∀ m ∈ d, m ≠ x → At s.t (s.t.decisionLevel - 1) m false := by
    intro m hm hne
    rcases List.mem_cons.1 (hsub hm) with e | hm'
    · exact absurd e hne
    · obtain ⟨h1, k, h2, h3⟩ := a2 m hm'
      exact ⟨h1, k, by omega, h3⟩
  have hcl := hc (s.t.decisionLevel - 1) (by omega) d hd hnd
  have hcontra : ∀ y ∈ d, (∀ m ∈ d, m ≠ y → At s.t (s.t.decisionLevel - 1) m false) → False := by
    intro y hy hm
    have h1 := (hcl y hy hm).1
    rw [hf y (hsub hy)] at h1
    cases h1
  by_cases hx : x ∈ d
  · exact hcontra x hx hlow
  · have hne : d ≠ [] := by
      obtain ⟨r, hr, rfl⟩ := mem_clause hd
      exact h.base.db.ne r hr
    obtain ⟨y, hy⟩ := List.exists_mem_of_ne_nil _ hne
    refine hcontra y hy fun m hm _ => hlow m hm ?_
    rintro rfl
    exact hx hm

theorem closedBelow_uip {A : List Clause} {n : Nat} {s : BS} (h : PS A n true .conflict s) (hc : ClosedBelow s)
    {c : Clause} {L : Nat} (hok : ClauseOk s c) (he : Ent AnyModel A c) (ha : Asserting s L c)
    (hL : L < s.t.decisionLevel) : ClosedBelow ((s.learnAll [c]).backtrackUip [c] L) := by
  have hl : ∀ d ∈ [c], ClauseOk s d ∧ Ent AnyModel A d := by
    intro d hd; rw [List.mem_singleton] at hd; subst hd; exact ⟨hok, he⟩
  obtain ⟨x, rest, rfl, ⟨k0, hk0, hkL⟩, a2, a3, a4⟩ := ha
  obtain ⟨g1, g2, g3, g4⟩ := good_learnAll h.good hl
  set s1 := s.learnAll [x :: rest] with hs1
  have hi := h.good.base.inv
  have hL1 : L ≤ s1.t.decisionLevel := by rw [g2]; omega
  have g5 := good_backtrackTo g1 hL1
  have hbt : (s1.backtrackTo L).t = s.t.backtrack L := by
    show s1.t.backtrack L = _; rw [g2]
  have hbdl : (s1.backtrackTo L).t.decisionLevel = L := by
    rw [hbt]; exact Trail.decisionLevel_backtrack hi L (by omega)
  obtain ⟨b1, b2, b3, b4, b5⟩ := Trail.backtrack_spec hi L (show L ≤ s.t.decisionLevel by omega)
  have hxu : (s1.backtrackTo L).t.level x.var = none := by rw [hbt]; exact (b2 _ _ hk0 hkL).1
  have hxd : (s1.backtrackTo L).t.bools.defined x.ord = false := by
    rw [hbt]; exact (b2 _ _ hk0 hkL).2.2
  have heq : s1.backtrackUip [x :: rest] L = (s1.backtrackTo L).assignLit x
      (some (s1.cls.length - 1)) L := by
    simp [backtrackUip, propHeads, hxd]
  have hpre : (s1.backtrackTo L).t.Pre (.propagate x.var (some (s1.cls.length - 1)) L (.b (!x.isNeg))) := by
    refine ⟨?_, hxu, rfl, by omega⟩
    have h2 : x.ord < s.t.bools.num := hok.2 x (by simp)
    show x.ord < (s1.backtrackTo L).t.bools.num
    rw [hbt, numBools_backtrack hi (by omega)]
    exact h2
  have hg := grow_propagate g5.base.inv hpre
  have hdl : (s1.backtrackUip [x :: rest] L).t.decisionLevel = L := by
    rw [heq]
    show (((s1.backtrackTo L).t.propagate x.var (some (s1.cls.length - 1)) L).setValue x.var
      (.b (!x.isNeg))).decisionLevel = L
    refine Eq.trans ?_ hbdl
    simp only [Trail.decisionLevel, Trail.levels_setValue, Trail.propagate, Trail.length_pushFrom]
  intro k hk
  rw [hdl] at hk
  have hlow : SameLow k s.t (s1.backtrackUip [x :: rest] L).t := by
    have h1 : SameLow k s.t (s1.backtrackTo L).t := by
      rw [hbt]; exact sameLow_backtrack hi (by omega) (by omega)
    refine h1.trans ?_
    rw [heq]
    refine sameLow_grow g5.base.inv hg fun v j h0 h1 => ?_
    change ((((s1.backtrackTo L).t.propagate x.var (some (s1.cls.length - 1)) L).setValue x.var
      (.b (!x.isNeg))).level v = some j) at h1
    simp only [Trail.level_setValue, Trail.propagate, Function.update_apply] at h1
    split at h1
    · cases h1; exact hk
    · rw [h0] at h1; cases h1
  have hcls : (s1.backtrackUip [x :: rest] L).cls = s.cls ++ [x :: rest] := by rw [heq]; exact g3
  have hold := hc k (by omega)
  intro d hd hnd y hy hf
  rw [hcls] at hd
  rcases List.mem_append.1 hd with hd | hd
  · exact (hlow y true).1 (hold d hd hnd y hy fun m hm hne => (hlow m false).2 (hf m hm hne))
  · exfalso
    rw [List.mem_singleton] at hd
    subst hd
    cases hr : rest with
    | nil => have := a3 hr; omega
    | cons z zs =>
      have hz := a4 z zs hr
      have hnot : ∀ m : Lit, m ∈ x :: rest → (∀ j, s.t.level m.var = some j → k < j) → m = y := by
        intro m hm hj
        by_contra hne
        obtain ⟨-, j, h2, h3⟩ := (hlow m false).2 (hf m hm hne)
        have := hj j h3
        omega
      have h1 := hnot x (by simp) (by intro j hj; rw [hk0] at hj; cases hj; omega)
      have h2 := hnot z (by simp [hr]) (by intro j hj; rw [hz] at hj; cases hj; omega)
      rw [h1, ← h2] at hk0
      rw [hz] at hk0
      cases hk0
      omega

theorem closedBelow_decide {A : List Clause} {n : Nat} {s : BS} (h : PS A n true .complete s) (hc : ClosedBelow s)
    {v : Var} {x : Val} (hp : s.t.Pre (.decide v x)) : ClosedBelow (s.decideOther v x) := by
  have hi := h.good.base.inv
  have hg := grow_decide hi hp
  have hpos := hi.length_pos
  have hdl : (s.decideOther v x).t.decisionLevel = s.t.decisionLevel + 1 := by
    simp only [decideOther, Trail.decisionLevel, Trail.levels_setValue, Trail.decide, List.length_append,
      List.length_singleton]
    omega
  intro k hk
  rw [hdl] at hk
  have hlow : SameLow k s.t (s.decideOther v x).t := by
    refine sameLow_grow hi hg fun w j h0 h1 => ?_
    change (((s.t.decide v).setValue v x).level w = some j) at h1
    simp only [Trail.level_setValue, Trail.decide, Function.update_apply] at h1
    split at h1
    · cases h1
      simp only [Trail.decisionLevel] at hk
      omega
    · rw [h0] at h1; cases h1
  refine closed_congr (s := s) ?_ hlow (fun c hc => ⟨c, hc, List.Perm.refl _⟩)
  rcases Nat.lt_or_ge k s.t.decisionLevel with h1 | h1
  · exact hc k h1
  · have : k = s.t.decisionLevel := by omega
    subst this
    exact closed_complete hi h.hist

/-- The two kinds of iterations that do not end the loop. -/
theorem iter_cases {A : List Clause} {n : Nat} {c c' : CS (Evsids S)} (h : PGood A n c)
    (hi : Iter (propEnv S) c (.run c')) :
    (∃ s v b, PropRun (propEnv S) c.s [] s ∧ PS A n true .complete s ∧ v < n ∧ s.t.level (.bool v) = none ∧
      c'.s = s.decideOther (.bool v) (.b b)) ∨
    ∃ s d cl L, PropRun (propEnv S) c.s [d] s ∧ PS A n true .conflict s ∧ ClauseOk s cl ∧ Ent AnyModel A cl ∧
      cl.Nodup ∧ (∀ l ∈ cl, evalLit s.t.bools l = some false) ∧ L < s.t.decisionLevel ∧ Asserting s L cl ∧
      (c'.s = Check.restart (s.learnAll [cl]) c.old ∨ c'.s = (s.learnAll [cl]).backtrackUip [cl] L) := by
  obtain ⟨hs, ho⟩ := h
  have hgood : ∃ b, Good AnyModel A b c.s := by
    rcases hs with h | h
    · exact ⟨_, h.good⟩
    · exact ⟨_, h.good⟩
  obtain ⟨b, hb⟩ := hgood
  have hconf : ∀ {cs : List Clause} {s : BS}, PropRun (propEnv S) c.s cs s → cs ≠ [] →
      ∃ d, cs = [d] ∧ PS A n true .conflict s ∧ (∀ l ∈ d, evalLit s.t.bools l = some false) ∧
        Ent AnyModel A d := by
    intro cs s hp hne
    rcases ps_propRun hs hp with ⟨e, -⟩ | ⟨d, e1, e2, e3⟩
    · exact absurd e hne
    · subst e1
      exact ⟨d, rfl, e2, e3, ((good_propRun sound_propEnv hb hp).2 d (by simp)).2⟩
  have hlearn : ∀ {s : BS} {d : Clause} {ls : List Clause} {lvl : Int},
      PS A n true .conflict s → (∀ l ∈ d, evalLit s.t.bools l = some false) → Ent AnyModel A d →
      Learned s [d] ls lvl →
      ∃ cl L, ls = [cl] ∧ lvl = (L : Nat) ∧ ClauseOk s cl ∧ Ent AnyModel A cl ∧ cl.Nodup ∧
        (∀ l ∈ cl, evalLit s.t.bools l = some false) ∧ L < s.t.decisionLevel ∧ Asserting s L cl := by
    intro s d ls lvl h1 h2 h3 h4
    have hsp := learned_spec h1.good (cs := [d]) (by
      intro c hc; rw [List.mem_singleton] at hc; subst hc; exact ⟨h2, h3⟩) h4
    obtain ⟨learned, g1, g2, g3⟩ := h4.analysed
    obtain ⟨c', lvl', e1, e2⟩ := prop_asserting h1.good h1.tr h2
    obtain ⟨c0, lvl0, f1, -, f3, -⟩ := analyze_spec h1.good.base.inv h1.good.rok h1.tr.tight h1.tr.zero d h2
    have hnd : c'.Nodup := by
      have : c' = if c0 = [] then c0 else minimize s.clause s.t c0 := by
        have : analyzeOne s.clause s.t d = some (if c0 = [] then c0 else minimize s.clause s.t c0, lvl0) := by
          simp [analyzeOne, f1]
        rw [e1] at this
        cases this
        rfl
      rw [this]
      split
      · exact f3
      · exact (minimize_sublist _ _ _).nodup f3
    rw [analyzeConflicts_one, e1] at g1
    simp only [Option.map_some, Option.some.injEq, Prod.mk.injEq] at g1
    obtain ⟨g1, g1'⟩ := g1
    subst g1 g1'
    rw [learnSelect_one] at g3
    subst g3
    rcases e2 with rfl | ⟨L, e2, e3, e4⟩
    · simp at g2
    · exact ⟨c', L, rfl, e2, (hsp.1 c' (by simp)).1, (hsp.1 c' (by simp)).2, hnd, hsp.2.2 c' (by simp), e3, e4⟩
  cases hi with
  | restart hp hne h0 hl he =>
    obtain ⟨d, rfl, h1, h2, h3⟩ := hconf hp hne
    obtain ⟨cl, L, rfl, rfl, g1, g2, g3, g4, g5, g6⟩ := hlearn h1 h2 h3 hl
    exact Or.inr ⟨_, d, cl, L, hp, h1, g1, g2, g3, g4, g5, g6, Or.inl rfl⟩
  | @uip cs s ls L0 o hp hne h0 hl he hL hsp =>
    obtain ⟨d, rfl, h1, h2, h3⟩ := hconf hp hne
    obtain ⟨cl, L, rfl, e, g1, g2, g3, g4, g5, g6⟩ := hlearn h1 h2 h3 hl
    have : L0 = L := Int.ofNat.inj e
    subst this
    exact Or.inr ⟨_, d, cl, L0, hp, h1, g1, g2, g3, g4, g5, g6, Or.inr rfl⟩
  | @split cs s ls L o c0 x hp hne h0 hl he hL hhd hsp hx hpre =>
    exfalso
    obtain ⟨d, rfl, h1, h2, h3⟩ := hconf hp hne
    obtain ⟨cl, L1, rfl, -, -, -, -, -, g4, ⟨y, rest, rfl, ⟨k, g5, g6⟩, g7, -⟩⟩ := hlearn h1 h2 h3 hl
    simp at hhd
    subst hhd
    cases rest with
    | nil => simp [isSemanticSplit] at hsp
    | cons z zs =>
      obtain ⟨-, k', hk', e⟩ := g7 z (by simp)
      simp [isSemanticSplit, g5, e] at hsp
      omega
  | @decideBool s o v hp hpk =>
    left
    rcases ps_propRun hs hp with ⟨-, h1⟩ | ⟨d, e1, -⟩
    · have hpick := orderOk_pick ho h1.num h1.good.base.inv
      rw [← hpk.1] at hpick
      obtain ⟨b, e⟩ := decide_eq_decideOther s v
      refine ⟨s, v, b, hp, h1, ?_, hpick.2, e⟩
      have : v < s.t.bools.num := hpick.1.2
      rwa [h1.num] at this
    · cases e1
  | decideRat _ _ hch => exact hch.elim

/-! ### The measure -/

/-- The literals of the first `n` variables. -/
def litsBelow (n : Nat) : Finset Lit := (Finset.range n).biUnion fun v => {Lit.pos v, (Lit.pos v).neg}

theorem mem_litsBelow {n : Nat} {l : Lit} (h : l.ord < n) : l ∈ litsBelow n := by
  simp only [litsBelow, Finset.mem_biUnion, Finset.mem_range, Finset.mem_insert, Finset.mem_singleton]
  refine ⟨l.ord, h, ?_⟩
  have hx : Lit.ofVal l.ord (!l.isNeg) = l := Lit.ofVal_self l
  rw [← hx]
  cases l.isNeg <;> simp [Lit.ofVal]

theorem card_litsBelow (n : Nat) : (litsBelow n).card ≤ 2 * n := by
  refine (Finset.card_biUnion_le_card_mul _ _ 2 fun v _ => Finset.card_le_two).trans ?_
  rw [Finset.card_range]
  omega

open Classical in
/-- The clauses, as sets, that a clause of the database without repeated literals subsumes. -/
noncomputable def covered (n : Nat) (s : BS) : Finset (Finset Lit) :=
  (litsBelow n).powerset.filter fun C => ∃ d ∈ s.cls, d.Nodup ∧ ∀ l ∈ d, l ∈ C

/-- The variables without a value. -/
def free (n : Nat) (s : BS) : Finset Nat := (Finset.range n).filter fun v => s.t.level (.bool v) = none

theorem covered_le (n : Nat) (s : BS) : (covered n s).card ≤ 4 ^ n := by
  unfold covered
  refine (Finset.card_filter_le _ _).trans ?_
  rw [Finset.card_powerset]
  calc 2 ^ (litsBelow n).card ≤ 2 ^ (2 * n) := Nat.pow_le_pow_right (by omega) (card_litsBelow n)
    _ = 4 ^ n := by rw [pow_mul]; norm_num

theorem free_le (n : Nat) (s : BS) : (free n s).card ≤ n := by
  unfold free
  refine (Finset.card_filter_le _ _).trans ?_
  rw [Finset.card_range]

/-- Number of iterations that can follow. -/
noncomputable def fuelLeft (n : Nat) (s : BS) : Nat := (4 ^ n - (covered n s).card) * (n + 1) + (free n s).card

theorem covered_mono {n : Nat} {s s' : BS} (h : ∀ d ∈ s.cls, d.Nodup → ∃ d' ∈ s'.cls, d'.Nodup ∧ d' ⊆ d) :
    covered n s ⊆ covered n s' := by
  intro C hC
  simp only [covered, Finset.mem_filter] at hC ⊢
  obtain ⟨h1, d, h2, h3, h4⟩ := hC
  obtain ⟨d', g1, g2, g3⟩ := h d h2 h3
  exact ⟨h1, d', g1, g2, fun l hl => h4 l (g3 hl)⟩

theorem covered_grow {n : Nat} {s s' : BS} (h : ∀ d ∈ s.cls, d.Nodup → ∃ d' ∈ s'.cls, d'.Nodup ∧ d' ⊆ d)
    {c : Clause} (hc : ∃ d' ∈ s'.cls, d'.Nodup ∧ d' ⊆ c) (hn : ∀ l ∈ c, l.ord < n)
    (hnew : ∀ d ∈ s.cls, d.Nodup → ¬ d ⊆ c) : (covered n s).card < (covered n s').card := by
  refine Finset.card_lt_card ⟨covered_mono h, fun hsub => ?_⟩
  obtain ⟨d', g1, g2, g3⟩ := hc
  have hm : c.toFinset ∈ covered n s' := by
    simp only [covered, Finset.mem_filter, Finset.mem_powerset]
    refine ⟨fun l hl => mem_litsBelow (hn l (List.mem_toFinset.1 hl)), d', g1, g2, fun l hl => List.mem_toFinset.2 (g3 hl)⟩
  have := hsub hm
  simp only [covered, Finset.mem_filter] at this
  obtain ⟨-, d, h2, h3, h4⟩ := this
  exact hnew d h2 h3 fun l hl => List.mem_toFinset.1 (h4 l hl)

theorem fuel_conflict {n : Nat} {s s' : BS} (h : (covered n s).card < (covered n s').card) :
    fuelLeft n s' < fuelLeft n s := by
  have h1 := covered_le n s'
  have h2 := free_le n s'
  unfold fuelLeft
  have h3 : 4 ^ n - (covered n s').card + 1 ≤ 4 ^ n - (covered n s).card := by omega
  have h4 := Nat.mul_le_mul_right (n + 1) h3
  rw [Nat.add_mul] at h4
  omega

/-- All learned clauses have no repeated literals. -/
def LearnedNodup (s : BS) : Prop := ∀ r, s.na ≤ r → (s.clause r).Nodup

/-- The invariant. -/
structure TGood (A : List Clause) (n : Nat) (c : CS (Evsids S)) : Prop where
  good : PGood A n c
  closed : ClosedBelow c.s
  nodup : LearnedNodup c.s

theorem PS.na {A : List Clause} {n : Nat} {b : Bool} {st : Stage} {s : BS} (h : PS A n b st s) : s.na = A.length :=
  h.asr.na

/-- Every iteration that does not end the loop keeps the invariant and decreases the measure. -/
theorem tgood_step {A : List Clause} {n : Nat} {c c' : CS (Evsids S)} (h : TGood A n c)
    (hi : Iter (propEnv S) c (.run c')) : TGood A n c' ∧ fuelLeft n c'.s < fuelLeft n c.s := by
  have hg' := (pgood_iter h.good hi).2 _ rfl
  obtain ⟨b, hb⟩ := pgood_good h.good
  have hna : c.s.na = A.length := by
    rcases h.good.1 with h | h
    · exact h.na
    · exact h.na
  rcases iter_cases h.good hi with ⟨s, v, x, hp, hs, hv, hl, e⟩ | ⟨s, d, cl, L, hp, hs, g1, g2, g3, g4, g5, g6, e⟩
  · have hk := kept_propRun hb hp
    have hcl := closedBelow_kept h.closed hk
    have hpre : s.t.Pre (.decide (.bool v) (.b x)) := ⟨show v < s.t.bools.num by rw [hs.num]; exact hv, hl, rfl⟩
    have hnd : LearnedNodup s := by
      intro r hr
      rw [hs.na, ← hna] at hr
      exact (hk.perm r).nodup_iff.2 (h.nodup r hr)
    refine ⟨⟨hg', by rw [e]; exact closedBelow_decide hs hcl hpre, by rw [e]; exact hnd⟩, ?_⟩
    have hcov : covered n c'.s = covered n c.s := by
      apply Finset.Subset.antisymm
      · refine covered_mono fun d hd hdn => ?_
        rw [e] at hd
        obtain ⟨d', h1, h2⟩ := hk.cls.1 d hd
        exact ⟨d', h1, h2.nodup_iff.1 hdn, h2.symm.subset⟩
      · refine covered_mono fun d hd hdn => ?_
        rw [e]
        obtain ⟨d', h1, h2⟩ := hk.cls.2 d hd
        exact ⟨d', h1, h2.nodup_iff.1 hdn, h2.symm.subset⟩
    have hlt : (free n c'.s).card < (free n c.s).card := by
      have hlev : ∀ w, (s.decideOther (.bool v) (.b x)).t.level w =
          if w = .bool v then some s.t.levels.length else s.t.level w := by
        intro w
        simp only [decideOther, Trail.level_setValue, Trail.decide, Function.update_apply]
      have hsub : ∀ w, s.t.level w = none → c.s.t.level w = none := by
        intro w hw
        rcases h0 : c.s.t.level w with _ | k
        · rfl
        · rw [hk.old _ _ h0] at hw; cases hw
      refine Finset.card_lt_card ⟨fun w hw => ?_, fun hsup => ?_⟩
      · simp only [free, Finset.mem_filter, e, hlev] at hw ⊢
        obtain ⟨h1, h2⟩ := hw
        split at h2
        · cases h2
        · exact ⟨h1, hsub _ h2⟩
      · have : v ∈ free n c.s := by
          simp only [free, Finset.mem_filter, Finset.mem_range]
          exact ⟨hv, hsub _ hl⟩
        have := hsup this
        simp [free, e, hlev] at this
    unfold fuelLeft
    rw [hcov]
    omega
  · have hk := kept_propRun hb hp
    have hcl := closedBelow_kept h.closed hk
    have hnd : LearnedNodup s := by
      intro r hr
      rw [hs.na, ← hna] at hr
      exact (hk.perm r).nodup_iff.2 (h.nodup r hr)
    have hnew := learned_new hs.good hcl g5 g6 g4
    have hl1 : ∀ d ∈ [cl], ClauseOk s d ∧ Ent AnyModel A d := by
      intro d hd; rw [List.mem_singleton] at hd; subst hd; exact ⟨g1, g2⟩
    obtain ⟨-, k2, k3, k4⟩ := good_learnAll hs.good hl1
    have hn : ∀ l ∈ cl, l.ord < n := by
      intro l hl'
      have := g1.2 l hl'
      rwa [hs.num] at this
    have hnd1 : LearnedNodup (s.learnAll [cl]) := by
      intro r hr
      rw [k4] at hr
      simp only [clause, k3, List.getD_eq_getElem?_getD]
      rcases Nat.lt_or_ge r s.cls.length with h1 | h1
      · rw [List.getElem?_append_left h1]
        have := hnd r hr
        simpa only [clause, List.getD_eq_getElem?_getD] using this
      · rw [List.getElem?_append_right h1]
        rcases h2 : r - s.cls.length with _ | j
        · simpa using g3
        · simp
    have hcn : ∀ d ∈ c.s.cls, d.Nodup → ¬ d ⊆ cl := by
      intro d hd hdn hsub
      obtain ⟨d', h1, h2⟩ := hk.cls.2 d hd
      exact hnew d' h1 (h2.nodup_iff.1 hdn) fun l hl' => hsub (h2.mem_iff.2 hl')
    rcases e with e | e
    · -- restart
      have hcls : c'.s.cls = (s.learnAll [cl]).cls.take s.na ++
          removeSubsumed ((s.learnAll [cl]).cls.drop s.na) c.old := by
        rw [e]; simp only [Check.restart, k4]
      have hlearnt : ∀ d ∈ (s.learnAll [cl]).cls.drop s.na, d.Nodup ∧ d ≠ [] := by
        intro d hd
        obtain ⟨i, hi', rfl⟩ := List.getElem_of_mem hd
        rw [List.getElem_drop]
        have hlen : s.na + i < (s.learnAll [cl]).cls.length := by
          rw [List.length_drop] at hi'; omega
        have hcl' : (s.learnAll [cl]).clause (s.na + i) = (s.learnAll [cl]).cls[s.na + i] := by
          simp [clause, List.getD_eq_getElem?_getD, List.getElem?_eq_getElem hlen]
        rw [← hcl']
        refine ⟨hnd1 _ (by rw [k4]; omega), ?_⟩
        have := (good_learnAll hs.good hl1).1.base.db.ne (s.na + i) hlen
        exact this
      obtain ⟨r1, r2⟩ := C08_subsumption_covers ((s.learnAll [cl]).cls.drop s.na) c.old
      have hcover : ∀ d ∈ (s.learnAll [cl]).cls, d.Nodup → ∃ d' ∈ c'.s.cls, d'.Nodup ∧ d' ⊆ d := by
        intro d hd hdn
        rw [hcls]
        rw [← List.take_append_drop s.na (s.learnAll [cl]).cls] at hd
        rcases List.mem_append.1 hd with hd | hd
        · exact ⟨d, List.mem_append_left _ hd, hdn, fun _ h => h⟩
        · obtain ⟨d', h1, h2⟩ := r2 d hd (hlearnt d hd).2
          exact ⟨d', List.mem_append_right _ h1, (hlearnt d' (r1.subset h1)).1, h2⟩
      have hlt : (covered n c.s).card < (covered n c'.s).card := by
        refine covered_grow (c := cl) ?_ (hcover cl (by rw [k3]; simp) g3) hn hcn
        intro d hd hdn
        obtain ⟨d', h1, h2⟩ := hk.cls.2 d hd
        obtain ⟨d'', h3, h4, h5⟩ := hcover d' (by rw [k3]; exact List.mem_append_left _ h1) (h2.nodup_iff.1 hdn)
        exact ⟨d'', h3, h4, fun l hl' => h2.mem_iff.2 (h5 hl')⟩
      refine ⟨⟨hg', ?_, ?_⟩, fuel_conflict hlt⟩
      · intro k hk'
        exfalso
        rw [e] at hk'
        simp [Check.restart, Trail.clear, Trail.decisionLevel] at hk'
      · intro r hr
        have hna' : c'.s.na = s.na := by rw [e]; exact k4
        rw [hna'] at hr
        simp only [clause, hcls, List.getD_eq_getElem?_getD]
        have htl : ((s.learnAll [cl]).cls.take s.na).length ≤ r := by
          rw [List.length_take]; omega
        rw [List.getElem?_append_right htl]
        rcases h2 : (removeSubsumed ((s.learnAll [cl]).cls.drop s.na) c.old)[r - ((s.learnAll [cl]).cls.take s.na).length]? with _ | d'
        · simp
        · exact (hlearnt d' (r1.subset (List.mem_of_getElem? h2))).1
    · have hcls : c'.s.cls = s.cls ++ [cl] := by
        rw [e, ← k3]
        obtain ⟨x, rest, rfl, -⟩ := g6
        simp only [backtrackUip, propHeads]
        split <;> rfl
      have hna' : c'.s.na = s.na := by
        rw [e, ← k4]
        obtain ⟨x, rest, rfl, -⟩ := g6
        simp only [backtrackUip, propHeads]
        split <;> rfl
      have hlt : (covered n c.s).card < (covered n c'.s).card := by
        refine covered_grow (c := cl) ?_ ⟨cl, by rw [hcls]; simp, g3, fun _ h => h⟩ hn hcn
        intro d hd hdn
        obtain ⟨d', h1, h2⟩ := hk.cls.2 d hd
        exact ⟨d', by rw [hcls]; exact List.mem_append_left _ h1, h2.nodup_iff.1 hdn, fun l hl' => h2.mem_iff.2 hl'⟩
      refine ⟨⟨hg', by rw [e]; exact closedBelow_uip hs hcl g1 g2 g6 g5, ?_⟩, fuel_conflict hlt⟩
      intro r hr
      have := hnd1 r (by rw [k4]; rw [hna'] at hr; exact hr)
      simp only [clause, k3] at this
      simp only [clause, hcls]
      exact this

theorem tgood_start {A : List Clause} {c : CS (Evsids S)} (h : PropStart A c) : TGood A c.s.t.bools.num c := by
  refine ⟨pgood_start h, ?_, ?_⟩
  · intro k hk
    rw [h.start.empty] at hk
    simp [Trail.clear, Trail.decisionLevel] at hk
  · intro r hr
    rw [h.start.na] at hr
    simp [clause, h.start.cls, List.getD_eq_getElem?_getD, List.getElem?_eq_none hr]

end Check
end Yaga
