/-
C18: repeated calls of check.
-/
import Verif.Props.C16
import Verif.Props.C51

set_option linter.unusedVariables false

namespace Yaga
open Spec BS Check

variable {S : Type} [LinearOrder S] [ScoreOps S]

namespace C18Ex

def cls : List Clause := [[.pos 0, .pos 1]]
def more : List Clause := [[(Lit.pos 0).neg], [(Lit.pos 1).neg]]
def order : Evsids Int := (Evsids.new.step (.resize 2)).step (.init cls)
def c0 : CS (Evsids Int) := ⟨Ex.state 2 cls, 0, order⟩
def s1 : BS := ((propLoop 10 c0.s.initProp).getD (none, c0.s)).2
def s2 : BS := s1.decide (.bool 0)
def s3 : BS := ((propLoop 10 s2.initProp).getD (none, c0.s)).2
def s4 : BS := s3.decide (.bool 1)
def s5 : BS := ((propLoop 10 s4.initProp).getD (none, c0.s)).2
def c1 : CS (Evsids Int) := nextCheck s5 0 order more
def s6 : BS := ((propLoop 10 c1.s.initProp).getD (none, c0.s)).2

end C18Ex

/-- C18 does not hold: `check` answers sat for x0 ∨ x1; then ¬x0 and ¬x1 are asserted, and the next
`check` answers sat again. The watch lists are rebuilt only if the trail is empty
(src/bool/Bool_theory.cpp:77), and `init` does not clear the trail. -/
theorem C18_second_check_ignores_clauses :
    ∃ (A A' : List Clause) (c0 : CS (Evsids Int)) (s s' : BS), PropStart A c0 ∧
      Returns (propEnv Int) c0 (.sat s) ∧ s.cls.length = s.na ∧
      (∀ c ∈ A', ClauseOk s c) ∧
      Returns (propEnv Int) (nextCheck s c0.old c0.o A') (.sat s') ∧ Unsat (A ++ A') := by
  refine ⟨C18Ex.cls, C18Ex.more, C18Ex.c0, C18Ex.s5, C18Ex.s6,
    ⟨⟨rfl, rfl, rfl, rfl, ⟨by decide, by decide⟩⟩, rfl⟩, ?_, by decide,
    by unfold ClauseOk; decide, ?_, ?_⟩
  · refine ⟨⟨C18Ex.s4, 0, C18Ex.order⟩,
      .step (.step .refl (c' := ⟨C18Ex.s2, 0, C18Ex.order⟩) ?_) ?_, ?_⟩
    · exact .decideBool (c := C18Ex.c0) (s := C18Ex.s1) (n := 0) (.done ⟨10, rfl⟩ (.refl _))
        ⟨by decide, rfl⟩
    · exact .decideBool (c := ⟨C18Ex.s2, 0, C18Ex.order⟩) (s := C18Ex.s3) (n := 1)
        (.done ⟨10, rfl⟩ (.refl _)) ⟨by decide, rfl⟩
    · exact .sat (o := C18Ex.order) (.done ⟨10, rfl⟩ (.refl _)) ⟨by decide, rfl⟩
  · exact ⟨C18Ex.c1, .refl, .sat (o := C18Ex.c1.o) (.done ⟨10, rfl⟩ (.refl _)) ⟨by decide, rfl⟩⟩
  · intro σ h
    have h1 := h [(Lit.pos 0).neg] (by simp [C18Ex.more])
    have h2 := h [(Lit.pos 1).neg] (by simp [C18Ex.more])
    have h3 := h [.pos 0, .pos 1] (by simp [C18Ex.cls])
    simp only [clauseTrue, exists_eq_left, List.mem_cons, List.not_mem_nil,
      or_false, exists_eq_or_imp] at h1 h2 h3
    have h1 : σ 0 = false := h1
    have h2 : σ 1 = false := h2
    rcases h3 with h3 | h3
    · have h3 : σ 0 = true := h3
      simp_all
    · have h3 : σ 1 = true := h3
      simp_all

/-- Propagation finds nothing if all variables are assigned and no clause is false. -/
theorem propRun_total {A : List Clause} {n : Nat} {s s' : BS} {cs : List Clause}
    (hr : PropRun (propEnv S) s cs s') (h : PS A n true .ready s)
    (hall : ∀ v : Nat, v < n → s.t.level (.bool v) ≠ none)
    (ht : ∀ c ∈ s.cls, ∃ l ∈ c, evalLit s.t.bools l = some true) :
    cs = [] ∧ ∀ v : Nat, v < n → s'.t.level (.bool v) ≠ none := by
  have step : ∀ {s s' : BS} {c : Option Clause}, PS A n true .ready s → Propagates s c s' →
      (∀ v : Nat, v < n → s.t.level (.bool v) ≠ none) →
      (∀ c ∈ s.cls, ∃ l ∈ c, evalLit s.t.bools l = some true) →
      c = none ∧ (∀ v : Nat, v < n → s'.t.level (.bool v) ≠ none) ∧
      ∀ c ∈ s'.cls, ∃ l ∈ c, evalLit s'.t.bools l = some true := by
    intro s s' c h hp hall ht
    obtain ⟨s0, a1, a2, -, -, -, -, -, hx, b1, b2, -, -, b5⟩ := propagates_spec
      (Q := fun _ => False) h.good.base.inv h.good.base.db (fun h' => h.good.base.ws (Or.inr h'))
      (by simp) (by simp) hp
    have hcl : ∀ r, s0.clause r = s.clause r := fun r => by simp [clause, a1]
    have ht' : ∀ c ∈ s'.cls, ∃ l ∈ c, evalLit s'.t.bools l = some true := by
      intro d hd
      obtain ⟨r, hr, rfl⟩ := mem_clause hd
      have hr' : r < s.cls.length := by rw [hx.cls.len, a1] at hr; exact hr
      obtain ⟨l, hl, e⟩ := ht _ (clause_mem hr')
      refine ⟨l, ?_, hx.keep l true (by rw [a2]; exact e)⟩
      exact (hx.cls.perm r).mem_iff.2 (by rw [hcl]; exact hl)
    refine ⟨?_, ?_, ht'⟩
    · rcases c with _ | c
      · rfl
      · obtain ⟨g1, r, g2, rfl⟩ := b5 c rfl
        obtain ⟨l, hl, e⟩ := ht' _ (clause_mem g2)
        rw [g1 l hl] at e; cases e
    · intro v hv hl
      rcases hk : s.t.level (.bool v) with _ | k
      · exact hall v hv hk
      · rw [← a2] at hk
        rw [(hx.old _ _ hk).1] at hl; cases hl
  induction hr with
  | boolConflict hp => exact absurd (step h hp hall ht).1 (by simp)
  | otherConflict _ _ hne hc =>
    obtain ⟨c, hc'⟩ := List.exists_mem_of_ne_nil _ hne
    exact (hc c hc').elim
  | done hp hz =>
    cases hz with
    | refl => exact ⟨rfl, (step h hp hall ht).2.1⟩
    | bool h => exact h.elim
    | rat h => exact h.elim
  | again hp ho _ ih =>
    have hs : ∀ {s s' : BS}, Others (propEnv S) s s' → s' = s := by
      intro s s' h
      cases h with
      | resizes h =>
        cases h with
        | refl => rfl
        | bool h => exact h.elim
        | rat h => exact h.elim
      | assign _ h => exact h.elim
    have := hs ho
    subst this
    obtain ⟨h1, -⟩ := ps_propagates (Or.inl h) hp
    rw [if_pos rfl] at h1
    obtain ⟨-, g2, g3⟩ := step h hp hall ht
    exact ih ⟨h1.good, Hist.relax h1.hist, h1.asr, h1.tr, h1.num⟩ g2 g3

/-- What holds: if nothing was asserted in between, the next call returns sat at once, with a model
of all clauses. (Clauses asserted in between are missing here; see the theorem above.) -/
theorem C18_same_clauses_partial {A : List Clause} {c0 : CS (Evsids S)} (h : PropStart A c0) {s : BS}
    (hr : Returns (propEnv S) c0 (.sat s)) (old : Nat) (o : Evsids S)
    (ho : ∃ ops : List EvOp, o = ops.foldl Evsids.step .new) :
    (∃ s', Iter (propEnv S) (nextCheck s old o []) (.sat s')) ∧
    ∀ out, Iter (propEnv S) (nextCheck s old o []) out → ∃ s', out = .sat s' ∧
      (∀ n, n < c0.s.t.bools.num → s'.t.bools.defined n = true) ∧
      allTrue (fun n => s'.t.bools.value n) A := by
  obtain ⟨c, h1, h2⟩ := hr
  obtain ⟨hs, hall⟩ := (pgood_iter (pgood_reach h h1) h2).1 s rfl
  set n := c0.s.t.bools.num with hn
  obtain ⟨hdef, hA⟩ := ps_model hs hall
  have hready : PS A n true .ready s := ⟨hs.good, Hist.relax hs.hist, hs.asr, hs.tr, hs.num⟩
  have hc1 : (nextCheck s old o []).s = s := by
    simp [nextCheck]
  have ho1 : OrderOk n (nextCheck s old o []).o := by
    obtain ⟨ops, rfl⟩ := ho
    refine ⟨ops ++ [.resize n, .init s.cls], ?_, by simp [nextCheck, hs.num]⟩
    have key : ∀ (ops : List EvOp) m, lastResize (ops ++ [.resize n, .init s.cls]) m = n := by
      intro ops
      induction ops with
      | nil => intro m; rfl
      | cons op ops ih => intro m; cases op <;> exact ih _
    exact key ops 0
  have hp1 : PGood A n (nextCheck s old o []) := ⟨Or.inl (by rw [hc1]; exact hready), ho1⟩
  have ht : ∀ c ∈ s.cls, ∃ l ∈ c, evalLit s.t.bools l = some true := by
    intro d hd
    have hnb := C14_propagation_complete hs.hist d hd
    by_contra hcon
    refine hnb (Or.inl fun l hl => ?_)
    have hlt : l.ord < n := by
      obtain ⟨r, hr, rfl⟩ := mem_clause hd
      have := hs.good.base.db.range r hr l hl
      rwa [hs.num] at this
    rcases he : evalLit s.t.bools l with _ | b
    · simp [evalLit, hdef _ hlt] at he
    · rcases b with _ | _
      · rfl
      · exact absurd ⟨l, hl, he⟩ hcon
  have hrun : ∀ {cs s'}, PropRun (propEnv S) (nextCheck s old o []).s cs s' →
      cs = [] ∧ ∀ v : Nat, v < n → s'.t.level (.bool v) ≠ none := by
    intro cs s' hr
    rw [hc1] at hr
    exact propRun_total hr hready hall ht
  have hpick : ∀ {s'}, PropRun (propEnv S) (nextCheck s old o []).s [] s' →
      (nextCheck s old o []).o.pick s'.t.bools = none := by
    intro s' hr
    rcases ps_propRun hp1.1 hr with ⟨-, g⟩ | ⟨d, e, -⟩
    · have hpk := orderOk_pick ho1 g.num g.good.base.inv
      rcases hv : (nextCheck s old o []).o.pick s'.t.bools with _ | v
      · rfl
      · rw [hv] at hpk
        obtain ⟨⟨p1, p2⟩, p3⟩ := hpk
        rcases v with ⟨ty, m⟩
        have p1 : ty = .boolean := p1
        subst p1
        have p2 : m < s'.t.bools.num := p2
        rw [g.num] at p2
        exact absurd p3 ((hrun hr).2 m p2)
    · cases e
  constructor
  · obtain ⟨c', s', hs'⟩ := C51_propagation_terminates (nextCheck s old o []).s
    rcases c' with _ | d
    · have hr : PropRun (propEnv S) (nextCheck s old o []).s [] s' := .done hs' (.refl _)
      exact ⟨s', .sat (o := (nextCheck s old o []).o) hr ⟨(hpick hr).symm, rfl⟩⟩
    · exact absurd (hrun (.boolConflict hs')).1 (by simp)
  · intro out hi
    cases hi with
    | sat hr hpk =>
      rename_i s' o'
      exact ⟨s', rfl, ps_model ((pgood_iter hp1 (.sat hr hpk)).1 s' rfl).1 (hrun hr).2⟩
    | decideBool hr hpk =>
      have := hpk.1
      rw [hpick hr] at this; cases this
    | decideRat _ _ hch => exact hch.elim
    | unsatZero hr hne => exact absurd (hrun hr).1 hne
    | unsatEmpty hr hne => exact absurd (hrun hr).1 hne
    | restart hr hne => exact absurd (hrun hr).1 hne
    | uip hr hne => exact absurd (hrun hr).1 hne
    | split hr hne => exact absurd (hrun hr).1 hne

/-- The hypotheses hold in the run above. -/
example : ∃ ops : List EvOp, C18Ex.order = ops.foldl Evsids.step .new :=
  ⟨[.resize 2, .init C18Ex.cls], rfl⟩

#print axioms C18_second_check_ignores_clauses
#print axioms C18_same_clauses_partial

end Yaga
