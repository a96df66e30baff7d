/-
The answers of the solver for scripts of QF_UFLRA.
-/
import Verif.Proofs.UfLraIter
import Verif.Props.C44

namespace Yaga
namespace Ufl
open Spec BS Check TermTable Internalizer
open Qf (CoreQ TheoryQ BoolOk BoolInv)

variable {E : Env} {H : TermHash} {I : Interp} {O : Type} {W : QOrder O}

/-- What is known of a script whose assertions were converted. -/
theorem ok_of_check (hs : TReach H E.s) (hS : Supported E.cfg E.s) (hF : RealFns E.s) (h1 : OneVar E.s) {as : List Tm}
    (hb : ∀ a ∈ as, IsBool E.s a) (hc : check E.cfg E.s IState.init as = some (some E.st)) :
    Ok H E ∧ UF.Inv E.s E.st (UF.start Nat E.s E.st) true := by
  obtain ⟨f1, f2, f3⟩ := UF.check_facts hs.wf hS hb (UF.RealFns.roots hF hb) hc
  exact ⟨⟨hs.wf, f1, h1⟩, UF.start_inv hs.wf f1 f2 f3 hF⟩

/-- The invariant holds at the start. -/
theorem inv_start (hO : Ok H E) (h0 : UF.Inv E.s E.st (UF.start Nat E.s E.st) true) {P : List QAtom} {c : UC O}
    (h : Start E P c) : Inv E I E.st.clauses false .changed true c.u ∧ BoolInv E.st.clauses c.u.q.s := by
  obtain ⟨hc, _⟩ := Qf.core_start (Q := Fits E I) (op := E.op) h.qf
  have hc' : CoreQ (Fits E I) E.cfg.hv E.cfg.hc E.op E.st.store E.st.clauses false .changed c.u.q := by
    rw [← h.store]; exact hc
  obtain ⟨_, hlv, _⟩ := Qf.built_spec (op := E.op) h.qf.built
  obtain ⟨w, hg⟩ := hc.reach.good
  have hnone : ∀ v, c.u.q.la.trail.level v = none := by
    intro v
    cases hl : c.u.q.la.trail.level v with
    | none => rfl
    | some l =>
      obtain ⟨xs, h1, a, ha, _⟩ := hg.keep.base.tinv.own v l hl
      rw [show c.u.q.la.trail.levels = [[]] from hlv] at h1
      rcases l with _ | l
      · simp at h1; subst h1; cases ha
      · simp at h1
  refine ⟨⟨hc', h.rats, ⟨view_base hO.iinv hc.reach hc'.kept h.rats _, ?_, ?_, ?_, ?_⟩⟩, Qf.boolInv_start h.qf⟩
  · rw [h.fs]; intro e he; cases he
  · rw [h.fs]; exact h0.terms
  · rw [h.fs]; exact fun w hw => (h0.watch w hw).congr rfl
  · intro w hw x l _ hl
    exact absurd ((hnone x).symm.trans hl) (by simp)

theorem inv_reach (hO : Ok H E) (h0 : UF.Inv E.s E.st (UF.start Nat E.s E.st) true) {P : List QAtom} {c0 c : UC O}
    (h : Start E P c0) (hP : ∀ c, Reach E W c0 c → PicksFree E W c) (hr : Reach E W c0 c) :
    ∃ b stg d, stg ≠ .conflict ∧ Inv E I E.st.clauses b stg d c.u ∧ BoolInv E.st.clauses c.u.q.s := by
  induction hr with
  | refl =>
    obtain ⟨h1, h2⟩ := inv_start (I := I) hO h0 h
    exact ⟨_, _, _, by simp, h1, h2⟩
  | step hr hi ih =>
    obtain ⟨b, stg, d, hs, h1, h2⟩ := ih
    exact (inv_iter hO h1 hs h2 (hP _ hr) hi).2.2 _ rfl

/-- The state in which the solver answers `sat`. -/
theorem sat_state (hs : TReach H E.s) (hS : Supported E.cfg E.s) (hF : RealFns E.s) (h1 : OneVar E.s) {as : List Tm}
    (hb : ∀ a ∈ as, IsBool E.s a) (hc : check E.cfg E.s IState.init as = some (some E.st))
    {P : List QAtom} {c0 : UC O} (h : Start E P c0)
    (hP : ∀ c, Reach E W c0 c → PicksFree E W c ∧ PicksAll E W c) {x : US}
    (hr : Returns E W c0 (.sat x)) : UF.Inv E.s E.st (view E.st x.q.la x.f) true ∧ UF.Full E.st (view E.st x.q.la x.f) ∧
      Models E.st x.q.la.trail.bools.value x.q.la.trail.rats.value ∧
      (∀ n < E.st.numBool, x.q.la.trail.bools.defined n = true) ∧ ∀ n < E.st.numRat, x.q.la.trail.rats.defined n = true := by
  obtain ⟨hO, h0⟩ := ok_of_check hs hS hF h1 hb hc
  obtain ⟨c, hr1, hr2⟩ := hr
  have I : Interp := ufInterp E.st (view E.st x.q.la x.f) fun _ => 0
  obtain ⟨b, stg, d, hst, hI, hB⟩ := inv_reach (I := I) hO h0 h (fun c hc => (hP c hc).1) hr1
  obtain ⟨hx, hBo⟩ := (inv_iter hO hI hst hB (hP _ hr1).1 hr2).2.1 x rfl
  have hall : ∀ v : Var, v.ord < x.q.s.t.numVars v.type → x.q.s.t.level v ≠ none := by
    cases hr2 with
    | @sat x o la0 hp hpk =>
      have hall := (hP c hr1).2 _ _ _ hp hpk
      rw [← (W.queried hpk).frame.1, hx.core.trail] at hall
      exact hall
  have hn : x.q.s.t.rats.num = c0.u.q.la.trail.rats.num := by
    rw [← hx.core.trail, hx.num, h.rats]
  have hC : CoreQ (Fits E I) E.cfg.hv E.cfg.hc E.op c0.u.q.la.store E.st.clauses true .settled x.q := by
    rw [h.store]; exact hx.core
  have hm := (Qf.models_iff h.qf.built hO.iinv h.store _ _).2 (Qf.final_model h.qf hC hBo hn hall).1
  have hdef := (Qf.final_model h.qf hC hBo hn hall).2
  refine ⟨hx.uf, ?_, ?_, ?_, ?_⟩
  · intro p hp
    show (x.q.la.trail.level (Var.rat p.2)).isSome = true
    rw [hx.core.trail]
    refine Option.isSome_iff_ne_none.mpr (hall _ ?_)
    show p.2 < x.q.s.t.rats.num
    rw [← hx.core.trail, hx.num]
    exact (hO.iinv.rat p hp).2.2
  · show Models E.st x.q.la.trail.bools.value x.q.la.trail.rats.value
    rw [hx.core.trail]; exact hm
  · intro n hn'
    rw [hx.core.trail]
    refine hdef (.bool n) (?_ : n < x.q.s.t.bools.num)
    obtain ⟨w, hg⟩ := hx.core.reach.good
    have hl : x.q.la.store.cons.length = x.q.la.trail.bools.num := hg.keep.base.linv.len
    rw [← hx.core.trail, ← hl]
    rw [← hO.iinv.num] at hn'
    exact (List.getElem?_eq_some_iff.mp (hx.core.kept.cons n _ (List.getElem?_eq_getElem hn'))).1
  · intro n hn'
    rw [hx.core.trail]
    refine hdef (.rat n) (?_ : n < x.q.s.t.rats.num)
    rw [← hx.core.trail, hx.num]
    exact hn'

/-- The values in an interpretation of the assertions are a model of what the conversion created. -/
theorem complete_all {s : TermTable} (hs : TReach H s) {cfg : ICfg} {as : List Tm}
    (hb : ∀ a ∈ as, IsBool s a) {st : IState} (hc : check cfg s IState.init as = some (some st))
    (hh : Holds I s as) : ∃ m r, Models st m r ∧ AgreeAll I s st m r := by
  rcases check_cases hc with ⟨h1, _⟩ | ⟨_, st1, st2, h1, h2, h3⟩
  · cases h1
  cases h3
  have hstep := roots_step hs.wf as _ (iinv_init s) (fun t ht => .inl (hb t ht)) h1
  obtain ⟨m, r, h4, h5⟩ := hstep.compl I (fun _ => false) (fun _ => 0)
    ⟨by intro c hc; simp [IState.init] at hc, by
      intro k hk
      exact absurd (LinStore.terms_empty _) hk⟩ ⟨by simp [IState.init], by simp [IState.init]⟩
  obtain ⟨h6, h7⟩ := units_compl hs.wf hb h2 h4 h5 hh
  exact ⟨m, r, h6, h7⟩

theorem unsat_script (hs : TReach H E.s) (hS : Supported E.cfg E.s) (hF : RealFns E.s) (h1 : OneVar E.s) {as : List Tm}
    (hb : ∀ a ∈ as, IsBool E.s a) (hc : check E.cfg E.s IState.init as = some (some E.st))
    {P : List QAtom} {c0 : UC O} (h : Start E P c0) (hP : ∀ c, Reach E W c0 c → PicksFree E W c)
    (hr : Returns E W c0 .unsat) (I : Interp) : ¬ Holds I E.s as := by
  intro hh
  obtain ⟨hO, h0⟩ := ok_of_check hs hS hF h1 hb hc
  obtain ⟨m, r, hm, ha⟩ := complete_all hs hb hc hh
  obtain ⟨c, hr1, hr2⟩ := hr
  obtain ⟨b, stg, d, hst, hI, hB⟩ := inv_reach (I := I) hO h0 h hP hr1
  obtain ⟨x, stg', d', hx, hU⟩ := (inv_iter hO hI hst hB (hP _ hr1) hr2).1 rfl
  obtain ⟨w', hg⟩ := hx.core.reach.good
  obtain ⟨σ', g1, g2⟩ := Qf.theory_extend (σ := m) (ρ := r) hO.iinv.store hg.keep.base.inv hx.core.kept hg.keep.base.ne (by
    intro e he
    obtain ⟨k, hk1, hk2⟩ := hO.iinv.store.idx e he
    have hget : E.st.store.get k = e := by unfold LinStore.get; rw [hk2]; rfl
    have := hm.2 k (by rw [hget]; exact hO.iinv.nonempty e he)
    rw [hget] at this
    rw [hk1, litTrue_pos]; exact this) (Q := Fits E I) ha.rat
  apply hU
  refine ⟨σ', g1, ?_⟩
  intro cl hcl
  obtain ⟨l, hl, ht⟩ := hm.1 cl hcl
  refine ⟨l, hl, ?_⟩
  have hrange : l.ord < E.st.store.cons.length := by
    rw [hO.iinv.num]; exact hO.iinv.clauses cl hcl l hl
  unfold litTrue at ht ⊢
  rw [g2 _ hrange]; exact ht

theorem sat_script (hs : TReach H E.s) (hS : Supported E.cfg E.s) (hF : RealFns E.s) (h1 : OneVar E.s) {as : List Tm}
    (hb : ∀ a ∈ as, IsBool E.s a) (hc : check E.cfg E.s IState.init as = some (some E.st))
    {P : List QAtom} {c0 : UC O} (h : Start E P c0)
    (hP : ∀ c, Reach E W c0 c → PicksFree E W c ∧ PicksAll E W c) {x : US}
    (hr : Returns E W c0 (.sat x)) (dflt : Nat → ℚ) : Holds (ufInterp E.st (view E.st x.q.la x.f) dflt) E.s as := by
  obtain ⟨g1, g2, g3, _⟩ := sat_state hs hS hF h1 hb hc h hP hr
  exact UF.sat_holds hs.wf hS hF hb hc g1 g2 g3 dflt

end Ufl
end Yaga
