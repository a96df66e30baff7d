/-
C67: the solver for QF_UFLRA does not get stuck.
-/
import Verif.Proofs.BacktrackChecked
import Verif.Proofs.UfLraEnds
import Verif.Proofs.UfLraExample

namespace Yaga

open TermTable Spec Internalizer

/-- C67, functions: whenever the plugin for uninterpreted functions is called during a check, its `propagate` returns:
evaluating the arguments and creating the equalities does not fail. The call can be made in every round of
propagation, after rounds without conflict. Partial: functions have real arguments and values (`RealFns`), every
argument has at most one variable (`OneVar`), and the terms are supported by the conversion (`Supported`). -/
theorem C67_functions_partial {H : TermHash} (E : Ufl.Env) (hs : TReach H E.s) (hS : Supported E.cfg E.s)
    (hF : RealFns E.s) (h1 : OneVar E.s) {as : List Tm} (hb : ∀ a ∈ as, IsBool E.s a)
    (hc : check E.cfg E.s IState.init as = some (some E.st)) {O : Type} (W : QOrder O) (P : List QAtom) (c0 : UC O)
    (h : Ufl.Start E P c0) (hW : ∀ c, Ufl.Reach E W c0 c → Ufl.PicksFree E W c)
    (c : UC O) (hr : Ufl.Reach E W c0 c) (x : US) (hx : Relation.ReflTransGen (Ufl.Round E) c.u x)
    (s : BS) (hp : x.q.s.Propagates none s) (la : LA Nat) (hq : E.lra x.q s = (la, [])) :
    ∃ u cs, UF.propagate E.cfg E.s (Ufl.view E.st la x.f) = some (u, cs) := by
  obtain ⟨hO, h0⟩ := Ufl.ok_of_check hs hS hF h1 hb hc
  obtain ⟨b, stg, d, hst, hI, -⟩ :=
    Ufl.inv_reach (I := ⟨fun _ => false, fun _ => 0, fun _ _ => false, fun _ _ => 0⟩) hO h0 h hW hr
  obtain ⟨b1, stg1, d1, hs1, hI1⟩ := Ufl.inv_rounds hO hI hst hx
  obtain ⟨stg2, hs2, hI2, -⟩ := Ufl.inv_bool hO hI1 hs1 hp
  obtain ⟨w, g1, g2, g3⟩ := Ufl.lra_frame hI2.core.reach hs2 hq
  obtain ⟨u, cs, hu, -⟩ := UF.propagate_spec hO.wf (cfg := E.cfg) (Ufl.inv_lra hO hI2 g1 g2 g3).uf
  exact ⟨u, cs, hu⟩

namespace Ufl
open BS Check

/-- What holds for a reachable state after propagation has found conflicts. -/
theorem at_conflict {H : TermHash} {E : Env} (hO : Ok H E) (h0 : UF.Inv E.s E.st (UF.start Nat E.s E.st) true)
    {O : Type} {W : QOrder O} {P : List QAtom} {c0 : UC O} (h : Start E P c0)
    (hW : ∀ c, Reach E W c0 c → PicksFree E W c) {c : UC O} (hr : Reach E W c0 c)
    {cs : List Clause} {x : US} (hp : UProp E c.u cs x) (hne : cs ≠ []) :
    ∃ (I : Interp) (st : Stage), Qf.CoreQ (Fits E I) E.cfg.hv E.cfg.hc E.op E.st.store E.st.clauses true st x.q ∧
      Qf.DecOk x.q.s.t ∧ Qf.BoolOk E.st.clauses .conflict x.q.s ∧ Qf.Confl (Fits E I) E.st.clauses x.q cs := by
  obtain ⟨b, stg, d, hst, hI, hB⟩ :=
    inv_reach (I := ⟨fun _ => false, fun _ => 0, fun _ _ => false, fun _ _ => 0⟩) hO h0 h hW hr
  obtain ⟨st', d', k1, _, k2, k3⟩ := inv_prop hO hp hI hst
  have hB' := k3 hB
  rw [if_neg hne] at hB'
  exact ⟨_, st', k1.core, dec_prop hO hp hI hst (dec_reach hO h0 h hW hr), hB', k2⟩

end Ufl

/-- C67, analysis: whenever propagation reports conflicts, the analysis does not fail, and either it finds the empty
clause or there is a learned clause and the level to which the solver backtracks is below the current level.
Partial: as for `C67_functions_partial`. -/
theorem C67_analysis_partial {H : TermHash} (E : Ufl.Env) (hs : TReach H E.s) (hS : Supported E.cfg E.s)
    (hF : RealFns E.s) (h1 : OneVar E.s) {as : List Tm} (hb : ∀ a ∈ as, IsBool E.s a)
    (hc : check E.cfg E.s IState.init as = some (some E.st)) {O : Type} (W : QOrder O) (P : List QAtom) (c0 : UC O)
    (h : Ufl.Start E P c0) (hW : ∀ c, Ufl.Reach E W c0 c → Ufl.PicksFree E W c)
    (c : UC O) (hr : Ufl.Reach E W c0 c) (cs : List Clause) (x : US) (hp : Ufl.UProp E c.u cs x) (hne : cs ≠ []) :
    ∃ learned lvl, analyzeConflicts x.q.s.clause x.q.s.t cs = some (learned, some lvl) ∧
      ([] ∈ learned ∨ learnSelect x.q.s.t learned ≠ [] ∧ ∃ L : Nat, lvl = L ∧ L < x.q.s.t.decisionLevel) := by
  obtain ⟨hO, h0⟩ := Ufl.ok_of_check hs hS hF h1 hb hc
  obtain ⟨I, st, k1, hd, hB, k2⟩ := Ufl.at_conflict hO h0 h hW hr hp hne
  exact (Qf.handled k1 hd hB hne k2).1

/-- C67, backtracking: the assertions of `backtrack_with` hold (src/Solver.cpp:97-148). The learned clauses are all
semantic splits or none is one. For semantic splits the literals from which the solver chooses have no reason, they
are declared and not assigned after backtracking, there is a level above the one to which the solver backtracks, and
its decision is the value of a rational variable. Otherwise the first literal of every clause is not assigned after
backtracking and the others are false, so it has to be propagated. Partial: as for `C67_functions_partial`. -/
theorem C67_backtrack_partial {H : TermHash} (E : Ufl.Env) (hs : TReach H E.s) (hS : Supported E.cfg E.s)
    (hF : RealFns E.s) (h1 : OneVar E.s) {as : List Tm} (hb : ∀ a ∈ as, IsBool E.s a)
    (hc : check E.cfg E.s IState.init as = some (some E.st)) {O : Type} (W : QOrder O) (P : List QAtom) (c0 : UC O)
    (h : Ufl.Start E P c0) (hW : ∀ c, Ufl.Reach E W c0 c → Ufl.PicksFree E W c)
    (c : UC O) (hr : Ufl.Reach E W c0 c) (cs : List Clause) (x : US) (hp : Ufl.UProp E c.u cs x) (hne : cs ≠ [])
    (ls : List Clause) (L : Nat) (hl : Check.Learned x.q.s cs ls L) :
    L + 1 ≤ x.q.s.t.decisionLevel ∧
    ((∀ d ∈ ls, isSemanticSplit x.q.s.t d = true) ∧
        (∀ d ∈ ls, Qf.topLits x.q.s.t d ≠ [] ∧ ∀ y ∈ Qf.topLits x.q.s.t d, x.q.s.t.reason y.var = none ∧
          y.ord < x.q.s.t.bools.num ∧ (x.q.s.t.backtrack L).level y.var = none) ∧
        (∃ a, (x.q.s.t.assigned (L + 1)).head? = some a ∧ a.var.type ≠ .boolean) ∨
      (∀ d ∈ ls, isSemanticSplit x.q.s.t d = false) ∧
        ∀ d ∈ ls, ∃ y rest, d = y :: rest ∧ y.ord < x.q.s.t.bools.num ∧ (x.q.s.t.backtrack L).level y.var = none ∧
          ∀ z ∈ rest, evalLit (x.q.s.t.backtrack L).bools z = some false) := by
  obtain ⟨hO, h0⟩ := Ufl.ok_of_check hs hS hF h1 hb hc
  obtain ⟨I, st, k1, hd, hB, k2⟩ := Ufl.at_conflict hO h0 h hW hr hp hne
  exact (Qf.handled k1 hd hB hne k2).2 ls L hl

/-- C67, assertions: whenever propagation reports conflicts, the conflict branch of `check` with all its assertions
(C90) does not fail, whatever `is_before` answers: it answers unsat or the trail becomes one that the model of the loop
describes. Partial: as for `C67_functions_partial`. -/
theorem C67_conflict_partial {H : TermHash} (E : Ufl.Env) (hs : TReach H E.s) (hS : Supported E.cfg E.s)
    (hF : RealFns E.s) (h1 : OneVar E.s) {as : List Tm} (hb : ∀ a ∈ as, IsBool E.s a)
    (hc : check E.cfg E.s IState.init as = some (some E.st)) {O : Type} (W : QOrder O) (P : List QAtom) (c0 : UC O)
    (h : Ufl.Start E P c0) (hW : ∀ c, Ufl.Reach E W c0 c → Ufl.PicksFree E W c)
    (c : UC O) (hr : Ufl.Reach E W c0 c) (cs : List Clause) (x : US) (hp : Ufl.UProp E c.u cs x) (hne : cs ≠ [])
    (before : Var → Var → Bool) (r : Nat) :
    conflictC before (x.q.s.t.bools.num * 2) x.q.s cs r = some none ∨
      ∃ t ls, ∃ L : Nat, conflictC before (x.q.s.t.bools.num * 2) x.q.s cs r = some (some t) ∧
        Check.Learned x.q.s cs ls L ∧ AfterBacktrack x.q.s ls L r t := by
  obtain ⟨hO, h0⟩ := Ufl.ok_of_check hs hS hF h1 hb hc
  obtain ⟨I, st, k1, hd, hB, k2⟩ := Ufl.at_conflict hO h0 h hW hr hp hne
  obtain ⟨w, hg⟩ := k1.reach.good
  have hG := k1.good _ hg.keep.base.inv (LinStore.Kept.refl _)
  obtain ⟨g1, g2⟩ := Qf.handled k1 hd hB hne k2
  exact conflictC_spec hG.base.inv hG.rok (fun c hc => (k2 c hc).1) g1 g2 before r

/-- C67, iterations: in every reachable state the propagation of the three plugins ends, and the loop makes its next
iteration, whatever the result of propagation is. The variable order has to handle its events and answer every
request. Partial: as for `C67_functions_partial`. -/
theorem C67_iteration_partial {H : TermHash} (E : Ufl.Env) (hs : TReach H E.s) (hS : Supported E.cfg E.s)
    (hF : RealFns E.s) (h1 : OneVar E.s) {as : List Tm} (hb : ∀ a ∈ as, IsBool E.s a)
    (hc : check E.cfg E.s IState.init as = some (some E.st)) {O : Type} (W : QOrder O) (P : List QAtom) (c0 : UC O)
    (h : Ufl.Start E P c0) (hW : ∀ c, Ufl.Reach E W c0 c → Ufl.PicksFree E W c)
    (c : UC O) (hr : Ufl.Reach E W c0 c) (hev : Ufl.Handles E W c) (hpk : Ufl.Answers E W c) :
    (∃ cs x, Ufl.UProp E c.u cs x) ∧ ∀ cs x, Ufl.UProp E c.u cs x → ∃ out, Ufl.Iter E W c out := by
  obtain ⟨hO, h0⟩ := Ufl.ok_of_check hs hS hF h1 hb hc
  obtain ⟨b, stg, d, hst, hI, -⟩ :=
    Ufl.inv_reach (I := ⟨fun _ => false, fun _ => 0, fun _ _ => false, fun _ _ => 0⟩) hO h0 h hW hr
  refine ⟨Ufl.prop_ends hO hI hst, fun cs x hp => ?_⟩
  by_cases hne : cs = []
  · subst hne
    obtain ⟨v, o', la0, hv'⟩ := hpk x hp
    rcases v with _ | ⟨ty, n⟩
    · exact ⟨_, .sat hp hv'⟩
    · cases ty with
      | boolean => exact ⟨_, .decideBool hp hv'⟩
      | rational =>
        obtain ⟨st', d', k1, k2, -⟩ := Ufl.inv_prop hO hp hI hst
        obtain ⟨rfl, rfl⟩ := k2 rfl
        obtain ⟨k, hk⟩ := ((W.queried hv').reach k1.core.reach).decides trivial (by rintro ⟨⟩) n
        obtain ⟨la', hd⟩ := hk k le_rfl
        exact ⟨_, .decideRat hp hv' hd⟩
  · by_cases hz : x.q.s.t.decisionLevel = 0
    · exact ⟨_, .unsatZero hp hne hz⟩
    obtain ⟨learned, lvl, e1, e2⟩ := C67_analysis_partial E hs hS hF h1 hb hc W P c0 h hW c hr cs x hp hne
    by_cases he : [] ∈ learned
    · exact ⟨_, .unsatEmpty hp hne hz e1 he⟩
    rcases e2 with e2 | ⟨e2, L, rfl, -⟩
    · exact absurd e2 he
    have hl : Check.Learned x.q.s cs (learnSelect x.q.s.t learned) L := ⟨⟨learned, e1, he, rfl⟩⟩
    obtain ⟨o', ho⟩ := hev cs x (some L) hp hne
    obtain ⟨-, g⟩ := C67_backtrack_partial E hs hS hF h1 hb hc W P c0 h hW c hr cs x hp hne _ L hl
    cases hsl : learnSelect x.q.s.t learned with
    | nil => exact absurd hsl e2
    | cons d ds =>
      rw [hsl] at hl g
      rcases g with ⟨g1, g2, -⟩ | ⟨g1, -⟩
      · obtain ⟨k1, k2⟩ := g2 d (by simp)
        cases ht : Qf.topLits x.q.s.t d with
        | nil => exact absurd ht k1
        | cons y ys =>
          have hx : y ∈ Qf.topLits x.q.s.t d := by rw [ht]; simp
          exact ⟨_, .split hp hne hz hl ho (by simp) (g1 d (by simp)) hx (k2 y hx).2.2⟩
      · exact ⟨_, .uip hp hne hz hl ho (by simp [g1 d (by simp)])⟩

/-- C67. So `check` returns an answer or makes iterations for ever. Partial: as for `C67_functions_partial`; that it
returns is not proved. -/
theorem C67_never_stuck_partial {H : TermHash} (E : Ufl.Env) (hs : TReach H E.s) (hS : Supported E.cfg E.s)
    (hF : RealFns E.s) (h1 : OneVar E.s) {as : List Tm} (hb : ∀ a ∈ as, IsBool E.s a)
    (hc : check E.cfg E.s IState.init as = some (some E.st)) {O : Type} (W : QOrder O) (P : List QAtom) (c0 : UC O)
    (h : Ufl.Start E P c0) (hW : ∀ c, Ufl.Reach E W c0 c → Ufl.PicksFree E W c)
    (ha : ∀ c, Ufl.Reach E W c0 c → Ufl.Handles E W c ∧ Ufl.Answers E W c) :
    (∃ out, Ufl.Returns E W c0 out ∧ (out = .unsat ∨ ∃ x, out = .sat x)) ∨
    ∃ f : Nat → UC O, f 0 = c0 ∧ ∀ i, Ufl.Iter E W (f i) (.run (f (i + 1))) := by
  by_cases hout : ∃ out, Ufl.Returns E W c0 out ∧ (out = .unsat ∨ ∃ x, out = .sat x)
  · exact Or.inl hout
  · right
    have next : ∀ c : {c : UC O // Ufl.Reach E W c0 c}, ∃ c' : {c : UC O // Ufl.Reach E W c0 c},
        Ufl.Iter E W c.1 (.run c'.1) := by
      rintro ⟨c, hr⟩
      obtain ⟨⟨cs, x, hp⟩, hi⟩ :=
        C67_iteration_partial E hs hS hF h1 hb hc W P c0 h hW c hr (ha c hr).1 (ha c hr).2
      obtain ⟨out, hit⟩ := hi cs x hp
      cases out with
      | unsat => exact absurd ⟨_, ⟨c, hr, hit⟩, Or.inl rfl⟩ hout
      | sat x => exact absurd ⟨_, ⟨c, hr, hit⟩, Or.inr ⟨x, rfl⟩⟩ hout
      | run c' => exact ⟨⟨c', .step hr hit⟩, hit⟩
    choose g hg using next
    refine ⟨fun i => (g^[i] ⟨c0, .refl⟩).1, rfl, fun i => ?_⟩
    dsimp only
    rw [Function.iterate_succ_apply']
    exact hg _

/-! ### Examples -/

/-- The order `Qf.anyOrder` meets the requirements. -/
theorem Ufl.anyOrder_total (E : Ufl.Env) (c : UC Unit) : Ufl.Handles E Qf.anyOrder c ∧ Ufl.Answers E Qf.anyOrder c := by
  refine ⟨fun _ _ _ _ _ => ⟨(), trivial⟩, fun x _ => ?_⟩
  by_cases h : ∃ v : Var, v.ord < x.q.la.trail.numVars v.type ∧ x.q.la.trail.level v = none
  · obtain ⟨v, hv⟩ := h
    exact ⟨some v, (), x.q.la, rfl, hv⟩
  · exact ⟨none, (), x.q.la, rfl, fun v hv hn => h ⟨v, hv, hn⟩⟩

namespace UflExample

/-- Whether propagation ends with the clause `x ≠ y ∨ (f x) = (f y)` of the plugin for functions at level 4 and the
solver then learns a clause and backtracks to level 2. -/
def ufConfl (E : Ufl.Env) (c : UC Unit) : Bool :=
  match Ufl.propRun E 100 c.u with
  | some (cs, x) => decide (cs = [[(Lit.pos 3).neg, Lit.pos 4]]) && decide (c.u.q.la.store.cons.length = 3) &&
    decide (x.q.la.store.cons.length = 5) && decide (x.q.s.t.decisionLevel = 4) &&
    match analyzeConflicts x.q.s.clause x.q.s.t cs with
    | some (learned, some (.ofNat 2)) => !learned.contains []
    | _ => false
  | none => false

theorem part_confl : ((part (env (tA 0) [⟨23⟩, ⟨28⟩, ⟨34⟩]) actsUnsat 4).map fun r =>
    ufConfl (env (tA 0) [⟨23⟩, ⟨28⟩, ⟨34⟩]) r.2.2) = some true := by decide +kernel

/-- The hypotheses hold for the assertions `(< (f x) (f y))`, `(>= x y)` and `(>= y x)`: after four iterations the
plugin for functions creates two constraints and finds a conflict. -/
example : ∃ (P : List QAtom) (c0 c : UC Unit) (cs : List Clause) (x : US) (ls : List Clause),
    TReach UfExample.h0 (tA 0) ∧ Supported (env (tA 0) [⟨23⟩, ⟨28⟩, ⟨34⟩]).cfg (tA 0) ∧ RealFns (tA 0) ∧ OneVar (tA 0) ∧
    check (env (tA 0) [⟨23⟩, ⟨28⟩, ⟨34⟩]).cfg (tA 0) IState.init [⟨23⟩, ⟨28⟩, ⟨34⟩] =
      some (some (env (tA 0) [⟨23⟩, ⟨28⟩, ⟨34⟩]).st) ∧ Ufl.Start (env (tA 0) [⟨23⟩, ⟨28⟩, ⟨34⟩]) P c0 ∧
    (∀ c, Ufl.PicksFree (env (tA 0) [⟨23⟩, ⟨28⟩, ⟨34⟩]) Qf.anyOrder c ∧
      Ufl.Handles (env (tA 0) [⟨23⟩, ⟨28⟩, ⟨34⟩]) Qf.anyOrder c ∧
      Ufl.Answers (env (tA 0) [⟨23⟩, ⟨28⟩, ⟨34⟩]) Qf.anyOrder c) ∧
    Ufl.Reach (env (tA 0) [⟨23⟩, ⟨28⟩, ⟨34⟩]) Qf.anyOrder c0 c ∧
    Ufl.UProp (env (tA 0) [⟨23⟩, ⟨28⟩, ⟨34⟩]) c.u cs x ∧ cs ≠ [] ∧
    c.u.q.la.store.cons.length < x.q.la.store.cons.length ∧ Check.Learned x.q.s cs ls 2 := by
  have h := part_confl
  cases hp : part (env (tA 0) [⟨23⟩, ⟨28⟩, ⟨34⟩]) actsUnsat 4 with
  | none => rw [hp] at h; cases h
  | some r =>
    obtain ⟨c0, P, c⟩ := r
    rw [hp] at h
    simp only [Option.map_some, Option.some.injEq] at h
    unfold ufConfl at h
    split at h
    · rename_i cs x hq
      simp only [Bool.and_eq_true, decide_eq_true_eq] at h
      obtain ⟨⟨⟨⟨g1, g2⟩, g3⟩, g4⟩, h⟩ := h
      split at h
      · rename_i learned ha
        obtain ⟨h1, h2⟩ := part_sound hp
        exact ⟨P, c0, c, cs, x, _, tA_reach, tA_supported, tA_realFns, tA_oneVar, conv_unsat, h1,
          fun c => ⟨(Ufl.anyOrder_ok c).1, Ufl.anyOrder_total _ c⟩, h2, Ufl.propRun_sound _ _ hq, by rw [g1]; simp,
          by omega, ⟨⟨learned, ha, by simpa using h, rfl⟩⟩⟩
      · cases h
    · cases h

end UflExample

#print axioms C67_functions_partial
#print axioms C67_analysis_partial
#print axioms C67_backtrack_partial
#print axioms C67_conflict_partial
#print axioms C67_iteration_partial
#print axioms C67_never_stuck_partial

end Yaga
