/-
C45: several `check-sat` commands in one script.
-/
import Verif.Proofs.Script

namespace Yaga

open TermTable Spec Internalizer

/-- C45, `unsat` is right at every `check-sat`: every interpretation that satisfies all assertions made so far
extends to a model of the clauses and constraints the solver is given. -/
theorem C45_unsat {H : TermHash} {cfg : ICfg} {s : TermTable} {as : List Tm} {st st' : IState}
    (hs : Script H cfg s as st) (hc : check cfg s st as = some (some st')) {I : Interp} (hh : Holds I s as) :
    ∃ m r, Models st' m r ∧ Agree I s st' m r := by
  have h := script_inv hs
  rcases check_cases hc with ⟨h1, _⟩ | ⟨_, st1, st2, h1, h2, h3⟩
  · cases h1
  cases h3
  have hstep := roots_step h.reach.wf as _ h.inv (fun t ht => .inl (h.bool t ht)) h1
  obtain ⟨m0, r0, h4, h5⟩ := h.sat I
  obtain ⟨m, r, h6, h7⟩ := hstep.compl I m0 r0 h4 h5
  obtain ⟨h8, h9⟩ := units_compl h.reach.wf h.bool h2 h6 h7 hh
  exact ⟨m, r, h8, agree_of_all h9⟩

/-- C45: the answer `unsat` given without running the solver is right at every `check-sat`. -/
theorem C45_unsat_early {H : TermHash} {cfg : ICfg} {s : TermTable} {as : List Tm} {st : IState}
    (hs : Script H cfg s as st) (hc : check cfg s st as = some none) (I : Interp) : ¬ Holds I s as := by
  have h := script_inv hs
  rcases check_cases hc with ⟨_, h1⟩ | ⟨_, st1, st2, _, _, h3⟩
  · intro hh
    have := hh _ h1
    rw [show Tm.ff = Tm.tt.opp from rfl, denB_opp h.reach.wf h.reach.wf.tt_bool, h.reach.wf.denB_tt] at this
    cases this
  · cases h3

/-- C45, `sat`, as far as it holds: a model of the clauses and constraints satisfies all assertions made so
far, provided that no disjunction and no conditional term was converted at an earlier `check-sat` (in
particular at the first one). Without this condition the claim is false, see `C45_false`. -/
theorem C45_sat_partial {H : TermHash} {cfg : ICfg} {s : TermTable} {as : List Tm} {st st' : IState}
    (hs : Script H cfg s as st) (hr : ∀ p ∈ st.ratVars, s.kind p.1 ≠ .ite) (hb : ∀ p ∈ st.boolVars, s.kind p.1 ≠ .or)
    (hc : check cfg s st as = some (some st')) {m : Assignment} {r : Nat → ℚ} (hm : Models st' m r)
    {I : Interp} (hI : Agree I s st' m r) : Holds I s as := by
  have h := script_inv hs
  rcases check_cases hc with ⟨h1, _⟩ | ⟨_, st1, st2, h1, h2, h3⟩
  · cases h1
  cases h3
  have hstep := roots_step h.reach.wf as _ h.inv (fun t ht => .inl (h.bool t ht)) h1
  obtain ⟨cs, h4, _, _⟩ := units_spec as h2
  have hm1 : Models st1 m r := by
    rw [h4] at hm
    exact ⟨fun c hc => hm.1 c (List.mem_append_left _ hc), hm.2⟩
  have hg : Agree I s st1 m r := agree_sub (st' := st') (by rw [h4]; exact fun p hp => hp)
    (by rw [h4]; exact fun p hp => hp) hI
  have h0 := h.sound ⟨hr, hb⟩ I m r (hstep.back m r hm1)
    (agree_sub (st := { st with clauses := [] }) hstep.ratSub hstep.boolSub hg)
  exact units_sound h.reach.wf h.bool h2 hm (hstep.sound I m r hm1 h0 hg)

/-! ### The claim is false for `sat` -/

private def h0 : TermHash := ⟨fun _ _ => 0, fun _ _ => 0, fun _ => 0⟩

private def build : List MgrOp → Option TermTable
  | [] => some (TermTable.init h0)
  | op :: ops => (build ops).bind fun s => (op.run h0 s).map (·.1)

private def cfg : ICfg := ⟨fun n => n, fun _ => 0, true⟩

private theorem build_step {op : MgrOp} {ops : List MgrOp} {s r : TermTable} (h : build ops = some s)
    (hr : Script h0 cfg s [] IState.init) (ht : op.Typed s) (h' : build (op :: ops) = some r) :
    Script h0 cfg r [] IState.init := by
  rw [build, h] at h'
  simp only [Option.bind_some, Option.map_eq_some_iff] at h'
  obtain ⟨q, h1, rfl⟩ := h'
  exact .term hr ht h1

/-- `a` (6) and `b` (8) are Boolean constants, 10 is `(or a b)`, `x` (12) a real constant, 14 is `(>= x 0)`. -/
private def ops : List MgrOp :=
  [.geq ⟨12⟩ Tm.zero, .fresh .real, .or [⟨6⟩, ⟨8⟩], .fresh .bool, .fresh .bool]

private def tb (n : Nat) : TermTable := (build (ops.drop n)).getD ⟨[], []⟩

private theorem tb_script : Script h0 cfg (tb 0) [] IState.init := by
  have h : ∀ n, n ≤ 5 → build (ops.drop n) = some (tb n) := by decide +kernel
  have r5 : Script h0 cfg (tb 5) [] IState.init := .init
  have r4 : Script h0 cfg (tb 4) [] IState.init := build_step (op := .fresh .bool) (ops := ops.drop 5)
    (h 5 (by omega)) r5 (by unfold MgrOp.Typed; decide) (h 4 (by omega))
  have r3 : Script h0 cfg (tb 3) [] IState.init := build_step (op := .fresh .bool) (ops := ops.drop 4)
    (h 4 (by omega)) r4 (by unfold MgrOp.Typed; decide) (h 3 (by omega))
  have r2 : Script h0 cfg (tb 2) [] IState.init := build_step (op := .or [⟨6⟩, ⟨8⟩]) (ops := ops.drop 3)
    (h 3 (by omega)) r3 (by unfold MgrOp.Typed; decide +kernel) (h 2 (by omega))
  have r1 : Script h0 cfg (tb 1) [] IState.init := build_step (op := .fresh .real) (ops := ops.drop 2)
    (h 2 (by omega)) r2 (by unfold MgrOp.Typed; decide +kernel) (h 1 (by omega))
  exact build_step (op := .geq ⟨12⟩ Tm.zero) (ops := ops.drop 1) (h 1 (by omega)) r1
    (by unfold MgrOp.Typed; decide +kernel) (h 0 (by omega))

/-- The state after the first `check-sat`. -/
private def st1 : IState := ((check cfg (tb 0) IState.init [⟨10⟩]).getD none).getD IState.init

/-- The state after the second `check-sat`. -/
private def st2 : IState := ((check cfg (tb 0) st1 [⟨10⟩, ⟨7⟩, ⟨9⟩]).getD none).getD IState.init

private theorem some_of {o : Option (Option IState)} (h : o.map Option.isSome = some true) :
    o = some (some ((o.getD none).getD IState.init)) := by
  cases o with
  | none => cases h
  | some o => cases o with
    | none => cases h
    | some st => rfl

private theorem script2 : Script h0 cfg (tb 0) [⟨10⟩, ⟨7⟩, ⟨9⟩] st1 := by
  have b10 : IsBool (tb 0) ⟨10⟩ := by unfold IsBool; decide +kernel
  have b7 : IsBool (tb 0) ⟨7⟩ := by unfold IsBool; decide +kernel
  have b9 : IsBool (tb 0) ⟨9⟩ := by unfold IsBool; decide +kernel
  exact .assert (.assert (.check (.assert tb_script b10) (some_of (by decide +kernel))) b7) b9

private theorem check2 : check cfg (tb 0) st1 [⟨10⟩, ⟨7⟩, ⟨9⟩] = some (some st2) := some_of (by decide +kernel)

/-- C45 is false for `sat`: the script `(assert (or a b)) (check-sat) (assert (not a)) (assert (not b))
(check-sat)` gives the solver a satisfiable problem at the second `check-sat`, although the assertions are
unsatisfiable. The clauses that define the disjunction were asserted at the first `check-sat`; they are
removed by `Yaga::init` and not asserted again, because the term is already marked as processed. -/
theorem C45_false : ∃ (H : TermHash) (cfg : ICfg) (s : TermTable) (as : List Tm) (st st' : IState),
    Script H cfg s as st ∧ check cfg s st as = some (some st') ∧ (∃ m r, Models st' m r) ∧
    ∀ I, ¬ Holds I s as := by
  refine ⟨h0, cfg, tb 0, _, st1, st2, script2, check2, ⟨fun n => n == 2, fun _ => 0, ?_, ?_⟩, ?_⟩
  · have : st2.clauses = [[Lit.pos 2], [(Lit.pos 0).neg], [(Lit.pos 1).neg]] := by decide +kernel
    rw [this]
    intro c hc
    simp only [List.mem_cons, List.not_mem_nil, or_false] at hc
    rcases hc with rfl | rfl | rfl
    · exact ⟨Lit.pos 2, by simp, by unfold litTrue; decide⟩
    · exact ⟨(Lit.pos 0).neg, by simp, by unfold litTrue; decide⟩
    · exact ⟨(Lit.pos 1).neg, by simp, by unfold litTrue; decide⟩
  · intro k hk
    exfalso
    apply hk
    have h : ∀ c ∈ st2.store.cons, st2.store.terms c = [] := by decide +kernel
    unfold LinStore.get
    by_cases hl : k < st2.store.cons.length
    · exact h _ (by rw [List.getElem?_eq_getElem hl]; exact List.getElem_mem _)
    · rw [List.getElem?_eq_none (by omega)]
      exact LinStore.terms_empty _
  · intro I hh
    have h := (script_inv script2).reach.wf
    have h7 := hh ⟨7⟩ (by simp)
    have h9 := hh ⟨9⟩ (by simp)
    have h10 := hh ⟨10⟩ (by simp)
    rw [show (⟨7⟩ : Tm) = (⟨6⟩ : Tm).opp from rfl, denB_opp h (by unfold IsBool; decide +kernel)] at h7
    rw [show (⟨9⟩ : Tm) = (⟨8⟩ : Tm).opp from rfl, denB_opp h (by unfold IsBool; decide +kernel)] at h9
    unfold denB at h10
    obtain ⟨e, he, hk⟩ : ∃ e, (tb 0).entry ⟨10⟩ = some e ∧ e = ⟨.or, .bool, .comp [⟨6⟩, ⟨8⟩]⟩ := ⟨_, by decide +kernel, rfl⟩
    rw [h.den he (by decide), hk] at h10
    change ([⟨6⟩, ⟨8⟩] : List Tm).any (fun a => denB I (tb 0) a) = true at h10
    simp only [List.any_cons, List.any_nil, Bool.or_false, Bool.or_eq_true] at h10
    rcases h10 with h10 | h10
    · rw [h10] at h7; cases h7
    · rw [h10] at h9; cases h9

/-- The state after a `check-sat` with the only assertion `(>= x 0)`. -/
private def st3 : IState := ((check cfg (tb 0) IState.init [⟨14⟩]).getD none).getD IState.init

/-- Hypotheses of `C45_sat_partial` at a second `check-sat`: `(or a b)` is new. -/
example : Script h0 cfg (tb 0) [⟨14⟩, ⟨10⟩] st3 ∧ (∀ p ∈ st3.ratVars, (tb 0).kind p.1 ≠ .ite) ∧
    (∀ p ∈ st3.boolVars, (tb 0).kind p.1 ≠ .or) ∧ st3.boolVars ≠ [] ∧
    (check cfg (tb 0) st3 [⟨14⟩, ⟨10⟩]).map Option.isSome = some true := by
  refine ⟨.assert (.check (.assert tb_script ?_) (some_of (by decide +kernel))) ?_, by decide +kernel,
    by decide +kernel, by decide +kernel, by decide +kernel⟩
  · unfold IsBool; decide +kernel
  · unfold IsBool; decide +kernel

#print axioms C45_unsat
#print axioms C45_unsat_early
#print axioms C45_sat_partial
#print axioms C45_false

end Yaga
