/-
C61: the answers of the solver for scripts of QF_LRA, from the terms of the assertions to the answer.
-/
import Verif.Proofs.QfScript
import Verif.Props.C44
import Verif.Props.C59

namespace Yaga

open TermTable Spec Internalizer

/-- C61, composition: after the conversion of the assertions for the first `check-sat`, the plugin for linear
arithmetic has the variables and constraints that the conversion created, and the solver starts `check` in a
state for which `C58`, `C59` and `C60` hold. -/
theorem C61_start {H : TermHash} {s : TermTable} (hs : TReach H s) {cfg : ICfg} {as : List Tm}
    (hb : ∀ a ∈ as, IsBool s a) {st : IState} (hc : check cfg s IState.init as = some (some st)) :
    ∃ la P, la.store = st.store ∧ la.trail.bools.num = st.numBool ∧ la.trail.rats.num = st.numRat ∧
      ∀ (O : Type) (o : O), Qf.Start cfg.hv cfg.hc st.clauses P (Qf.first la st.clauses o) := by
  obtain ⟨⟨⟨la, P, hB, h1, h2, h3⟩, hne⟩, hI⟩ := check_mirror hs hb hc
  exact ⟨la, P, h1, h2, h3, fun O o => Qf.start_first hB hne (by rw [h2]; exact hI.clauses) o⟩

/-- C61, `unsat`: if `check` returns `unsat` for the first `check-sat`, no interpretation makes all
assertions true. -/
theorem C61_unsat {H : TermHash} {s : TermTable} (hs : TReach H s) {cfg : ICfg} {as : List Tm}
    (hb : ∀ a ∈ as, IsBool s a) {st : IState} (hc : check cfg s IState.init as = some (some st))
    {O : Type} (op : LaOpts) (W : QOrder O) (P : List QAtom) (c0 : QC O)
    (h : Qf.Start cfg.hv cfg.hc st.clauses P c0) (hst : c0.q.la.store = st.store)
    (hW : ∀ c, Qf.Reach cfg.hv cfg.hc op W c0 c → Qf.PicksFree cfg.hv cfg.hc op W c)
    (hr : Qf.Returns cfg.hv cfg.hc op W c0 .unsat) (I : Interp) : ¬ Holds I s as := by
  intro hh
  obtain ⟨m, r, hm, _⟩ := C44_complete hs hb hc hh
  exact C58_unsat cfg.hv cfg.hc op W st.clauses P c0 h hW hr
    ⟨m, r, (Qf.models_iff h.built (check_mirror hs hb hc).2 hst m r).1 hm⟩

/-- C61, `sat`: if `check` returns `sat` for the first `check-sat`, the assertions are true in every
interpretation in which the constants and function applications of the script have the values of their
variables on the trail. -/
theorem C61_sat {H : TermHash} {s : TermTable} (hs : TReach H s) {cfg : ICfg} {as : List Tm}
    (hb : ∀ a ∈ as, IsBool s a) {st : IState} (hc : check cfg s IState.init as = some (some st))
    {O : Type} (op : LaOpts) (W : QOrder O) (P : List QAtom) (c0 : QC O)
    (h : Qf.Start cfg.hv cfg.hc st.clauses P c0) (hst : c0.q.la.store = st.store)
    (hW : ∀ c, Qf.Reach cfg.hv cfg.hc op W c0 c →
      Qf.PicksFree cfg.hv cfg.hc op W c ∧ Qf.PicksAll cfg.hv cfg.hc op W c)
    (q : QS) (hr : Qf.Returns cfg.hv cfg.hc op W c0 (.sat q)) (I : Interp)
    (ha : Agree I s st (fun n => q.s.t.bools.value n) (fun x => q.s.t.rats.value x)) : Holds I s as :=
  C44_sound hs hb hc ((Qf.models_iff h.built (check_mirror hs hb hc).2 hst _ _).2
    (C59_sat cfg.hv cfg.hc op W st.clauses P c0 h hW q hr).1) ha

/-- C61, `sat`: if there are no function applications (QF_LRA), there is such an interpretation; so the
assertions are satisfiable and the values on the trail are a model of them. -/
theorem C61_model {H : TermHash} {s : TermTable} (hs : TReach H s) {cfg : ICfg} {as : List Tm}
    (hb : ∀ a ∈ as, IsBool s a) {st : IState} (hc : check cfg s IState.init as = some (some st))
    (happ : ∀ t, s.kind t ≠ .app)
    {O : Type} (op : LaOpts) (W : QOrder O) (P : List QAtom) (c0 : QC O)
    (h : Qf.Start cfg.hv cfg.hc st.clauses P c0) (hst : c0.q.la.store = st.store)
    (hW : ∀ c, Qf.Reach cfg.hv cfg.hc op W c0 c →
      Qf.PicksFree cfg.hv cfg.hc op W c ∧ Qf.PicksAll cfg.hv cfg.hc op W c)
    (q : QS) (hr : Qf.Returns cfg.hv cfg.hc op W c0 (.sat q)) :
    ∃ I, Agree I s st (fun n => q.s.t.bools.value n) (fun x => q.s.t.rats.value x) ∧ Holds I s as := by
  have hA : Agree (readBack st (fun n => q.s.t.bools.value n) (fun x => q.s.t.rats.value x)) s st
      (fun n => q.s.t.bools.value n) (fun x => q.s.t.rats.value x) := by
    rcases check_cases hc with ⟨h1, _⟩ | ⟨_, st1, st2, h1, h2, h3⟩
    · cases h1
    cases h3
    have hi := (roots_step hs.wf as _ (iinv_init s) (fun t ht => .inl (hb t ht)) h1).inv
    have hk := roots_keys as _ ⟨by simp [IState.init], by simp [IState.init], by simp [IState.init], by simp [IState.init]⟩ h1
    obtain ⟨cs, h4, _, _⟩ := units_spec as h2
    rw [h4]
    exact readBack_agree hs.wf hi hk happ _ _
  exact ⟨_, hA, C61_sat hs hb hc op W P c0 h hst hW q hr _ hA⟩

/-! ### Examples -/

namespace C61Example

def h0 : TermHash := ⟨fun _ _ => 0, fun _ _ => 0, fun _ => 0⟩

/-- The table after some operations. -/
def build : List MgrOp → Option TermTable
  | [] => some (TermTable.init h0)
  | op :: ops => (build ops).bind fun s => (op.run h0 s).map (·.1)

theorem build_step {op : MgrOp} {ops : List MgrOp} {s r : TermTable} (h : build ops = some s)
    (hr : TReach h0 s) (ht : op.Typed s) (h' : build (op :: ops) = some r) : TReach h0 r := by
  rw [build, h] at h'
  simp only [Option.bind_some, Option.map_eq_some_iff] at h'
  obtain ⟨q, h1, rfl⟩ := h'
  exact .step hr ht h1

/-- `b` (6) is a Boolean constant, `x` (8) a real constant; 10 is `(ite b x 0)`, 12 is `(>= (ite b x 0) 0)` and
14 is `(or b (not (>= (ite b x 0) 0)))`. -/
def ops : List MgrOp :=
  [.or [⟨6⟩, ⟨13⟩], .geq ⟨10⟩ Tm.zero, .ite ⟨6⟩ ⟨8⟩ Tm.zero, .fresh .real, .fresh .bool]

def tb (n : Nat) : TermTable := (build (ops.drop n)).getD ⟨[], []⟩

theorem tb_reach : TReach h0 (tb 0) := by
  have h : ∀ n, n ≤ 5 → build (ops.drop n) = some (tb n) := by decide +kernel
  have r5 : TReach h0 (tb 5) := .init
  have r4 : TReach h0 (tb 4) := build_step (op := .fresh .bool) (ops := ops.drop 5) (h 5 (by omega)) r5
    (by unfold MgrOp.Typed; decide) (h 4 (by omega))
  have r3 : TReach h0 (tb 3) := build_step (op := .fresh .real) (ops := ops.drop 4) (h 4 (by omega)) r4
    (by unfold MgrOp.Typed; decide) (h 3 (by omega))
  have r2 : TReach h0 (tb 2) := build_step (op := .ite ⟨6⟩ ⟨8⟩ Tm.zero) (ops := ops.drop 3) (h 3 (by omega)) r3
    (by unfold MgrOp.Typed; decide +kernel) (h 2 (by omega))
  have r1 : TReach h0 (tb 1) := build_step (op := .geq ⟨10⟩ Tm.zero) (ops := ops.drop 2) (h 2 (by omega)) r2
    (by unfold MgrOp.Typed; decide +kernel) (h 1 (by omega))
  exact build_step (op := .or [⟨6⟩, ⟨13⟩]) (ops := ops.drop 1) (h 1 (by omega)) r1
    (by unfold MgrOp.Typed; decide +kernel) (h 0 (by omega))

theorem tb_no_app (t : Tm) : (tb 0).kind t ≠ .app := by
  by_cases hi : (tb 0).terms.length ≤ t.index
  · unfold TermTable.kind TermTable.entry
    rw [List.getElem?_eq_none hi]; simp
  · have key : ∀ i, i < (tb 0).terms.length → (tb 0).kind (Tm.positive i) ≠ .app := by decide +kernel
    have := key t.index (by omega)
    rwa [show Tm.positive t.index = t.pos from rfl, kind_pos] at this

def cfg : ICfg := ⟨fun n => n, fun _ => 0, true⟩

/-- What the conversion of 14 creates: `b`, `x`, the variable of the conditional term, its two equations, the
constraint `(< (ite b x 0) 0)` and the variable of the disjunction. -/
def acts : List Qf.BAct :=
  [.vars .boolean 1, .vars .rational 1, .vars .rational 2, .cons [(0, 1), (1, -1)] .eq 0, .cons [(1, -1)] .eq 0,
    .cons [(1, 1)] .lt 0, .vars .boolean 5]

/-- The conversion of the assertions and the run of the solver. -/
def whole (as : List Tm) : Option (IState × QC Unit × List QAtom × Qf.Out Unit) :=
  match check cfg (tb 0) IState.init as with
  | some (some st) =>
    match Qf.startRun cfg.hv cfg.hc acts st.clauses with
    | some (c0, P) =>
      if c0.q.la.store.vars = st.store.vars ∧ c0.q.la.store.coefs = st.store.coefs ∧
          c0.q.la.store.cons = st.store.cons ∧ c0.q.la.store.set = st.store.set then
        (Qf.checkRun cfg.hv cfg.hc Qf.exOpts 100 20 c0).map fun out => (st, c0, P, out)
      else none
    | none => none
  | _ => none

theorem whole_sound {as : List Tm} {st : IState} {c0 : QC Unit} {P : List QAtom} {out : Qf.Out Unit}
    (h : whole as = some (st, c0, P, out)) : check cfg (tb 0) IState.init as = some (some st) ∧
    Qf.Start cfg.hv cfg.hc st.clauses P c0 ∧ c0.q.la.store = st.store ∧
    Qf.checkRun cfg.hv cfg.hc Qf.exOpts 100 20 c0 = some out := by
  unfold whole at h
  split at h
  · rename_i st' hc
    split at h
    · rename_i c0' P' hs
      split at h
      · rename_i he
        obtain ⟨out', hr, h2⟩ := Option.map_eq_some_iff.1 h
        cases h2
        refine ⟨hc, Qf.startRun_sound _ _ hs, ?_, hr⟩
        generalize c0.q.la.store = x at he ⊢
        generalize st.store = y at he ⊢
        obtain ⟨x1, x2, x3, x4⟩ := x
        obtain ⟨y1, y2, y3, y4⟩ := y
        obtain ⟨rfl, rfl, rfl, rfl⟩ := he
        rfl
      · cases h
    · cases h
  · cases h

/-- The assertions 14 and `(not b)`: the solver returns `unsat`. -/
theorem whole_unsat : ((whole [⟨14⟩, ⟨7⟩]).map fun r => r.2.2.2.isUnsat) = some true := by decide +kernel

/-- The assertions 14 and 12: the solver returns `sat`, with `b` true. -/
theorem whole_sat : ((whole [⟨14⟩, ⟨12⟩]).map fun r => match r.2.2.2 with
    | .sat q => q.s.t.bools.value 0
    | _ => false) = some true := by decide +kernel

end C61Example

open C61Example

/-- The hypotheses of `C61_unsat` hold for this run. -/
example : ∃ st c0 P, check cfg (tb 0) IState.init [⟨14⟩, ⟨7⟩] = some (some st) ∧
    Qf.Start cfg.hv cfg.hc st.clauses P c0 ∧ c0.q.la.store = st.store ∧
    (∀ c, Qf.PicksFree cfg.hv cfg.hc Qf.exOpts Qf.anyOrder c) ∧
    Qf.Returns cfg.hv cfg.hc Qf.exOpts Qf.anyOrder c0 .unsat ∧ ∀ I, ¬ Holds I (tb 0) [⟨14⟩, ⟨7⟩] := by
  have h := whole_unsat
  cases hw : whole [⟨14⟩, ⟨7⟩] with
  | none => rw [hw] at h; cases h
  | some r =>
    obtain ⟨st, c0, P, out⟩ := r
    rw [hw] at h
    obtain ⟨h1, h2, h3, h4⟩ := whole_sound hw
    have hr := Qf.checkRun_sound _ _ _ h4 c0 .refl
    cases out with
    | unsat =>
      refine ⟨st, c0, P, h1, h2, h3, fun c => (Qf.anyOrder_ok c).1, hr, fun I => ?_⟩
      exact C61_unsat tb_reach (by unfold IsBool; decide +kernel) h1 Qf.exOpts Qf.anyOrder P c0 h2 h3
        (fun c _ => (Qf.anyOrder_ok c).1) hr I
    | sat q => cases h
    | run c => cases h

/-- The hypotheses of `C61_model` hold for this run. -/
example : ∃ st c0 P q, check cfg (tb 0) IState.init [⟨14⟩, ⟨12⟩] = some (some st) ∧
    Qf.Start cfg.hv cfg.hc st.clauses P c0 ∧ c0.q.la.store = st.store ∧
    Qf.Returns cfg.hv cfg.hc Qf.exOpts Qf.anyOrder c0 (.sat q) ∧ q.s.t.bools.value 0 = true ∧
    ∃ I, Agree I (tb 0) st (fun n => q.s.t.bools.value n) (fun x => q.s.t.rats.value x) ∧
      Holds I (tb 0) [⟨14⟩, ⟨12⟩] := by
  have h := whole_sat
  cases hw : whole [⟨14⟩, ⟨12⟩] with
  | none => rw [hw] at h; cases h
  | some r =>
    obtain ⟨st, c0, P, out⟩ := r
    rw [hw] at h
    obtain ⟨h1, h2, h3, h4⟩ := whole_sound hw
    have hr := Qf.checkRun_sound _ _ _ h4 c0 .refl
    cases out with
    | unsat => cases h
    | sat q =>
      refine ⟨st, c0, P, q, h1, h2, h3, hr, by simpa using h, ?_⟩
      exact C61_model tb_reach (by unfold IsBool; decide +kernel) h1 tb_no_app Qf.exOpts Qf.anyOrder P c0 h2 h3
        (fun c _ => Qf.anyOrder_ok c) q hr
    | run c => cases h

#print axioms C61_start
#print axioms C61_unsat
#print axioms C61_sat
#print axioms C61_model

end Yaga
