/-
C44: the conversion to clauses and linear constraints is equisatisfiable.
-/
import Verif.Proofs.InternKeys

namespace Yaga

open TermTable Spec Internalizer

/-- C44, soundness: in every model of the clauses and constraints, the assertions are true under every
interpretation with the same values of the constants and function applications of the script. -/
theorem C44_sound {H : TermHash} {s : TermTable} (hs : TReach H s) {cfg : ICfg} {as : List Tm}
    (hb : ∀ a ∈ as, IsBool s a) {st : IState} (hc : check cfg s IState.init as = some (some st))
    {m : Assignment} {r : Nat → ℚ} (hm : Models st m r) {I : Interp} (hI : Agree I s st m r) :
    Holds I s as := by
  rcases check_cases hc with ⟨h1, _⟩ | ⟨_, st1, st2, h1, h2, h3⟩
  · cases h1
  cases h3
  have hstep := roots_step hs.wf as _ (iinv_init s) (fun t ht => .inl (hb t ht)) h1
  obtain ⟨cs, h4, _, _⟩ := units_spec as h2
  have hm1 : Models st1 m r := by
    rw [h4] at hm
    exact ⟨fun c hc => hm.1 c (List.mem_append_left _ hc), hm.2⟩
  have hg : Agree I s st1 m r := agree_sub (st' := st) (by rw [h4]; exact fun p hp => hp)
    (by rw [h4]; exact fun p hp => hp) hI
  exact units_sound hs.wf hb h2 hm
    (hstep.sound I m r hm1 ⟨by simp [IState.init], by simp [IState.init]⟩ hg)

/-- C44, completeness: every interpretation that satisfies the assertions extends to a model of the clauses
and constraints, with the same values of the constants and function applications. -/
theorem C44_complete {H : TermHash} {s : TermTable} (hs : TReach H s) {cfg : ICfg} {as : List Tm}
    (hb : ∀ a ∈ as, IsBool s a) {st : IState} (hc : check cfg s IState.init as = some (some st))
    {I : Interp} (hh : Holds I s as) : ∃ m r, Models st m r ∧ Agree I s st m r := by
  rcases check_cases hc with ⟨h1, _⟩ | ⟨_, st1, st2, h1, h2, h3⟩
  · cases h1
  cases h3
  have hstep := roots_step hs.wf as _ (iinv_init s) (fun t ht => .inl (hb t ht)) h1
  obtain ⟨m, r, h4, h5⟩ := hstep.compl I (fun _ => false) (fun _ => 0)
    ⟨by intro c hc; simp [IState.init] at hc, by
      intro k hk
      exact absurd (LinStore.terms_empty _) hk⟩ ⟨by simp [IState.init], by simp [IState.init]⟩
  obtain ⟨h6, h7⟩ := units_compl hs.wf hb h2 h4 h5 hh
  exact ⟨m, r, h6, agree_of_all h7⟩

/-- C44: if there are no function applications, the clauses and constraints are satisfiable exactly when
the assertions are. (With applications, the functional consistency of their values is up to the UF plugin.) -/
theorem C44_equisatisfiable {H : TermHash} {s : TermTable} (hs : TReach H s) {cfg : ICfg} {as : List Tm}
    (hb : ∀ a ∈ as, IsBool s a) {st : IState} (hc : check cfg s IState.init as = some (some st))
    (happ : ∀ t, s.kind t ≠ .app) : (∃ m r, Models st m r) ↔ ∃ I, Holds I s as := by
  constructor
  · rintro ⟨m, r, hm⟩
    refine ⟨readBack st m r, C44_sound hs hb hc hm ?_⟩
    rcases check_cases hc with ⟨h1, _⟩ | ⟨_, st1, st2, h1, h2, h3⟩
    · cases h1
    cases h3
    have hi := (roots_step hs.wf as _ (iinv_init s) (fun t ht => .inl (hb t ht)) h1).inv
    have hk := roots_keys as _ ⟨by simp [IState.init], by simp [IState.init], by simp [IState.init], by simp [IState.init]⟩ h1
    obtain ⟨cs, h4, _, _⟩ := units_spec as h2
    rw [h4]
    exact readBack_agree hs.wf hi hk happ m r
  · rintro ⟨I, hh⟩
    obtain ⟨m, r, h1, _⟩ := C44_complete hs hb hc hh
    exact ⟨m, r, h1⟩

/-- C44: the answer `unsat` before the conversion is right. -/
theorem C44_unsat {H : TermHash} {s : TermTable} (hs : TReach H s) {cfg : ICfg} {as : List Tm}
    {st : IState} (hc : check cfg s st as = some none) (I : Interp) : ¬ Holds I s as := by
  rcases check_cases hc with ⟨_, h1⟩ | ⟨_, st1, st2, _, _, h3⟩
  · intro hh
    have := hh _ h1
    rw [show Tm.ff = Tm.tt.opp from rfl, denB_opp hs.wf hs.wf.tt_bool, hs.wf.denB_tt] at this
    cases this
  · cases h3

/-- C44: the conversion ends without an exception or a failed assertion for supported terms. -/
theorem C44_total {H : TermHash} {s : TermTable} (hs : TReach H s) {cfg : ICfg} (hS : Supported cfg s)
    {as : List Tm} (hb : ∀ a ∈ as, IsBool s a) (hap : ∀ a ∈ as, s.kind a = .app → a.isNeg = false) :
    ∃ r, check cfg s IState.init as = some r :=
  check_total hs.wf hS hb hap (iinv_init s) (pinv_init s)

/-! ### Examples -/

private def h0 : TermHash := ⟨fun _ _ => 0, fun _ _ => 0, fun _ => 0⟩

/-- The table after some operations. -/
private def build : List MgrOp → Option TermTable
  | [] => some (TermTable.init h0)
  | op :: ops => (build ops).bind fun s => (op.run h0 s).map (·.1)

private theorem build_step {op : MgrOp} {ops : List MgrOp} {s r : TermTable} (h : build ops = some s)
    (hr : TReach h0 s) (ht : op.Typed s) (h' : build (op :: ops) = some r) : TReach h0 r := by
  rw [build, h] at h'
  simp only [Option.bind_some, Option.map_eq_some_iff] at h'
  obtain ⟨q, h1, rfl⟩ := h'
  exact .step hr ht h1

/-- `b` (6) is a Boolean constant, `x` (8) a real constant; 10 is `(ite b x 0)`, 12 is `(>= (ite b x 0) 0)` and
14 is `(or b (not (>= (ite b x 0) 0)))`. -/
private def ops : List MgrOp :=
  [.or [⟨6⟩, ⟨13⟩], .geq ⟨10⟩ Tm.zero, .ite ⟨6⟩ ⟨8⟩ Tm.zero, .fresh .real, .fresh .bool]

private def tb (n : Nat) : TermTable := (build (ops.drop n)).getD ⟨[], []⟩

private theorem tb_reach : TReach h0 (tb 0) := by
  have h : ∀ n, n ≤ 5 → build (ops.drop n) = some (tb n) := by decide +kernel
  have r5 : TReach h0 (tb 5) := .init
  have r4 : TReach h0 (tb 4) := build_step (op := .fresh .bool) (ops := ops.drop 5) (h 5 (by omega)) r5
    (by unfold MgrOp.Typed; decide) (h 4 (by omega))
  have r3 : TReach h0 (tb 3) := build_step (op := .fresh .real) (ops := ops.drop 4) (h 4 (by omega)) r4
    (by unfold MgrOp.Typed; decide) (h 3 (by omega))
  have r2 : TReach h0 (tb 2) := build_step (op := .ite ⟨6⟩ ⟨8⟩ Tm.zero) (ops := ops.drop 3) (h 3 (by omega)) r3
    (by unfold MgrOp.Typed; decide +kernel) (h 2 (by omega))
  have r1 : TReach h0 (tb 1) := build_step (op := .geq ⟨10⟩ Tm.zero) (ops := ops.drop 2) (h 2 (by omega)) r2
    (by unfold MgrOp.Typed; decide +kernel) (h 1 (by omega))
  exact build_step (op := .or [⟨6⟩, ⟨13⟩]) (ops := ops.drop 1) (h 1 (by omega)) r1
    (by unfold MgrOp.Typed; decide +kernel) (h 0 (by omega))

private def cfg (d : Bool) : ICfg := ⟨fun n => n, fun _ => 0, d⟩

/-- The clauses for the assertions 14 and `(not b)`: variable 0 is `b`, 1 and 2 are the equations of the
conditional term, 3 is `(< (ite b x 0) 0)` and 4 the disjunction. -/
example : (check (cfg true) (tb 0) IState.init [⟨14⟩, ⟨7⟩]).map (Option.map IState.clauses) =
    some (some [[Lit.pos 0, Lit.pos 2], [(Lit.pos 0).neg, Lit.pos 1],
      [Lit.pos 4, (Lit.pos 0).neg], [Lit.pos 4, (Lit.pos 3).neg], [Lit.pos 0, Lit.pos 3, (Lit.pos 4).neg],
      [Lit.pos 4], [(Lit.pos 0).neg]]) := by decide +kernel

private theorem kind_beyond (s : TermTable) {t : Tm} (h : s.terms.length ≤ t.index) : s.kind t = .reserved := by
  unfold TermTable.kind TermTable.entry
  rw [List.getElem?_eq_none h]; rfl

/-- Hypotheses of `C44_equisatisfiable`; these assertions are unsatisfiable. -/
example : ∃ st, check (cfg true) (tb 0) IState.init [⟨14⟩, ⟨7⟩] = some (some st) ∧
    ((∃ m r, Models st m r) ↔ ∃ I, Holds I (tb 0) [⟨14⟩, ⟨7⟩]) := by
  cases h : check (cfg true) (tb 0) IState.init [⟨14⟩, ⟨7⟩] with
  | none => exact absurd h (by
      have : (check (cfg true) (tb 0) IState.init [⟨14⟩, ⟨7⟩]).isSome = true := by decide +kernel
      intro h; rw [h] at this; cases this)
  | some o =>
    cases o with
    | none => exact absurd h (by
        have : ((check (cfg true) (tb 0) IState.init [⟨14⟩, ⟨7⟩]).map Option.isSome) = some true := by decide +kernel
        intro h; rw [h] at this; cases this)
    | some st =>
      refine ⟨st, rfl, C44_equisatisfiable tb_reach (by unfold IsBool; decide +kernel) h ?_⟩
      intro t
      by_cases hi : (tb 0).terms.length ≤ t.index
      · rw [kind_beyond _ hi]; decide
      · have key : ∀ i, i < (tb 0).terms.length → (tb 0).kind (Tm.positive i) ≠ .app := by decide +kernel
        have := key t.index (by omega)
        rwa [show Tm.positive t.index = t.pos from rfl, kind_pos] at this

/-- `p` (6) is a Boolean function, `f` (8) a real function, `x` (10) a real constant; 12 is `(p x)`, 14 is
`(f x)` and 18 is `(= (f x) 3)`. -/
private def tu : TermTable :=
  (build [.eq ⟨14⟩ ⟨16⟩, .rational 3, .app ⟨8⟩ [⟨10⟩], .app ⟨6⟩ [⟨10⟩], .fresh .real, .fresh .real,
    .fresh .bool]).getD ⟨[], []⟩

/-- C44: what is not supported. `(assert (not (p x)))` throws an exception, although `(assert (p x))` is
accepted; `(assert (= (f x) 3))` fails in a debug build only. -/
theorem C44_unsupported :
    (check (cfg false) tu IState.init [⟨13⟩]).isNone = true ∧ (check (cfg false) tu IState.init [⟨12⟩]).isSome = true ∧
    (check (cfg true) tu IState.init [⟨18⟩]).isNone = true ∧
    (check (cfg false) tu IState.init [⟨18⟩]).isSome = true := by decide +kernel

#print axioms C44_sound
#print axioms C44_complete
#print axioms C44_equisatisfiable
#print axioms C44_unsat
#print axioms C44_total
#print axioms C44_unsupported

end Yaga
