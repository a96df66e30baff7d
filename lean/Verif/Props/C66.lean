/-
C66: the answers of the solver for scripts of QF_UFLRA, from the terms of the assertions to the answer.
-/
import Verif.Proofs.UfLraScript
import Verif.Proofs.UfLraExample
import Verif.Proofs.QfScript

namespace Yaga

open TermTable Spec Internalizer

/-- C66, composition: after the conversion of the assertions for the first `check-sat`, the solver with the
three plugins starts `check` in a state for which the theorems below hold. -/
theorem C66_start {H : TermHash} (E : Ufl.Env) (hs : TReach H E.s) {as : List Tm} (hb : ∀ a ∈ as, IsBool E.s a)
    (hc : check E.cfg E.s IState.init as = some (some E.st)) {O : Type} (o : O) :
    ∃ (P : List QAtom) (c0 : UC O), Ufl.Start E P c0 ∧ c0.o = o := by
  obtain ⟨⟨⟨la, P, hB, h1, h2, h3⟩, hne⟩, hI⟩ := check_mirror hs hb hc
  exact ⟨P, ⟨⟨(Qf.first la E.st.clauses o).q, .start E.s E.st⟩, (Qf.first la E.st.clauses o).old, o⟩,
    ⟨Qf.start_first hB hne (by rw [h2]; exact hI.clauses) o, h1, h2, h3, rfl⟩, rfl⟩

/-- C66, `unsat`: if `check` returns `unsat` for the first `check-sat`, no interpretation of the constants and
functions makes all assertions true. Partial: functions have real arguments and values (`RealFns`), every argument
has at most one variable (`OneVar`), and the terms are supported by the conversion (`Supported`). -/
theorem C66_unsat_partial {H : TermHash} (E : Ufl.Env) (hs : TReach H E.s) (hS : Supported E.cfg E.s) (hF : RealFns E.s)
    (h1 : OneVar E.s) {as : List Tm} (hb : ∀ a ∈ as, IsBool E.s a)
    (hc : check E.cfg E.s IState.init as = some (some E.st)) {O : Type} (W : QOrder O) (P : List QAtom) (c0 : UC O)
    (h : Ufl.Start E P c0) (hW : ∀ c, Ufl.Reach E W c0 c → Ufl.PicksFree E W c)
    (hr : Ufl.Returns E W c0 .unsat) (I : Interp) : ¬ Holds I E.s as :=
  Ufl.unsat_script hs hS hF h1 hb hc h hW hr I

/-- C66, `sat`: if `check` returns `sat` for the first `check-sat`, all assertions are true in the interpretation
in which the constants have their values on the trail and the functions the values recorded by the plugin
for uninterpreted functions (and arbitrary values for other arguments). Partial: as for `unsat`. -/
theorem C66_sat_partial {H : TermHash} (E : Ufl.Env) (hs : TReach H E.s) (hS : Supported E.cfg E.s) (hF : RealFns E.s)
    (h1 : OneVar E.s) {as : List Tm} (hb : ∀ a ∈ as, IsBool E.s a)
    (hc : check E.cfg E.s IState.init as = some (some E.st)) {O : Type} (W : QOrder O) (P : List QAtom) (c0 : UC O)
    (h : Ufl.Start E P c0) (hW : ∀ c, Ufl.Reach E W c0 c → Ufl.PicksFree E W c ∧ Ufl.PicksAll E W c) (x : US)
    (hr : Ufl.Returns E W c0 (.sat x)) (dflt : Nat → ℚ) :
    Holds (ufInterp E.st (Ufl.view E.st x.q.la x.f) dflt) E.s as :=
  Ufl.sat_script hs hS hF h1 hb hc h hW hr dflt

/-- C66, assertions: in all states of the loop no assertion of the plugin for linear arithmetic that the model
evaluates has failed, and a constraint whose variables and literal are assigned has the value of its literal.
Partial: as for `unsat`. -/
theorem C66_assertions_partial {H : TermHash} (E : Ufl.Env) (hs : TReach H E.s) (hS : Supported E.cfg E.s) (hF : RealFns E.s)
    (h1 : OneVar E.s) {as : List Tm} (hb : ∀ a ∈ as, IsBool E.s a)
    (hc : check E.cfg E.s IState.init as = some (some E.st)) {O : Type} (W : QOrder O) (P : List QAtom) (c0 : UC O)
    (h : Ufl.Start E P c0) (hW : ∀ c, Ufl.Reach E W c0 c → Ufl.PicksFree E W c)
    (c : UC O) (hr : Ufl.Reach E W c0 c) :
    c.u.q.la.ok = true ∧ ValuesConsistent c.u.q.la.store c.u.q.la.models := by
  obtain ⟨hO, h0⟩ := Ufl.ok_of_check hs hS hF h1 hb hc
  obtain ⟨b, stg, d, -, hI, -⟩ :=
    Ufl.inv_reach (I := ⟨fun _ => false, fun _ => 0, fun _ _ => false, fun _ _ => 0⟩) hO h0 h hW hr
  obtain ⟨w, hg⟩ := hI.core.reach.good
  exact ⟨hg.keep.ok, hg.keep.sem.vals⟩

open UflExample in
/-- C66 does not hold for arguments with several variables. The plugin for uninterpreted functions assigns the
equality of two arguments at the highest level of their variables, also if the variable with this level is not in the
difference. For the assertion `(or (not (>= z 0)) (< (f (+ x y)) (f (+ x z))))` there is a run to a state in which
`y` and `z` are both 0 while the literal of the constraint `y = z` is false, and the assertion at
src/lra/Linear_arithmetic.cpp:61 fails. -/
theorem C66_levels_false : ∃ (E : Ufl.Env) (P : List QAtom) (c0 c : UC Unit) (e : LinCons),
    TReach UfExample.h0 E.s ∧ Supported E.cfg E.s ∧ RealFns E.s ∧
    check E.cfg E.s IState.init [⟨32⟩] = some (some E.st) ∧ Ufl.Start E P c0 ∧
    (∀ c, Ufl.PicksFree E Qf.anyOrder c ∧ Ufl.PicksAll E Qf.anyOrder c) ∧ Ufl.Reach E Qf.anyOrder c0 c ∧
    c.u.q.la.store.terms e = [(3, -1), (1, 1)] ∧ e.pred = .eq ∧ e.rhs = 0 ∧
    c.u.q.s.t.rats.defined 1 = true ∧ c.u.q.s.t.rats.defined 3 = true ∧
    c.u.q.s.t.rats.value 1 = 0 ∧ c.u.q.s.t.rats.value 3 = 0 ∧
    c.u.q.s.t.bools.defined e.lit.ord = true ∧ c.u.q.s.t.bools.value e.lit.ord = false ∧ e.lit.isNeg = false ∧
    c.u.q.la.ok = false := by
  have h := part_bad
  cases hp : part (env (tB 0) [⟨32⟩]) actsLevel 9 with
  | none => rw [hp] at h; cases h
  | some r =>
    obtain ⟨c0, P, c⟩ := r
    rw [hp] at h
    simp only [Option.map_some, Option.some.injEq, bad, Bool.and_eq_true, beq_iff_eq, decide_eq_true_eq] at h
    obtain ⟨g1, g2, g3, g4, g5, g6, g7, g8, g9, g10, g11, g12⟩ := h
    obtain ⟨h1, h2⟩ := part_sound hp
    exact ⟨_, P, c0, c, c.u.q.la.store.get 3, tB_reach, tB_supported, tB_realFns, conv_level, h1,
      fun c => Ufl.anyOrder_ok c, h2, g4, g5, g6, g7, g8, g9, g10, by rw [g11]; exact g3, by rw [g11]; exact g2, g12, g1⟩

/-! ### Examples -/

open UflExample in
/-- The hypotheses of `C66_unsat_partial` hold for the assertions `(< (f x) (f y))`, `(>= x y)` and `(>= y x)`. -/
example : ∃ (P : List QAtom) (c0 : UC Unit), Ufl.Start (env (tA 0) [⟨23⟩, ⟨28⟩, ⟨34⟩]) P c0 ∧
    Ufl.Returns (env (tA 0) [⟨23⟩, ⟨28⟩, ⟨34⟩]) Qf.anyOrder c0 .unsat ∧ ∀ I, ¬ Holds I (tA 0) [⟨23⟩, ⟨28⟩, ⟨34⟩] := by
  have h := whole_unsat
  cases hw : whole (env (tA 0) [⟨23⟩, ⟨28⟩, ⟨34⟩]) actsUnsat with
  | none => rw [hw] at h; cases h
  | some r =>
    obtain ⟨c0, P, out⟩ := r
    rw [hw] at h
    obtain ⟨h1, h2⟩ := whole_sound hw
    cases out with
    | unsat =>
      exact ⟨P, c0, h1, h2, fun I => C66_unsat_partial _ tA_reach tA_supported tA_realFns tA_oneVar
        (by unfold IsBool; decide +kernel) conv_unsat _ P c0 h1 (fun c _ => (Ufl.anyOrder_ok c).1) h2 I⟩
    | sat x => cases h
    | run c => cases h

open UflExample in
/-- The hypotheses of `C66_sat_partial` hold for the assertion `(< (f x) (f y))`; the values of `x`, `(f x)`, `y`
and `(f y)` are 0, 0, 1 and 1. -/
example : ∃ (P : List QAtom) (c0 : UC Unit) (x : US), Ufl.Start (env (tA 0) [⟨23⟩]) P c0 ∧
    Ufl.Returns (env (tA 0) [⟨23⟩]) Qf.anyOrder c0 (.sat x) ∧ (List.range 4).map x.q.s.t.rats.value = [0, 0, 1, 1] ∧
    Holds (ufInterp (conv (tA 0) [⟨23⟩]) (Ufl.view (conv (tA 0) [⟨23⟩]) x.q.la x.f) fun _ => 0) (tA 0) [⟨23⟩] := by
  have h := whole_sat
  cases hw : whole (env (tA 0) [⟨23⟩]) actsSat with
  | none => rw [hw] at h; cases h
  | some r =>
    obtain ⟨c0, P, out⟩ := r
    rw [hw] at h
    obtain ⟨h1, h2⟩ := whole_sound hw
    cases out with
    | unsat => cases h
    | sat x =>
      exact ⟨P, c0, x, h1, h2, by simpa using h, C66_sat_partial (env (tA 0) [⟨23⟩]) tA_reach tA_supported tA_realFns
        tA_oneVar (by unfold IsBool; decide +kernel) conv_sat _ P c0 h1 (fun c _ => Ufl.anyOrder_ok c) x h2 _⟩
    | run c => cases h

#print axioms C66_start
#print axioms C66_unsat_partial
#print axioms C66_sat_partial
#print axioms C66_assertions_partial
#print axioms C66_levels_false

end Yaga
