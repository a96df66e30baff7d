/-
C68: the solver for QF_UFLRA with its variable order `Generalized_vsids`.
-/
import Verif.Props.C66
import Verif.Props.C67
import Verif.Proofs.UfLraOrder
import Verif.Proofs.UfLraOrderRun

namespace Yaga

open TermTable Spec Internalizer

variable {S : Type} [LinearOrder S] [ScoreOps S]

/-- C68, composition: after the conversion of the assertions for the first `check-sat` the solver starts `check` in a
state for which the theorems below hold. -/
theorem C68_start {H : TermHash} (E : Ufl.Env) (hs : TReach H E.s) {as : List Tm} (hb : ∀ a ∈ as, IsBool E.s a)
    (hc : check E.cfg E.s IState.init as = some (some E.st)) :
    ∃ (P : List QAtom) (c0 : UC (GVsids S)), Ufl.Start E P c0 ∧ Ufl.OrderStart E c0 := by
  obtain ⟨P, c, h, -⟩ := C66_start E hs hb hc ()
  obtain ⟨⟨h1, h2, h3, h4, h5, h6, h7⟩, k1, k2, k3, k4⟩ := h
  refine ⟨P, Ufl.gvStart E c, ⟨⟨h1, h2, h3, h4, h5, h6, h7⟩, k1, k2, k3, k4⟩, _,
    .resize (.resize .new _ _ (Nat.zero_le _)) _ _ (Nat.zero_le _), ?_, rfl⟩
  funext ty
  cases ty <;> rfl

/-- C68, order: after propagation without conflict, in every state the check loop reaches (also after restarts, and with
the constraints that the plugins for linear arithmetic and functions created), the order picks only declared variables
that have no value, and it picks none only if every declared variable has a value. Partial: functions have real arguments
and values (`RealFns`), every argument has at most one variable (`OneVar`), and the terms are supported by the conversion
(`Supported`). -/
theorem C68_picks_partial {H : TermHash} (E : Ufl.Env) (hs : TReach H E.s) (hS : Supported E.cfg E.s)
    (hF : RealFns E.s) (h1 : OneVar E.s) {as : List Tm} (hb : ∀ a ∈ as, IsBool E.s a)
    (hc : check E.cfg E.s IState.init as = some (some E.st)) (P : List QAtom) (c0 : UC (GVsids S))
    (h : Ufl.Start E P c0) (ho : Ufl.OrderStart E c0) (c : UC (GVsids S))
    (hr : Ufl.Reach E (Qf.gvOrder S) c0 c) (x : US) (hp : Ufl.UProp E c.u [] x)
    (o : GVsids S) (v : Option Var) (la : LA Nat) (hpick : (c.o.sync x.q.la.trail).pickLa x.q.la = some (o, v, la)) :
    (∀ y, v = some y → y.ord < x.q.la.trail.numVars y.type ∧ x.q.la.trail.level y = none) ∧
    (v = none → ∀ y : Var, y.ord < x.q.la.trail.numVars y.type → x.q.la.trail.level y ≠ none) := by
  obtain ⟨hO, h0⟩ := Ufl.ok_of_check hs hS hF h1 hb hc
  obtain ⟨k1, k2⟩ := Ufl.gv_picks hO h0 h ho hr
  refine ⟨?_, ?_⟩
  · rintro y rfl
    exact k1 x y o la hp hpick
  · rintro rfl
    exact k2 x o la hp hpick

/-- C68, `unsat`: if `check` returns `unsat` for the first `check-sat`, no interpretation of the constants and functions
makes all assertions true. Partial: as for `C68_picks_partial`. -/
theorem C68_unsat_partial {H : TermHash} (E : Ufl.Env) (hs : TReach H E.s) (hS : Supported E.cfg E.s)
    (hF : RealFns E.s) (h1 : OneVar E.s) {as : List Tm} (hb : ∀ a ∈ as, IsBool E.s a)
    (hc : check E.cfg E.s IState.init as = some (some E.st)) (P : List QAtom) (c0 : UC (GVsids S))
    (h : Ufl.Start E P c0) (ho : Ufl.OrderStart E c0) (hr : Ufl.Returns E (Qf.gvOrder S) c0 .unsat) (I : Interp) :
    ¬ Holds I E.s as := by
  obtain ⟨hO, h0⟩ := Ufl.ok_of_check hs hS hF h1 hb hc
  exact C66_unsat_partial E hs hS hF h1 hb hc _ P c0 h (fun c hr => (Ufl.gv_picks hO h0 h ho hr).1) hr I

/-- C68, `sat`: if `check` returns `sat` for the first `check-sat`, all assertions are true in the interpretation in
which the constants have their values on the trail and the functions the values recorded by the plugin for
uninterpreted functions. Partial: as for `C68_picks_partial`. -/
theorem C68_sat_partial {H : TermHash} (E : Ufl.Env) (hs : TReach H E.s) (hS : Supported E.cfg E.s)
    (hF : RealFns E.s) (h1 : OneVar E.s) {as : List Tm} (hb : ∀ a ∈ as, IsBool E.s a)
    (hc : check E.cfg E.s IState.init as = some (some E.st)) (P : List QAtom) (c0 : UC (GVsids S))
    (h : Ufl.Start E P c0) (ho : Ufl.OrderStart E c0) (x : US) (hr : Ufl.Returns E (Qf.gvOrder S) c0 (.sat x))
    (dflt : Nat → ℚ) : Holds (ufInterp E.st (Ufl.view E.st x.q.la x.f) dflt) E.s as := by
  obtain ⟨hO, h0⟩ := Ufl.ok_of_check hs hS hF h1 hb hc
  exact C66_sat_partial E hs hS hF h1 hb hc _ P c0 h (fun c hr => Ufl.gv_picks hO h0 h ho hr) x hr dflt

/-- C68. Without the option `--prop-rational` (the default), no assertion of the order fails and no step of the loop is
stuck: `check` returns unsat or sat, or makes iterations for ever. Partial: as for `C68_picks_partial`, and that it
returns is not proved. -/
theorem C68_never_stuck_partial {H : TermHash} (E : Ufl.Env) (hs : TReach H E.s) (hS : Supported E.cfg E.s)
    (hF : RealFns E.s) (h1 : OneVar E.s) (hop : E.op.propRational = false) {as : List Tm} (hb : ∀ a ∈ as, IsBool E.s a)
    (hc : check E.cfg E.s IState.init as = some (some E.st)) (P : List QAtom) (c0 : UC (GVsids S))
    (h : Ufl.Start E P c0) (ho : Ufl.OrderStart E c0) :
    (∃ out, Ufl.Returns E (Qf.gvOrder S) c0 out ∧ (out = .unsat ∨ ∃ x, out = .sat x)) ∨
    ∃ f : Nat → UC (GVsids S), f 0 = c0 ∧ ∀ i, Ufl.Iter E (Qf.gvOrder S) (f i) (.run (f (i + 1))) := by
  obtain ⟨hO, h0⟩ := Ufl.ok_of_check hs hS hF h1 hb hc
  exact C67_never_stuck_partial E hs hS hF h1 hb hc _ P c0 h (fun c hr => (Ufl.gv_picks hO h0 h ho hr).1)
    fun c hr => ⟨Ufl.gv_handles c, Ufl.gv_answers hop hO h0 h ho hr⟩

/-! ### Examples -/

namespace UflExample

/-- Without `--prop-rational`. -/
def envD (s : TermTable) (as : List Tm) : Ufl.Env := { env s as with op := ⟨false, true, false⟩ }

/-- The start and the run of the solver with `Generalized_vsids`. -/
def gvWhole (E : Ufl.Env) (acts : List Qf.BAct) (rss : List Bool) :
    Option (UC (GVsids Int) × List QAtom × Ufl.Out (GVsids Int)) :=
  match Ufl.startRun E acts with
  | none => none
  | some (c0, P) => (Ufl.gvCheckRun E 100 rss (Ufl.gvStart E c0)).map fun out => (Ufl.gvStart E c0, P, out)

theorem gvWhole_sound {E : Ufl.Env} {acts : List Qf.BAct} {rss : List Bool} {c0 : UC (GVsids Int)} {P : List QAtom}
    {out : Ufl.Out (GVsids Int)} (h : gvWhole E acts rss = some (c0, P, out)) :
    Ufl.Start E P c0 ∧ Ufl.OrderStart E c0 ∧ Ufl.Returns E (Qf.gvOrder Int) c0 out := by
  unfold gvWhole at h
  split at h
  · cases h
  · rename_i c1 P1 hs
    obtain ⟨out', hr, h2⟩ := Option.map_eq_some_iff.1 h
    cases h2
    obtain ⟨k1, k2⟩ := Ufl.gvStart_sound (S := Int) _ hs
    exact ⟨k1, k2, Ufl.gvCheckRun_sound _ _ _ hr _ .refl⟩

theorem gv_unsat : ((gvWhole (envD (tA 0) [⟨23⟩, ⟨28⟩, ⟨34⟩]) actsUnsat
    (List.replicate 5 true ++ List.replicate 20 false)).map fun r => match r.2.2 with
    | .unsat => true
    | _ => false) = some true := by decide +kernel

theorem gv_sat : ((gvWhole (envD (tA 0) [⟨23⟩]) actsSat (List.replicate 20 false)).map fun r => match r.2.2 with
    | .sat x => (List.range 4).map x.q.s.t.rats.defined
    | _ => []) = some [true, true, true, true] := by decide +kernel

/-- The hypotheses of `C68_unsat_partial` and `C68_never_stuck_partial` hold for the assertions `(< (f x) (f y))`,
`(>= x y)` and `(>= y x)` and a run with restarts. -/
example : ∃ (P : List QAtom) (c0 : UC (GVsids Int)), (envD (tA 0) [⟨23⟩, ⟨28⟩, ⟨34⟩]).op.propRational = false ∧
    Ufl.Start (envD (tA 0) [⟨23⟩, ⟨28⟩, ⟨34⟩]) P c0 ∧ Ufl.OrderStart (envD (tA 0) [⟨23⟩, ⟨28⟩, ⟨34⟩]) c0 ∧
    Ufl.Returns (envD (tA 0) [⟨23⟩, ⟨28⟩, ⟨34⟩]) (Qf.gvOrder Int) c0 .unsat ∧
    ∀ I, ¬ Holds I (tA 0) [⟨23⟩, ⟨28⟩, ⟨34⟩] := by
  have h := gv_unsat
  cases hw : gvWhole (envD (tA 0) [⟨23⟩, ⟨28⟩, ⟨34⟩]) actsUnsat
      (List.replicate 5 true ++ List.replicate 20 false) with
  | none => rw [hw] at h; cases h
  | some r =>
    obtain ⟨c0, P, out⟩ := r
    rw [hw] at h
    obtain ⟨h1, h2, h3⟩ := gvWhole_sound hw
    cases out with
    | unsat =>
      exact ⟨P, c0, rfl, h1, h2, h3, fun I => C68_unsat_partial _ tA_reach tA_supported tA_realFns tA_oneVar
        (by unfold IsBool; decide +kernel) conv_unsat P c0 h1 h2 h3 I⟩
    | sat x => cases h
    | run c => cases h

/-- The hypotheses of `C68_sat_partial` and `C68_picks_partial` hold for the assertion `(< (f x) (f y))`. -/
example : ∃ (P : List QAtom) (c0 c : UC (GVsids Int)) (x x' : US), Ufl.Start (envD (tA 0) [⟨23⟩]) P c0 ∧
    Ufl.OrderStart (envD (tA 0) [⟨23⟩]) c0 ∧ Ufl.Returns (envD (tA 0) [⟨23⟩]) (Qf.gvOrder Int) c0 (.sat x) ∧
    Ufl.Reach (envD (tA 0) [⟨23⟩]) (Qf.gvOrder Int) c0 c ∧ Ufl.UProp (envD (tA 0) [⟨23⟩]) c.u [] x' ∧
    (∃ o la, (c.o.sync x'.q.la.trail).pickLa x'.q.la = some (o, none, la)) ∧
    Holds (ufInterp (conv (tA 0) [⟨23⟩]) (Ufl.view (conv (tA 0) [⟨23⟩]) x.q.la x.f) fun _ => 0) (tA 0) [⟨23⟩] := by
  have h := gv_sat
  cases hw : gvWhole (envD (tA 0) [⟨23⟩]) actsSat (List.replicate 20 false) with
  | none => rw [hw] at h; cases h
  | some r =>
    obtain ⟨c0, P, out⟩ := r
    rw [hw] at h
    obtain ⟨h1, h2, h3⟩ := gvWhole_sound hw
    cases out with
    | unsat => cases h
    | sat x =>
      obtain ⟨c, h6, h7⟩ := id h3
      cases h7 with
      | sat hq hp =>
        exact ⟨P, c0, c, _, _, h1, h2, h3, h6, hq, ⟨_, _, hp⟩, C68_sat_partial (envD (tA 0) [⟨23⟩]) tA_reach tA_supported
          tA_realFns tA_oneVar (by unfold IsBool; decide +kernel) conv_sat P c0 h1 h2 _ h3 _⟩
    | run c => cases h

end UflExample

#print axioms C68_start
#print axioms C68_picks_partial
#print axioms C68_unsat_partial
#print axioms C68_sat_partial
#print axioms C68_never_stuck_partial

end Yaga
