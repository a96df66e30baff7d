/-
C54: sat answers with uninterpreted functions are right.
-/
import Verif.Proofs.UfExample

namespace Yaga

open TermTable Spec Internalizer

/-- C54, for functions of numbers with numbers as values: if the plugin for functions has nothing to report, all
rational variables are assigned, the clauses are true on the trail and the constraints have their values, then
all assertions of the script are true in the interpretation that consists of the values of the constants and
the function tables, whatever value the functions have where the tables have no entry. Missing: functions with
Boolean arguments or values, for which it is wrong (`C54_false`). -/
theorem C54_sat_partial {H : TermHash} {s : TermTable} (hs : TReach H s) {cfg : ICfg} (hS : Supported cfg s)
    (hF : RealFns s) {as : List Tm} (hb : ∀ a ∈ as, IsBool s a) {st : IState}
    (hc : check cfg s IState.init as = some (some st)) {R : Type} {u : UF R} (hr : UF.Reach cfg s st u true)
    (hfull : UF.Full st u) (hm : Models st u.trail.bools.value u.trail.rats.value) (dflt : Nat → ℚ) :
    Holds (ufInterp st u dflt) s as :=
  UF.sat_holds hs.wf hS hF hb hc (UF.reach_all hs.wf hS hF hb hc hr) hfull hm dflt

open UfExample in
/-- C54 does not hold for functions of truth values: the assertions `(< (f b) (f (>= x 0)))`, `b` and
`(>= x 0)` are unsatisfiable, but there is a run to a state with all variables assigned, the clauses true, the
constraints with their values, and nothing to report. -/
theorem C54_false : ∃ (s : TermTable) (st : IState) (u : UF Nat), TReach h0 s ∧
    check (cfg true) s IState.init [⟨25⟩, ⟨10⟩, ⟨12⟩] = some (some st) ∧ UF.Reach (cfg true) s st u true ∧
    UF.Full st u ∧ Models st u.trail.bools.value u.trail.rats.value ∧
    (UF.propagate (cfg true) s u).map (·.2) = some [] ∧ ¬ ∃ I, Holds I s [⟨25⟩, ⟨10⟩, ⟨12⟩] := by
  refine ⟨tbB 0, stB, b4, tbB_reach, stB_check, b4_reach, by unfold UF.Full; decide +kernel,
    models_check (by decide +kernel) (by decide +kernel), by decide +kernel, ?_⟩
  rintro ⟨I, h⟩
  have h1 := h ⟨25⟩ (by simp)
  have h2 := h ⟨10⟩ (by simp)
  have h3 := h ⟨12⟩ (by simp)
  rw [tbB_b] at h2
  rw [tbB_ge] at h3
  rw [tbB_lt, h2, h3] at h1
  simp at h1

/-! ### Examples -/

section
open UfExample

/-- Hypotheses of `C54_sat_partial`: `x = 0`, `(f x) = 0`, `y = 1`, `(f y) = 1` for the assertion
`(< (f x) (f y))`. -/
example : Holds (ufInterp st w4 fun _ => 7) (tb 0) [⟨23⟩] :=
  C54_sat_partial tb_reach (tb_supported true) tb_realFns (by unfold IsBool; decide +kernel) st_check w4_reach
    (by unfold UF.Full; decide +kernel) (models_check (by decide +kernel) (by decide +kernel)) _

end

#print axioms C54_sat_partial
#print axioms C54_false

end Yaga
