/-
C36: function tables give every application its value.
-/
import Verif.Proofs.UfExample
import Verif.Proofs.UfKeys

namespace Yaga

open TermTable Spec Internalizer

/-- C36, for functions of numbers with numbers as values: when the plugin has nothing to report and all rational
variables are assigned, the table of the function of each application maps the values of the arguments to the
value of the application. `ρ` is the value of each term that has a variable; `linVal` computes the values of
linear terms from it. Missing: functions with Boolean arguments or values, for which it is wrong
(`C36_false`). -/
theorem C36_model_partial {H : TermHash} {s : TermTable} (hs : TReach H s) {cfg : ICfg} (hS : Supported cfg s)
    (hF : RealFns s) {as : List Tm} (hb : ∀ a ∈ as, IsBool s a) {st : IState}
    (hc : check cfg s IState.init as = some (some st)) {R : Type} {u : UF R} (hr : UF.Reach cfg s st u true)
    (hfull : UF.Full st u) {ρ : Tm → ℚ} (hρ : ∀ q ∈ st.ratVars, ρ q.1 = u.trail.rats.value q.2) :
    ∀ p ∈ st.ratVars, s.kind p.1 = .app →
      UF.fnModel u (s.fncSymbol p.1) ((s.args p.1).map fun a => .q (linVal ρ s a)) = some (.q (ρ p.1)) := by
  have hI := UF.reach_all hs.wf hS hF hb hc hr
  obtain ⟨_, hP, hK⟩ := UF.check_facts hs.wf hS hb (UF.RealFns.roots hF hb) hc
  intro p hp hk
  exact UF.fnModel_spec hI hfull (fun q hq => (UF.registered hs.wf hF hP hK q hq).1) hρ (hP.appKey p hp hk)

/-- C36: at any time, the table of a function has at most one entry for each tuple of argument values. -/
theorem C36_functional {cfg : ICfg} {s : TermTable} {st : IState} {R : Type} {u : UF R} {d : Bool}
    (hr : UF.Reach cfg s st u d) {e e' : FApp} (he : e ∈ u.fns) (he' : e' ∈ u.fns) (hf : e.fn = e'.fn)
    (ha : e.args = e'.args) : e = e' :=
  List.inj_on_of_nodup_map (UF.reach_one hr) he he' (by unfold UF.key; rw [hf, ha])

open UfExample in
/-- C36 does not hold for functions of truth values: with `x = 1`, the application `(f (>= x 0))`, which has
the value 1, is in the table with the argument `false`, and the table maps `true` to 0, the value of `(f b)`
with `b` true. The sign of the literal of `(>= x 0)` is ignored. -/
theorem C36_false : ∃ (s : TermTable) (st : IState) (u : UF Nat), TReach h0 s ∧
    check (cfg true) s IState.init [⟨25⟩, ⟨10⟩, ⟨12⟩] = some (some st) ∧ UF.Reach (cfg true) s st u true ∧
    UF.Full st u ∧ (⟨16⟩, 2) ∈ st.ratVars ∧ s.args ⟨16⟩ = [⟨12⟩] ∧ u.trail.rats.value 2 = 1 ∧
    (∀ I, (∀ p ∈ st.ratVars, u.trail.rats.value p.2 = denQ I s p.1) → denB I s ⟨12⟩ = true) ∧
    UF.fnModel u (s.fncSymbol ⟨16⟩) [.b true] = some (.q 0) := by
  refine ⟨tbB 0, stB, b4, tbB_reach, stB_check, b4_reach, by unfold UF.Full; decide +kernel, by decide +kernel,
    by decide +kernel, by decide +kernel, ?_, by decide +kernel⟩
  intro I h
  rw [tbB_ge]
  have h1 := h (⟨8⟩, 1) (by decide +kernel)
  rw [tbB_x] at h1
  rw [← h1]
  decide +kernel

/-! ### Examples -/

section
open UfExample

/-- `x = 0`, `(f x) = 0`, `y = 1`, `(f y) = 1`: the table is complete. -/
example : UF.fnModel w4 ⟨6⟩ [.q 0] = some (.q 0) ∧ UF.fnModel w4 ⟨6⟩ [.q 1] = some (.q 1) ∧ w4.fns.length = 2 := by
  decide +kernel

example : UF.Reach (cfg true) (tb 0) st w4 true ∧ UF.Full st w4 ∧ st.ratVars = [(⟨8⟩, 0), (⟨12⟩, 1), (⟨10⟩, 2), (⟨14⟩, 3)] :=
  ⟨w4_reach, by unfold UF.Full; decide +kernel, by decide +kernel⟩

end

#print axioms C36_model_partial
#print axioms C36_functional
#print axioms C36_false

end Yaga
