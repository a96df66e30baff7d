/-
C35: conflict clauses of the plugin for uninterpreted functions are instances of congruence.
-/
import Verif.Proofs.UfExample

namespace Yaga

open TermTable Spec Internalizer

/-- C35, for functions of numbers with numbers as values: a conflict clause is true in every interpretation of
the functions and constants in which the variables have the values of their terms. Missing: functions with
Boolean arguments or values, for which it is wrong (`C35_false`). -/
theorem C35_valid_partial {H : TermHash} {s : TermTable} (hs : TReach H s) {cfg : ICfg} (hS : Supported cfg s)
    (hF : RealFns s) {as : List Tm} (hb : ∀ a ∈ as, IsBool s a) {st : IState}
    (hc : check cfg s IState.init as = some (some st)) {R : Type} {u u' : UF R} {d : Bool}
    (hr : UF.Reach cfg s st u d) {cs : List Clause} (hp : UF.propagate cfg s u = some (u', cs)) :
    ∀ c ∈ cs, ∀ (I : Interp) (m : Assignment) (r : Nat → ℚ), Models u'.ist m r →
      (∀ p ∈ st.ratVars, r p.2 = denQ I s p.1) → clauseTrue m c := by
  have hI := UF.reach_all hs.wf hS hF hb hc hr
  obtain ⟨v, ds, h1, h2, _⟩ := UF.propagate_spec hs.wf (cfg := cfg) hI
  rw [hp] at h1
  cases h1
  exact h2.valid (by simp)

/-- C35, for functions of numbers: a conflict clause is false on the trail after the call, if the assigned
constraints over assigned variables had their values before it. -/
theorem C35_conflict_partial {H : TermHash} {s : TermTable} (hs : TReach H s) {cfg : ICfg} (hS : Supported cfg s)
    (hF : RealFns s) {as : List Tm} (hb : ∀ a ∈ as, IsBool s a) {st : IState}
    (hc : check cfg s IState.init as = some (some st)) {R : Type} {u u' : UF R} {d : Bool}
    (hr : UF.Reach cfg s st u d) (hu : UF.Consistent u) {cs : List Clause}
    (hp : UF.propagate cfg s u = some (u', cs)) :
    UF.Consistent u' ∧ ∀ c ∈ cs, ∀ l ∈ c, evalLit u'.trail.bools l = some false := by
  have hI := UF.reach_all hs.wf hS hF hb hc hr
  obtain ⟨v, ds, h1, h2, _⟩ := UF.propagate_spec hs.wf (cfg := cfg) hI
  rw [hp] at h1
  cases h1
  obtain ⟨h3, h4⟩ := h2.consistent hu
  exact ⟨h3, h4 (by simp)⟩

/-- C35, for functions of numbers: the plugin ends without an exception or a failed assertion. -/
theorem C35_total_partial {H : TermHash} {s : TermTable} (hs : TReach H s) {cfg : ICfg} (hS : Supported cfg s)
    (hF : RealFns s) {as : List Tm} (hb : ∀ a ∈ as, IsBool s a) {st : IState}
    (hc : check cfg s IState.init as = some (some st)) {R : Type} {u : UF R} {d : Bool}
    (hr : UF.Reach cfg s st u d) : ∃ r, UF.propagate cfg s u = some r := by
  obtain ⟨v, ds, h1, _⟩ := UF.propagate_spec hs.wf (cfg := cfg) (UF.reach_all hs.wf hS hF hb hc hr)
  exact ⟨_, h1⟩

open UfExample in
/-- C35 does not hold for functions of truth values. For `(f b)` and `(f (>= x 0))`, with `b` false and `x` 1,
the plugin takes the arguments for equal (the sign of the literal of `(>= x 0)` is ignored) and returns the
conflict clause that consists of the equation of the applications only; it is false in an interpretation. -/
theorem C35_false : ∃ (s : TermTable) (st : IState) (u u' : UF Nat) (d : Bool) (c : Clause), TReach h0 s ∧
    check (cfg true) s IState.init [⟨25⟩, ⟨10⟩, ⟨12⟩] = some (some st) ∧ UF.Reach (cfg true) s st u d ∧
    UF.propagate (cfg true) s u = some (u', [c]) ∧
    ∃ I m r, Models u'.ist m r ∧ (∀ p ∈ st.ratVars, r p.2 = denQ I s p.1) ∧
      (∀ p ∈ st.boolVars, (litTrue m p.2 ↔ denB I s p.1 = true)) ∧ ¬ clauseTrue m c := by
  refine ⟨tbB 0, stB, c4, c5, false, _, tbB_reach, stB_check, c4_reach, c5_prop, iB, fun k => decide (k = 2),
    fun k => if k = 0 then 0 else 1, models_check ?_ ?_, ?_, ?_, ?_⟩ <;> decide +kernel

/-! ### Examples -/

section
open UfExample

/-- `(< (f x) (f y))` with `x = 0`, `(f x) = 0`, `y = 0`, `(f y) = 1`: one conflict clause. -/
example : (UF.propagate (cfg true) (tb 0) u4).map (·.2) = some [[(Lit.pos 1).neg, Lit.pos 2]] ∧
    TReach h0 (tb 0) ∧ Supported (cfg true) (tb 0) ∧ RealFns (tb 0) ∧
    check (cfg true) (tb 0) IState.init [⟨23⟩] = some (some st) ∧ UF.Reach (cfg true) (tb 0) st u4 false :=
  ⟨u4_conflict, tb_reach, tb_supported true, tb_realFns, st_check, u4_reach⟩

/-- The first literal stands for `x = y`, the second for `(f x) = (f y)`; both are false on the trail. -/
example : (UF.propagate (cfg true) (tb 0) u4).map (fun r =>
    (r.1.ist.store.terms (r.1.ist.store.get 1), r.1.ist.store.terms (r.1.ist.store.get 2),
      evalLit r.1.trail.bools (Lit.pos 1).neg, evalLit r.1.trail.bools (Lit.pos 2))) =
    some ([(2, -1), (0, 1)], [(3, -1), (1, 1)], some false, some false) := by decide +kernel

end

#print axioms C35_valid_partial
#print axioms C35_conflict_partial
#print axioms C35_total_partial
#print axioms C35_false

end Yaga
