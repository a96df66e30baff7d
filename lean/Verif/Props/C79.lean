/-
C79: the Boolean plugin accesses only memory that exists and none of its assertions fails.
-/
import Verif.Proofs.BoolChecked
import Verif.Props.C18
import Verif.Props.C47
import Verif.Props.C68

namespace Yaga
open Spec BS Check

variable {O : Type}

/-- States in which `check`, started in `c0`, calls `propagate` of the Boolean plugin: at the
beginning of an iteration (src/Solver.cpp:194), and again after other plugins assigned something
(src/Theory_combination.cpp:8-29). -/
inductive Spec.Called (E : Env O) (c0 : CS O) : BS → Prop where
  | first {c : CS O} : Reach E c0 c → Called E c0 c.s
  | again {s s1 s2 : BS} : Called E c0 s → s.Propagates none s1 → Others E s1 s2 → Called E c0 s2

theorem called_good {E : Env O} {M : Assignment → Prop} (hE : Sound E M) {A : List Clause} {c0 : CS O}
    (h : Start A c0) (hP : ∀ c, Reach E c0 c → PicksFree E c) {s : BS} (hc : Called E c0 s) :
    ∃ b, Good M A b s := by
  induction hc with
  | first hr => exact good_reach hE h hP hr
  | again _ hp ho ih =>
    obtain ⟨b, hb⟩ := ih
    exact ⟨true, (good_others hE (good_propagates hb hp).1 ho).1⟩

/-- C79, for every combination of plugins whose conflicts are clauses that are false (and whose
variable order picks unassigned variables): whenever `check` calls `propagate` of the Boolean plugin,
every pointer that is followed points to a clause of the database, every index is in range, and every
assertion holds except possibly the one about levels in src/bool/Bool_theory.cpp:229-231. The result
is that of the model without checks. -/
theorem C79_safe {E : Env O}
    (hE : ∀ s c, E.conflict s c → ∀ l ∈ c, evalLit s.t.bools l = some false)
    {A : List Clause} {c0 : CS O} (h : Start A c0)
    (hP : ∀ c s v o', Reach E c0 c → PropRun E c.s [] s → E.pick c.o s (some v) o' →
      v.ord < s.t.numVars v.type ∧ s.t.level v = none)
    {s : BS} (hc : Called E c0 s) (fuel : Nat) :
    s.propagateC false fuel = some (propLoop fuel s.initProp) := by
  have hS : Sound E (fun _ => False) :=
    ⟨fun _ _ _ _ _ hM => hM.elim, fun s c hc => ⟨hE s c hc, fun _ hM => hM.elim⟩⟩
  obtain ⟨b, hb⟩ := called_good hS h (fun c hc s v o' h1 h2 => hP c s v o' hc h1 h2) hc
  exact propagateC_eq hb (by simp) fuel

/-- C79: under the same conditions `propagate` ends without a failed check. -/
theorem C79_ends {E : Env O}
    (hE : ∀ s c, E.conflict s c → ∀ l ∈ c, evalLit s.t.bools l = some false)
    {A : List Clause} {c0 : CS O} (h : Start A c0)
    (hP : ∀ c s v o', Reach E c0 c → PropRun E c.s [] s → E.pick c.o s (some v) o' →
      v.ord < s.t.numVars v.type ∧ s.t.level v = none)
    {s : BS} (hc : Called E c0 s) :
    ∃ fuel c s', s.propagateC false fuel = some (some (c, s')) ∧ s.Propagates c s' := by
  obtain ⟨c, s', fuel, hf⟩ := propagates_ends s
  exact ⟨fuel, c, s', by rw [C79_safe hE h hP hc, hf], fuel, hf⟩

/-- C79 for the propositional solver: the assertion about levels holds as well. -/
theorem C79_propositional {S : Type} [LinearOrder S] [ScoreOps S] {A : List Clause}
    {c0 : CS (Evsids S)} (h : PropStart A c0) {s : BS} (hc : Called (propEnv S) c0 s) (fuel : Nat) :
    s.propagateC true fuel = some (propLoop fuel s.initProp) := by
  have key : ∃ b, Good AnyModel A b s ∧ TrailP s := by
    induction hc with
    | first hr =>
      rcases (pgood_reach h hr).1 with h' | h'
      · exact ⟨_, h'.good, h'.tr⟩
      · exact ⟨_, h'.good, h'.tr⟩
    | again _ hp ho ih =>
      obtain ⟨b, hb, ht⟩ := ih
      have h1 := (good_propagates hb hp).1
      have h2 := (trailP_propagates hb ht hp).1
      cases ho with
      | resizes hr =>
        cases hr with
        | refl => exact ⟨_, h1, h2⟩
        | bool h => exact h.elim
        | rat h => exact h.elim
      | assign _ h => exact h.elim
  obtain ⟨b, hb, ht⟩ := key
  exact propagateC_eq hb (fun _ a ha => ht.late _ a ha) fuel

/-- States in which `check` for QF_LRA calls `propagate` of the Boolean plugin
(src/Theory_combination.cpp:8-29, `Qf.QProp`). -/
inductive Spec.CalledLra (hv : Nat → Nat) (hc : ℚ → Nat) (op : LaOpts) {O : Type} (W : QOrder O)
    (c0 : QC O) : QS → Prop where
  | first {c : QC O} : Qf.Reach hv hc op W c0 c → CalledLra hv hc op W c0 c.q
  | again {q : QS} {s : BS} {la : LA Nat} : CalledLra hv hc op W c0 q → q.s.Propagates none s →
      (Qf.withTrail q.la s.t).propagate hv hc op = (la, []) →
      CalledLra hv hc op W c0 ⟨Qf.follow s la, la⟩

/-- C79 for the solver as configured for QF_LRA. -/
theorem C79_qf_lra {S : Type} [LinearOrder S] [ScoreOps S] {hv : Nat → Nat} {hc : ℚ → Nat} {op : LaOpts}
    {A : List Clause} {P : List QAtom} {c0 : QC (GVsids S)} (h : Qf.Start hv hc A P c0)
    (ho : Qf.OrderStart A c0) {q : QS} (hq : CalledLra hv hc op (Qf.gvOrder S) c0 q) (fuel : Nat) :
    q.s.propagateC false fuel = some (propLoop fuel q.s.initProp) := by
  have key : ∃ b st, st ≠ .conflict ∧ Qf.Core hv hc op c0.q.la.store A b st q := by
    induction hq with
    | first hr =>
      obtain ⟨-, b, st, h1, h2, -⟩ := Qf.gv_reach h ho hr
      exact ⟨b, st, h1, h2⟩
    | again _ hp hl ih =>
      obtain ⟨b, st, h1, h2⟩ := ih
      obtain ⟨st', h3, h4, -⟩ := Qf.core_bool h2 h1 hp
      obtain ⟨k1, -⟩ := Qf.core_lra h4 h3 hl
      exact ⟨_, _, by simp; split <;> simp, k1⟩
  obtain ⟨b, st, -, hC⟩ := key
  obtain ⟨w, hg⟩ := hC.reach.good
  exact propagateC_eq (hC.good _ hg.keep.base.inv (.refl _)) (by simp) fuel

/-- States in which `check` for QF_UFLRA calls `propagate` of the Boolean plugin. -/
inductive Spec.CalledUf (E : Ufl.Env) {O : Type} (W : QOrder O) (c0 : UC O) : US → Prop where
  | first {c : UC O} : Ufl.Reach E W c0 c → CalledUf E W c0 c.u
  | again {x x' : US} : CalledUf E W c0 x → Ufl.Round E x x' → CalledUf E W c0 x'

/-- C79 for the solver as configured for QF_UFLRA, for scripts as in C68. -/
theorem C79_qf_uflra {S : Type} [LinearOrder S] [ScoreOps S] {H : TermHash} (E : Ufl.Env)
    (hs : TReach H E.s) (hS : Supported E.cfg E.s) (hF : RealFns E.s) (h1 : OneVar E.s)
    {as : List Tm} (hb : ∀ a ∈ as, IsBool E.s a)
    (hc : Internalizer.check E.cfg E.s IState.init as = some (some E.st)) (P : List QAtom) (c0 : UC (GVsids S))
    (h : Ufl.Start E P c0) (ho : Ufl.OrderStart E c0) {x : US}
    (hx : CalledUf E (Qf.gvOrder S) c0 x) (fuel : Nat) :
    x.q.s.propagateC false fuel = some (propLoop fuel x.q.s.initProp) := by
  obtain ⟨hO, h0⟩ := Ufl.ok_of_check hs hS hF h1 hb hc
  have key : ∃ b stg d, stg ≠ .conflict ∧
      Ufl.Inv E ⟨fun _ => false, fun _ => 0, fun _ _ => false, fun _ _ => 0⟩ E.st.clauses b stg d x := by
    induction hx with
    | first hr =>
      obtain ⟨-, b, stg, d, h2, h3, -⟩ := Ufl.gv_reach hO h0 h ho hr
      exact ⟨b, stg, d, h2, h3⟩
    | again _ hr ih =>
      obtain ⟨b, stg, d, h2, h3⟩ := ih
      obtain ⟨stg', d', h4, h5⟩ := Ufl.inv_round hO h3 h2 hr
      exact ⟨_, stg', d', h4, h5⟩
  obtain ⟨b, stg, d, -, hI⟩ := key
  obtain ⟨w, hg⟩ := hI.core.reach.good
  exact propagateC_eq (hI.core.good _ hg.keep.base.inv (.refl _)) (by simp) fuel

/-- Beyond the first check: `Yaga::init` (src/Yaga.cpp:63-67) removes all clauses before the next
check, but the watch lists stay. After a first check that answers sat there are watches whose clause
does not exist any more. -/
theorem C79_watches_dangle :
    ∃ (A : List Clause) (c0 : CS (Evsids Int)) (s : BS), PropStart A c0 ∧
      Returns (propEnv Int) c0 (.sat s) ∧ s.t.isEmpty = false ∧
      ∃ l, ∃ w ∈ s.watched l, ({ s with cls := [], na := 0 } : BS).cls[w.ref]? = none := by
  refine ⟨C18Ex.cls, C18Ex.c0, C18Ex.s5,
    ⟨⟨rfl, rfl, rfl, rfl, ⟨by decide, by decide⟩⟩, rfl⟩, ?_, by decide, .pos 0, ⟨0, 1⟩, by decide, rfl⟩
  refine ⟨⟨C18Ex.s4, 0, C18Ex.order⟩,
    .step (.step .refl (c' := ⟨C18Ex.s2, 0, C18Ex.order⟩) ?_) ?_, ?_⟩
  · exact .decideBool (c := C18Ex.c0) (s := C18Ex.s1) (n := 0) (.done ⟨10, rfl⟩ (.refl _))
      ⟨by decide, rfl⟩
  · exact .decideBool (c := ⟨C18Ex.s2, 0, C18Ex.order⟩) (s := C18Ex.s3) (n := 1)
      (.done ⟨10, rfl⟩ (.refl _)) ⟨by decide, rfl⟩
  · exact .sat (o := C18Ex.order) (.done ⟨10, rfl⟩ (.refl _)) ⟨by decide, rfl⟩

/-! Non-vacuity: the example of C47, and checks that do fail. -/

example : ∃ r, C47Ex.c0.s.propagateC false 10 = some (some r) ∧ r.1 = none ∧
    r.2.t.bools.value 0 = true ∧ r.2.t.bools.value 1 = true := by
  refine ⟨(none, C47Ex.s1), ?_, rfl, by decide, by decide⟩
  rw [C79_safe (E := C47Ex.E) (A := C47Ex.cls) (c0 := C47Ex.c0) C47Ex.contract.conflictFalse
    ⟨rfl, rfl, rfl, rfl, ⟨by decide, by decide⟩⟩ (by intro c s v o' _ _ h; cases h) (.first .refl)]
  rfl

/-- A state in which x1 has just been decided, for the checks below. -/
def C79Ex.s (cls : List Clause) (ws : List Watch) : BS :=
  { (Ex.state 2 cls).decide (.bool 0) with watched := fun l => if l = (Lit.pos 0).neg then ws else [] }

/-- A watch without clause, a watch whose clause does not contain the literal, and a watch with a bad
index are detected. -/
example : (C79Ex.s [] [⟨0, 1⟩]).propagateC false 10 = none := by rfl
example : (C79Ex.s [[.pos 1, .pos 0]] [⟨0, 1⟩]).propagateC false 10 = none := by rfl
example : (C79Ex.s [[.pos 1, (Lit.pos 0).neg, (Lit.pos 0).neg]] [⟨0, 3⟩]).propagateC false 10 = none := by
  rfl
example : ∃ r, (C79Ex.s [[.pos 1, (Lit.pos 0).neg, (Lit.pos 0).neg]] [⟨0, 2⟩]).propagateC true 10 =
    some (some (none, r)) ∧ r.t.bools.value 1 = true := ⟨_, rfl, by decide⟩

#print axioms C79_safe
#print axioms C79_ends
#print axioms C79_propositional
#print axioms C79_qf_lra
#print axioms C79_qf_uflra
#print axioms C79_watches_dangle

end Yaga
