/-
C62: deciding a rational variable finds a value, and the loop of the solver for QF_LRA does not get stuck.
-/
import Verif.Proofs.QfEnds
import Verif.Props.C57
import Verif.Props.C60

namespace Yaga
open Spec

/-- C62. In a timely history the recorded bounds and inequalities allow a value for every variable, unless
the plugin has just returned conflict clauses. So it never misses a conflict of bounds, also not
after the bounds of higher levels became obsolete by backtracking. -/
theorem C62_value {R : Type} (hv : Nat → Nat) (hc : ℚ → Nat) (o : LaOpts) (la : LA R) (s : Stage)
    (h : LA.Reach hv hc o True la s) (hs : s ≠ .conflict) (x : Nat) :
    ∃ q, Allows la.store la.models (la.bnd.vb x) q := by
  obtain ⟨w, hg⟩ := h.good
  obtain ⟨q, hq⟩ := h.values trivial la.trail.decisionLevel le_rfl (Or.inr hs) x
  rw [LA.cut_top hg.keep.base.tinv] at hq
  exact ⟨q, hq.allows⟩

/-- C62. `decide` ends for every variable after propagation without conflict, the variable gets a value,
and all constraints hold that are assigned and have no other unassigned variable. -/
theorem C62_decide {R : Type} (hv : Nat → Nat) (hc : ℚ → Nat) (o : LaOpts) (la : LA R)
    (h : LA.Reach hv hc o True la .settled) (x : Nat) (hu : la.trail.rats.defined x = false) :
    ∃ n, ∀ fuel ≥ n, ∃ la' q, la.decide fuel x = some la' ∧
      la'.trail.rats.value = Function.update la.trail.rats.value x q ∧
      ∀ c, IsCons la.store c → evalLit la.trail.bools c.lit = some true → x ∈ la.store.varsOf c →
        (∀ y ∈ la.store.varsOf c, y ≠ x → la.trail.rats.defined y = true) →
        ConsTrue la.store c la'.trail.rats.value := by
  obtain ⟨n, hn⟩ := C33_decides la.store la.models (la.bnd.vb x) (la.cached x)
    (C62_value hv hc o la .settled h (by rintro ⟨⟩) x)
  refine ⟨n, fun fuel hf => ?_⟩
  obtain ⟨v, q, h1, h2⟩ := hn fuel hf
  have e : ∃ la', la.decide fuel x = some la' ∧
      la'.trail.rats.value = Function.update la.trail.rats.value x q := by
    unfold LA.decide
    dsimp only
    rw [h1]
    exact ⟨_, rfl, rfl⟩
  obtain ⟨la', e1, e2⟩ := e
  refine ⟨la', q, e1, e2, fun c hcc ht hx hd => ?_⟩
  rw [e2]
  exact C57_units hv hc o True la h c hcc ht x hx hu hd q h2

/-- C62. In every reachable state of the solver for QF_LRA the propagation of both plugins ends, and the
loop makes its next iteration, whatever the result of propagation is. The variable order has to handle its
events and answer every request, and it picks only declared variables that are not assigned; `C63` shows this
for the order of the solver. -/
theorem C62_iteration {O : Type} (hv : Nat → Nat) (hc : ℚ → Nat) (op : LaOpts) (W : QOrder O)
    (A : List Clause) (P : List QAtom) (c0 : QC O) (h : Qf.Start hv hc A P c0)
    (hW : ∀ c, Qf.Reach hv hc op W c0 c → Qf.PicksFree hv hc op W c)
    (c : QC O) (hr : Qf.Reach hv hc op W c0 c) (hev : Qf.Handles hv hc op W c) (hpk : Qf.Answers hv hc op W c) :
    (∃ cs q, Qf.QProp hv hc op c.q cs q) ∧
    ∀ cs q, Qf.QProp hv hc op c.q cs q → ∃ out, Qf.Iter hv hc op W c out := by
  obtain ⟨b, st, hs, hC, -⟩ := Qf.all_reach h hW hr
  refine ⟨Qf.prop_ends hC hs, fun cs q hp => ?_⟩
  by_cases hne : cs = []
  · subst hne
    obtain ⟨v, o', la0, hv'⟩ := hpk q hp
    rcases v with _ | ⟨ty, n⟩
    · exact ⟨_, .sat hp hv'⟩
    · cases ty with
      | boolean => exact ⟨_, .decideBool hp hv'⟩
      | rational =>
        obtain ⟨st', h1, h2, -⟩ := Qf.core_prop hp hC hs
        have h3 := h2 rfl
        subst h3
        obtain ⟨k, hk⟩ := ((W.queried hv').reach h1.reach).decides trivial (by rintro ⟨⟩) n
        obtain ⟨la', hd⟩ := hk k le_rfl
        exact ⟨_, .decideRat hp hv' hd⟩
  · exact C60_continues hv hc op W A P c0 h hW c hr hev cs q hp hne

/-- C62. So `check` returns an answer or makes iterations for ever. -/
theorem C62_never_stuck {O : Type} (hv : Nat → Nat) (hc : ℚ → Nat) (op : LaOpts) (W : QOrder O)
    (A : List Clause) (P : List QAtom) (c0 : QC O) (h : Qf.Start hv hc A P c0)
    (hW : ∀ c, Qf.Reach hv hc op W c0 c → Qf.PicksFree hv hc op W c)
    (ha : ∀ c, Qf.Reach hv hc op W c0 c → Qf.Handles hv hc op W c ∧ Qf.Answers hv hc op W c) :
    (∃ out, Qf.Returns hv hc op W c0 out ∧ (out = .unsat ∨ ∃ q, out = .sat q)) ∨
    ∃ f : Nat → QC O, f 0 = c0 ∧ ∀ i, Qf.Iter hv hc op W (f i) (.run (f (i + 1))) := by
  by_cases hout : ∃ out, Qf.Returns hv hc op W c0 out ∧ (out = .unsat ∨ ∃ q, out = .sat q)
  · exact Or.inl hout
  · right
    have next : ∀ c : {c : QC O // Qf.Reach hv hc op W c0 c}, ∃ c' : {c : QC O // Qf.Reach hv hc op W c0 c},
        Qf.Iter hv hc op W c.1 (.run c'.1) := by
      rintro ⟨c, hr⟩
      obtain ⟨⟨cs, q, hp⟩, hi⟩ := C62_iteration hv hc op W A P c0 h hW c hr (ha c hr).1 (ha c hr).2
      obtain ⟨out, hit⟩ := hi cs q hp
      cases out with
      | unsat => exact absurd ⟨_, ⟨c, hr, hit⟩, Or.inl rfl⟩ hout
      | sat q => exact absurd ⟨_, ⟨c, hr, hit⟩, Or.inr ⟨q, rfl⟩⟩ hout
      | run c' => exact ⟨⟨c', .step hr hit⟩, hit⟩
    choose g hg using next
    refine ⟨fun i => (g^[i] ⟨c0, .refl⟩).1, rfl, fun i => ?_⟩
    dsimp only
    rw [Function.iterate_succ_apply']
    exact hg _

/-- After the decisions of `LA.exActs` the variable `x₁` is not assigned and has to satisfy two
constraints; the value 1 is chosen. -/
example : ∃ la : LA Nat, LA.Reach id (fun _ => 0) LA.exOpts True la .settled ∧
    la.trail.rats.defined 1 = false ∧ (la.decide 100 1).map (·.trail.rats.value 1) = some 1 := by
  obtain ⟨la, h1, h2⟩ := LA.start_get (o := LA.exOpts) (timely := true) (as := LA.exActs)
    (s := .settled) (by decide +kernel)
  have e : (LA.start LA.exOpts true LA.exActs).map (fun r => (r.1.trail.rats.defined 1,
      (r.1.decide 100 1).map (·.trail.rats.value 1))) = some (false, some 1) := by decide +kernel
  rw [h1] at e
  simp only [Option.map_some, Option.some.injEq, Prod.mk.injEq] at e
  exact ⟨la, by simpa using h2, e.1, e.2⟩

/-- The order `Qf.anyOrder` meets the requirements. -/
theorem Qf.anyOrder_total (hv : Nat → Nat) (hc : ℚ → Nat) (op : LaOpts) (c : QC Unit) :
    Qf.Handles hv hc op Qf.anyOrder c ∧ Qf.Answers hv hc op Qf.anyOrder c := by
  refine ⟨fun _ _ _ _ _ => ⟨(), trivial⟩, fun q _ => ?_⟩
  by_cases h : ∃ v : Var, v.ord < q.la.trail.numVars v.type ∧ q.la.trail.level v = none
  · obtain ⟨v, hv⟩ := h
    exact ⟨some v, (), q.la, rfl, hv⟩
  · refine ⟨none, (), q.la, rfl, fun v hv hn => h ⟨v, hv, hn⟩⟩

/-- The hypotheses hold for the clauses of `C59` and this order. -/
example : ∃ (c0 : QC Unit) (P : List QAtom), Qf.Start id (fun _ => 0) Qf.exSat P c0 ∧
    ∀ c, Qf.PicksFree id (fun _ => 0) Qf.exOpts Qf.anyOrder c ∧ Qf.Handles id (fun _ => 0) Qf.exOpts Qf.anyOrder c ∧
      Qf.Answers id (fun _ => 0) Qf.exOpts Qf.anyOrder c := by
  have h := Qf.exSat_run
  cases hs : Qf.startRun id (fun _ => 0) Qf.exBuild Qf.exSat with
  | none => rw [hs] at h; cases h
  | some r =>
    exact ⟨r.1, r.2, Qf.startRun_sound _ _ hs,
      fun c => ⟨(Qf.anyOrder_ok c).1, Qf.anyOrder_total _ _ _ c⟩⟩

#print axioms C62_value
#print axioms C62_decide
#print axioms C62_iteration
#print axioms C62_never_stuck

end Yaga
