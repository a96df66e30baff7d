/-
C81: between two restarts the search of QF_LRA and of QF_UFLRA makes only finitely many iterations without
creating a new constraint.
-/
import Verif.Proofs.QfProgress
import Verif.Proofs.QfRun
import Verif.Proofs.UfLraExample
import Verif.Props.C60
import Verif.Props.C74

namespace Yaga
open Spec

/-- C81, QF_LRA: an iteration leaves the trail empty if and only if it is a restart. -/
theorem C81_restart_lra {O : Type} (hv : Nat → Nat) (hc : ℚ → Nat) (op : LaOpts) (W : QOrder O) (A : List Clause)
    (P : List QAtom) (c0 c c' : QC O) (h : Qf.Start hv hc A P c0)
    (hW : ∀ c, Qf.Reach hv hc op W c0 c → Qf.PicksFree hv hc op W c) (hr : Qf.Reach hv hc op W c0 c)
    (hi : Qf.Iter hv hc op W c (.run c')) :
    c'.q.s.t.isEmpty = true ↔
      ∃ cs q ls, cs ≠ [] ∧ Qf.QProp hv hc op c.q cs q ∧ c'.q = Qf.restart q ls c.old := by
  obtain ⟨b, st, hs, hC, hB, -⟩ := Qf.all_reach h hW hr
  constructor
  · intro he
    rcases Qf.iter_up hC hs (Qf.dec_reach h hW hr) hB (hW _ hr) hi with e | ⟨t, -, e⟩
    · exact e
    · rw [e.ne] at he; cases he
  · rintro ⟨cs, q, ls, -, -, e⟩
    rw [e]; rfl

/-- C81, QF_LRA: `k` iterations of the loop of `Solver::check` (src/Solver.cpp:192-227) from any state of the search,
none of which is a restart (the trail is not empty afterwards), and which create no Boolean variable (the arithmetic
plugin creates them for new linear constraints). With `n` variables, `k` is less than `(2 (n + 1)) ^ (n + 1)`: every
iteration makes progress, the search cannot run in circles. -/
theorem C81_lra {O : Type} (hv : Nat → Nat) (hc : ℚ → Nat) (op : LaOpts) (W : QOrder O) (A : List Clause)
    (P : List QAtom) (c0 : QC O) (h : Qf.Start hv hc A P c0)
    (hW : ∀ c, Qf.Reach hv hc op W c0 c → Qf.PicksFree hv hc op W c) (f : Nat → QC O) (k : Nat)
    (h0 : Qf.Reach hv hc op W c0 (f 0)) (hf : ∀ i < k, Qf.Iter hv hc op W (f i) (.run (f (i + 1))))
    (hr : ∀ i < k, (f (i + 1)).q.s.t.isEmpty = false)
    (hn : (f k).q.s.t.bools.num = (f 0).q.s.t.bools.num) :
    let n := (f 0).q.s.t.bools.num + (f 0).q.s.t.rats.num
    k < (2 * (n + 1)) ^ (n + 1) := by
  have hre : ∀ i ≤ k, Qf.Reach hv hc op W c0 (f i) := by
    intro i
    induction i with
    | zero => exact fun _ => h0
    | succ i ih => exact fun hi => .step (ih (by omega)) (hf i (by omega))
  refine Qf.run_bound (T := fun i => (f i).q.s.t) (fun i hi => ?_) hn
  obtain ⟨b, st, hs, hC, hB, -⟩ := Qf.all_reach h hW (hre i (by omega))
  have hd := Qf.dec_reach h hW (hre i (by omega))
  rcases Qf.iter_up hC hs hd hB (hW _ (hre i (by omega))) (hf i hi) with ⟨cs, q, ls, -, -, e⟩ | e
  · have := hr i hi
    rw [e] at this; cases this
  · exact e

/-- C81, QF_LRA: an endless search restarts again and again, or creates more and more constraints. -/
theorem C81_endless_lra {O : Type} (hv : Nat → Nat) (hc : ℚ → Nat) (op : LaOpts) (W : QOrder O) (A : List Clause)
    (P : List QAtom) (f : Nat → QC O) (h : Qf.Start hv hc A P (f 0))
    (hW : ∀ c, Qf.Reach hv hc op W (f 0) c → Qf.PicksFree hv hc op W c)
    (hf : ∀ i, Qf.Iter hv hc op W (f i) (.run (f (i + 1)))) :
    (∀ n, ∃ i, n < i ∧ (f i).q.s.t.isEmpty = true) ∨ ∀ n, ∃ i, n < (f i).q.s.t.bools.num := by
  have hre : ∀ i, Qf.Reach hv hc op W (f 0) (f i) := by
    intro i
    induction i with
    | zero => exact .refl
    | succ i ih => exact .step ih (hf i)
  refine Qf.run_endless (T := fun i => (f i).q.s.t) (fun i => ?_)
  obtain ⟨b, st, hs, hC, hB, -⟩ := Qf.all_reach h hW (hre i)
  rcases Qf.iter_up hC hs (Qf.dec_reach h hW (hre i)) hB (hW _ (hre i)) (hf i) with ⟨cs, q, ls, -, -, e⟩ | e
  · exact Or.inl (by rw [e]; rfl)
  · exact Or.inr e

/-- C81, QF_LRA, with the policy `No_restart` (src/Restart.h:22-31), or with any policy that restarts finitely often: the
search ends unless it creates more and more constraints. -/
theorem C81_no_restart_lra {O : Type} (hv : Nat → Nat) (hc : ℚ → Nat) (op : LaOpts) (W : QOrder O) (A : List Clause)
    (P : List QAtom) (f : Nat → QC O) (h : Qf.Start hv hc A P (f 0))
    (hW : ∀ c, Qf.Reach hv hc op W (f 0) c → Qf.PicksFree hv hc op W c)
    (hf : ∀ i, Qf.Iter hv hc op W (f i) (.run (f (i + 1)))) (N : Nat)
    (hN : ∀ i ≥ N, ∀ cs q ls, cs ≠ [] → Qf.QProp hv hc op (f i).q cs q → (f (i + 1)).q ≠ Qf.restart q ls (f i).old) :
    ∀ n, ∃ i, n < (f i).q.s.t.bools.num := by
  have hre : ∀ i, Qf.Reach hv hc op W (f 0) (f i) := by
    intro i
    induction i with
    | zero => exact .refl
    | succ i ih => exact .step ih (hf i)
  rcases C81_endless_lra hv hc op W A P f h hW hf with e | e
  · obtain ⟨i, hi, he⟩ := e N
    obtain ⟨j, rfl⟩ : ∃ j, i = j + 1 := ⟨i - 1, by omega⟩
    obtain ⟨cs, q, ls, a, b, c⟩ := (C81_restart_lra hv hc op W A P (f 0) _ _ h hW (hre j) (hf j)).mp he
    exact absurd c (hN j (by omega) cs q ls a b)
  · exact e

section
variable {H : TermHash} {O : Type} (E : Ufl.Env) (hs : TReach H E.s) (hS : Supported E.cfg E.s) (hF : RealFns E.s)
  (h1 : OneVar E.s) {as : List Tm} (hb : ∀ a ∈ as, IsBool E.s a)
  (hc : Internalizer.check E.cfg E.s IState.init as = some (some E.st)) (W : QOrder O) (P : List QAtom)
include hs hS hF h1 hb hc

/-- C81, QF_UFLRA: as `C81_lra`. -/
theorem C81_uflra (c0 : UC O) (h : Ufl.Start E P c0) (hW : ∀ c, Ufl.Reach E W c0 c → Ufl.PicksFree E W c)
    (f : Nat → UC O) (k : Nat) (h0 : Ufl.Reach E W c0 (f 0))
    (hf : ∀ i < k, Ufl.Iter E W (f i) (.run (f (i + 1)))) (hr : ∀ i < k, (f (i + 1)).u.q.s.t.isEmpty = false)
    (hn : (f k).u.q.s.t.bools.num = (f 0).u.q.s.t.bools.num) :
    let n := (f 0).u.q.s.t.bools.num + (f 0).u.q.s.t.rats.num
    k < (2 * (n + 1)) ^ (n + 1) := by
  obtain ⟨hO, hU⟩ := Ufl.ok_of_check hs hS hF h1 hb hc
  have hre : ∀ i ≤ k, Ufl.Reach E W c0 (f i) := by
    intro i
    induction i with
    | zero => exact fun _ => h0
    | succ i ih => exact fun hi => .step (ih (by omega)) (hf i (by omega))
  refine Qf.run_bound (T := fun i => (f i).u.q.s.t) (fun i hi => ?_) hn
  obtain ⟨b, st, d, hst, hC, hB⟩ := Ufl.inv_reach (I := default) hO hU h hW (hre i (by omega))
  have hd := Ufl.dec_reach hO hU h hW (hre i (by omega))
  rcases Ufl.iter_up hO hC hst hd hB (hW _ (hre i (by omega))) (hf i hi) with ⟨cs, q, ls, -, -, e⟩ | e
  · have := hr i hi
    rw [e] at this; cases this
  · exact e

/-- C81, QF_UFLRA: an endless search restarts again and again, or creates more and more constraints. -/
theorem C81_endless_uflra (f : Nat → UC O) (h : Ufl.Start E P (f 0))
    (hW : ∀ c, Ufl.Reach E W (f 0) c → Ufl.PicksFree E W c)
    (hf : ∀ i, Ufl.Iter E W (f i) (.run (f (i + 1)))) :
    (∀ n, ∃ i, n < i ∧ (f i).u.q.s.t.isEmpty = true) ∨ ∀ n, ∃ i, n < (f i).u.q.s.t.bools.num := by
  obtain ⟨hO, hU⟩ := Ufl.ok_of_check hs hS hF h1 hb hc
  have hre : ∀ i, Ufl.Reach E W (f 0) (f i) := by
    intro i
    induction i with
    | zero => exact .refl
    | succ i ih => exact .step ih (hf i)
  refine Qf.run_endless (T := fun i => (f i).u.q.s.t) (fun i => ?_)
  obtain ⟨b, st, d, hst, hC, hB⟩ := Ufl.inv_reach (I := default) hO hU h hW (hre i)
  rcases Ufl.iter_up hO hC hst (Ufl.dec_reach hO hU h hW (hre i)) hB (hW _ (hre i)) (hf i) with
    ⟨cs, q, ls, -, -, e⟩ | e
  · exact Or.inl (by rw [e]; rfl)
  · exact Or.inr e

end

section
variable {H : TermHash} {S : Type} [LinearOrder S] [ScoreOps S]

/-- C81, QF_LRA with the variable order of the program: if the first `check` for a table of terms and assertions goes
on for ever (the third case of `C74_lra`), it restarts again and again, or creates more and more constraints. -/
theorem C81_script_lra {cfg : ICfg} {op : LaOpts} {s : TermTable} {as : List Tm} (h : LraEndless S cfg op s as) :
    ∃ f : Nat → QC (GVsids S), (∀ i, Qf.Iter cfg.hv cfg.hc op (Qf.gvOrder S) (f i) (.run (f (i + 1)))) ∧
      ((∀ n, ∃ i, n < i ∧ (f i).q.s.t.isEmpty = true) ∨ ∀ n, ∃ i, n < (f i).q.s.t.bools.num) := by
  obtain ⟨st, P, f, -, h1, -, h2, h3⟩ := h
  exact ⟨f, h3, C81_endless_lra _ _ _ _ _ P f h1 (fun c hr => (Qf.gv_picks (op := op) h1 h2 hr).1) h3⟩

/-- C81, QF_UFLRA with the variable order of the program: the same for the third case of `C74_uflra`. -/
theorem C81_script_uflra {cfg : ICfg} {op : LaOpts} {s : TermTable} {as : List Tm} (hs : TReach H s)
    (hS : Supported cfg s) (hF : RealFns s) (h1 : OneVar s) (hb : ∀ a ∈ as, IsBool s a)
    (h : UflEndless S cfg op s as) :
    ∃ st, Internalizer.check cfg s IState.init as = some (some st) ∧ ∃ f : Nat → UC (GVsids S),
      (∀ i, Ufl.Iter ⟨cfg, s, st, op⟩ (Qf.gvOrder S) (f i) (.run (f (i + 1)))) ∧
      ((∀ n, ∃ i, n < i ∧ (f i).u.q.s.t.isEmpty = true) ∨ ∀ n, ∃ i, n < (f i).u.q.s.t.bools.num) := by
  obtain ⟨st, P, f, hc, h2, h3, h4⟩ := h
  obtain ⟨hO, hU⟩ := Ufl.ok_of_check (E := ⟨cfg, s, st, op⟩) hs hS hF h1 hb hc
  exact ⟨st, hc, f, h4, C81_endless_uflra ⟨cfg, s, st, op⟩ hs hS hF h1 hb hc _ P f h2
    (fun c hr => (Ufl.gv_picks hO hU h2 h3 hr).1) h4⟩

end

/-- Clauses for constraints `x₀ ≤ x₁` and `x₁ ≤ x₀` of which the first cannot hold. -/
def Qf.exProgress : List Clause := [[(Lit.pos 0).neg, Lit.pos 1], [(Lit.pos 0).neg, (Lit.pos 1).neg]]

/-- Whether the next `n` iterations are no restarts and there are `m` Boolean variables afterwards. -/
def Qf.exRun (m : Nat) : Nat → QC Unit → Bool
  | 0, c => c.q.s.t.bools.num == m
  | n + 1, c =>
    match Qf.iterRun id (fun _ => 0) Qf.exOpts 100 c with
    | some (.run c') => !c'.q.s.t.isEmpty && Qf.exRun m n c'
    | _ => false

theorem Qf.exRun_sound {m n : Nat} {c : QC Unit} (h : Qf.exRun m n c = true) : ∃ f : Nat → QC Unit, f 0 = c ∧
    (∀ i < n, Qf.Iter id (fun _ => 0) Qf.exOpts Qf.anyOrder (f i) (.run (f (i + 1)))) ∧
    (∀ i < n, (f (i + 1)).q.s.t.isEmpty = false) ∧ (f n).q.s.t.bools.num = m := by
  induction n generalizing c with
  | zero => exact ⟨fun _ => c, rfl, by simp, by simp, by simpa [Qf.exRun] using h⟩
  | succ n ih =>
    unfold Qf.exRun at h
    split at h
    · rename_i c' hc
      obtain ⟨h1, h2⟩ := Bool.and_eq_true_iff.mp h
      obtain ⟨f, e, f1, f2, f3⟩ := ih h2
      refine ⟨fun i => Nat.casesOn i c f, rfl, ?_, ?_, f3⟩
      · rintro (_ | i) hi
        · show Qf.Iter _ _ _ _ c (.run (f 0))
          rw [e]; exact Qf.iterRun_sound _ _ hc
        · exact f1 i (by omega)
      · rintro (_ | i) hi
        · show (f 0).q.s.t.isEmpty = false
          rw [e]; simpa using h1
        · exact f2 i (by omega)
    · cases h

theorem Qf.exProgress_run : ((Qf.startRun id (fun _ => 0) Qf.exSplitBuild Qf.exProgress).map fun r =>
    (r.1.q.s.t.bools.num, Qf.exRun 3 8 r.1)) = some (3, true) := by decide +kernel

/-- The hypotheses of `C81_lra` hold for eight iterations, six decisions and two conflicts. -/
example : ∃ c0 P, ∃ f : Nat → QC Unit, Qf.Start id (fun _ => 0) Qf.exProgress P c0 ∧ f 0 = c0 ∧
    (∀ c, Qf.PicksFree id (fun _ => 0) Qf.exOpts Qf.anyOrder c) ∧
    (∀ i < 8, Qf.Iter id (fun _ => 0) Qf.exOpts Qf.anyOrder (f i) (.run (f (i + 1)))) ∧
    (∀ i < 8, (f (i + 1)).q.s.t.isEmpty = false) ∧ (f 8).q.s.t.bools.num = (f 0).q.s.t.bools.num := by
  have h := Qf.exProgress_run
  cases hs : Qf.startRun id (fun _ => 0) Qf.exSplitBuild Qf.exProgress with
  | none => rw [hs] at h; cases h
  | some r =>
    obtain ⟨c0, P⟩ := r
    rw [hs] at h
    simp only [Option.map_some, Option.some.injEq, Prod.mk.injEq] at h
    obtain ⟨f, e, f1, f2, f3⟩ := Qf.exRun_sound h.2
    exact ⟨c0, P, f, Qf.startRun_sound _ _ hs, e, fun c => (Qf.anyOrder_ok c).1, f1, f2, by rw [f3, e, h.1]⟩

/-- The same for QF_UFLRA. -/
def Ufl.exRun (E : Ufl.Env) (m : Nat) : Nat → UC Unit → Bool
  | 0, c => c.u.q.s.t.bools.num == m
  | n + 1, c =>
    match Ufl.iterRun E [] 100 c with
    | some (.run c') => !c'.u.q.s.t.isEmpty && Ufl.exRun E m n c'
    | _ => false

theorem Ufl.exRun_sound {E : Ufl.Env} {m n : Nat} {c : UC Unit} (h : Ufl.exRun E m n c = true) :
    ∃ f : Nat → UC Unit, f 0 = c ∧ (∀ i < n, Ufl.Iter E Qf.anyOrder (f i) (.run (f (i + 1)))) ∧
    (∀ i < n, (f (i + 1)).u.q.s.t.isEmpty = false) ∧ (f n).u.q.s.t.bools.num = m := by
  induction n generalizing c with
  | zero => exact ⟨fun _ => c, rfl, by simp, by simp, by simpa [Ufl.exRun] using h⟩
  | succ n ih =>
    unfold Ufl.exRun at h
    split at h
    · rename_i c' hc
      obtain ⟨h1, h2⟩ := Bool.and_eq_true_iff.mp h
      obtain ⟨f, e, f1, f2, f3⟩ := ih h2
      refine ⟨fun i => Nat.casesOn i c f, rfl, ?_, ?_, f3⟩
      · rintro (_ | i) hi
        · show Ufl.Iter _ _ c (.run (f 0))
          rw [e]; exact Ufl.iterRun_sound _ _ hc
        · exact f1 i (by omega)
      · rintro (_ | i) hi
        · show (f 0).u.q.s.t.isEmpty = false
          rw [e]; simpa using h1
        · exact f2 i (by omega)
    · cases h

open UflExample in
theorem Ufl.exProgress_run : ((Ufl.startRun (env (tA 0) [⟨23⟩]) actsSat).map fun r =>
    (r.1.u.q.s.t.bools.num, Ufl.exRun (env (tA 0) [⟨23⟩]) r.1.u.q.s.t.bools.num 3 r.1)) =
    some (1, true) := by decide +kernel

open UflExample UfExample in
/-- The hypotheses of `C81_uflra` hold for three iterations on the assertion `(< (f x) (f y))`. -/
example : TReach h0 (tA 0) ∧ Supported (cfg true) (tA 0) ∧ RealFns (tA 0) ∧ OneVar (tA 0) ∧
    Internalizer.check (cfg true) (tA 0) IState.init [⟨23⟩] = some (some (conv (tA 0) [⟨23⟩])) ∧
    ∃ c0 P, ∃ f : Nat → UC Unit, Ufl.Start (env (tA 0) [⟨23⟩]) P c0 ∧ f 0 = c0 ∧
    (∀ c, Ufl.PicksFree (env (tA 0) [⟨23⟩]) Qf.anyOrder c) ∧
    (∀ i < 3, Ufl.Iter (env (tA 0) [⟨23⟩]) Qf.anyOrder (f i) (.run (f (i + 1)))) ∧
    (∀ i < 3, (f (i + 1)).u.q.s.t.isEmpty = false) ∧ (f 3).u.q.s.t.bools.num = (f 0).u.q.s.t.bools.num := by
  refine ⟨tA_reach, tA_supported, tA_realFns, tA_oneVar, conv_sat, ?_⟩
  have h := Ufl.exProgress_run
  cases hs : Ufl.startRun (env (tA 0) [⟨23⟩]) actsSat with
  | none => rw [hs] at h; cases h
  | some r =>
    obtain ⟨c0, P⟩ := r
    rw [hs] at h
    simp only [Option.map_some, Option.some.injEq, Prod.mk.injEq] at h
    obtain ⟨f, e, f1, f2, f3⟩ := Ufl.exRun_sound h.2
    exact ⟨c0, P, f, Ufl.startRun_sound _ hs, e, fun c => (Ufl.anyOrder_ok c).1, f1, f2, by rw [f3, e]⟩

#print axioms C81_restart_lra
#print axioms C81_lra
#print axioms C81_endless_lra
#print axioms C81_no_restart_lra
#print axioms C81_uflra
#print axioms C81_endless_uflra
#print axioms C81_script_lra
#print axioms C81_script_uflra

end Yaga
