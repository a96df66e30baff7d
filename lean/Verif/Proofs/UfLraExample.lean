/-
Runs of the solver for QF_UFLRA, used as examples.
-/
import Verif.Proofs.UfLraRun
import Verif.Proofs.UfExample
import Verif.Spec.OneVar

set_option linter.unusedVariables false

namespace Yaga.UflExample

open TermTable Spec Internalizer UfExample

theorem supported_check {d : Bool} {s : TermTable}
    (h1 : ∀ i, i < s.terms.length → ∀ a ∈ s.args (Tm.positive i), s.kind a = .app → a.isNeg = false)
    (h2 : ∀ i, i < s.terms.length → Tm.ff ∉ s.args (Tm.positive i))
    (h3 : ∀ i, i < s.terms.length → s.kind (Tm.positive i) ≠ .arithBinEq) : Supported (cfg d) s := by
  refine ⟨fun t a ha => ?_, fun t => ?_, fun _ t ht => ?_⟩ <;> by_cases hi : s.terms.length ≤ t.index
  · rw [args_beyond _ hi] at ha; cases ha
  · exact h1 t.index (by omega) a (by rwa [args_mod] at ha)
  · rw [args_beyond _ hi]; simp
  · rw [args_mod]; exact h2 t.index (by omega)
  · rw [kind_beyond _ hi] at ht; cases ht
  · exact absurd (by rwa [kind_mod] at ht) (h3 t.index (by omega))

theorem realFns_check {s : TermTable}
    (h1 : ∀ i, i < s.terms.length → s.kind (Tm.positive i) = .app → s.type (Tm.positive i) = .real ∧
      ∀ a ∈ s.args (Tm.positive i), s.type a = .real) : RealFns s := by
  intro t ht
  by_cases hi : s.terms.length ≤ t.index
  · rw [kind_beyond _ hi] at ht; cases ht
  · rw [type_mod, args_mod]; exact h1 t.index (by omega) (by rwa [kind_mod] at ht)

theorem oneVar_check {s : TermTable}
    (h1 : ∀ i, i < s.terms.length → s.kind (Tm.positive i) = .app →
      ∀ a ∈ s.args (Tm.positive i), (atoms s a).length ≤ 1) : OneVar s := by
  intro t ht
  by_cases hi : s.terms.length ≤ t.index
  · rw [kind_beyond _ hi] at ht; cases ht
  · rw [args_mod]; exact h1 t.index (by omega) (by rwa [kind_mod] at ht)

/-- The conversion of some assertions. -/
def conv (s : TermTable) (as : List Tm) : IState := ((check (cfg true) s IState.init as).getD none).getD IState.init

/-- The solver for some assertions. -/
def env (s : TermTable) (as : List Tm) : Ufl.Env := ⟨cfg true, s, conv s as, ⟨true, false, true⟩⟩

/-! `f` (6) is a function, `x` (8) and `y` (10) are real constants; 12 is `(f x)`, 14 is `(f y)`, 23 is
`(< (f x) (f y))`, 28 is `(>= x y)` and 34 is `(>= y x)`. -/

def opsA : List MgrOp :=
  [.geq ⟨10⟩ ⟨8⟩, .geq ⟨8⟩ ⟨10⟩, .lt ⟨12⟩ ⟨14⟩, .app ⟨6⟩ [⟨10⟩], .app ⟨6⟩ [⟨8⟩], .fresh .real, .fresh .real, .fresh .real]

def tA (n : Nat) : TermTable := (build (opsA.drop n)).getD ⟨[], []⟩

theorem tA_reach : TReach h0 (tA 0) := by
  have h : ∀ n, n ≤ 8 → build (opsA.drop n) = some (tA n) := by decide +kernel
  have r8 : TReach h0 (tA 8) := .init
  have r7 : TReach h0 (tA 7) := build_step (op := .fresh .real) (ops := opsA.drop 8) (h 8 (by omega)) r8
    (by unfold MgrOp.Typed; decide) (h 7 (by omega))
  have r6 : TReach h0 (tA 6) := build_step (op := .fresh .real) (ops := opsA.drop 7) (h 7 (by omega)) r7
    (by unfold MgrOp.Typed; decide) (h 6 (by omega))
  have r5 : TReach h0 (tA 5) := build_step (op := .fresh .real) (ops := opsA.drop 6) (h 6 (by omega)) r6
    (by unfold MgrOp.Typed; decide) (h 5 (by omega))
  have r4 : TReach h0 (tA 4) := build_step (op := .app ⟨6⟩ [⟨8⟩]) (ops := opsA.drop 5) (h 5 (by omega)) r5
    (by unfold MgrOp.Typed; decide +kernel) (h 4 (by omega))
  have r3 : TReach h0 (tA 3) := build_step (op := .app ⟨6⟩ [⟨10⟩]) (ops := opsA.drop 4) (h 4 (by omega)) r4
    (by unfold MgrOp.Typed; decide +kernel) (h 3 (by omega))
  have r2 : TReach h0 (tA 2) := build_step (op := .lt ⟨12⟩ ⟨14⟩) (ops := opsA.drop 3) (h 3 (by omega)) r3
    (by unfold MgrOp.Typed; decide +kernel) (h 2 (by omega))
  have r1 : TReach h0 (tA 1) := build_step (op := .geq ⟨8⟩ ⟨10⟩) (ops := opsA.drop 2) (h 2 (by omega)) r2
    (by unfold MgrOp.Typed; decide +kernel) (h 1 (by omega))
  exact build_step (op := .geq ⟨10⟩ ⟨8⟩) (ops := opsA.drop 1) (h 1 (by omega)) r1
    (by unfold MgrOp.Typed; decide +kernel) (h 0 (by omega))

theorem tA_supported : Supported (cfg true) (tA 0) :=
  supported_check (by decide +kernel) (by decide +kernel) (by decide +kernel)

theorem tA_realFns : RealFns (tA 0) := realFns_check (by decide +kernel)

theorem tA_oneVar : OneVar (tA 0) := oneVar_check (by decide +kernel)

theorem conv_unsat : check (cfg true) (tA 0) IState.init [⟨23⟩, ⟨28⟩, ⟨34⟩] = some (some (conv (tA 0) [⟨23⟩, ⟨28⟩, ⟨34⟩])) :=
  getD_check (by decide +kernel)

theorem conv_sat : check (cfg true) (tA 0) IState.init [⟨23⟩] = some (some (conv (tA 0) [⟨23⟩])) :=
  getD_check (by decide +kernel)

/-- What the conversion creates: the variables of `x`, `(f x)`, `y`, `(f y)` and the constraints. -/
def actsUnsat : List Qf.BAct :=
  [.vars .rational 4, .cons [(1, 1), (3, -1)] .lt 0, .cons [(0, 1), (2, -1)] .lt 0, .cons [(0, 1), (2, -1)] .leq 0]

def actsSat : List Qf.BAct := [.vars .rational 4, .cons [(1, 1), (3, -1)] .lt 0]

/-- The start and the run of the solver. -/
def whole (E : Ufl.Env) (acts : List Qf.BAct) : Option (UC Unit × List QAtom × Ufl.Out Unit) :=
  match Ufl.startRun E acts with
  | none => none
  | some (c0, P) => (Ufl.checkRun E [] 100 20 c0).map fun out => (c0, P, out)

theorem whole_sound {E : Ufl.Env} {acts : List Qf.BAct} {c0 : UC Unit} {P : List QAtom} {out : Ufl.Out Unit}
    (h : whole E acts = some (c0, P, out)) : Ufl.Start E P c0 ∧ Ufl.Returns E Qf.anyOrder c0 out := by
  unfold whole at h
  split at h
  · cases h
  · rename_i c1 P1 hs
    obtain ⟨out', hr, h2⟩ := Option.map_eq_some_iff.1 h
    cases h2
    exact ⟨Ufl.startRun_sound _ hs, Ufl.checkRun_sound _ _ _ hr _ .refl⟩

theorem whole_unsat : ((whole (env (tA 0) [⟨23⟩, ⟨28⟩, ⟨34⟩]) actsUnsat).map fun r => match r.2.2 with
    | .unsat => true
    | _ => false) = some true := by decide +kernel

/-- `x` is 0, `(f x)` is 0, `y` is 1 and `(f y)` is 1. -/
theorem whole_sat : ((whole (env (tA 0) [⟨23⟩]) actsSat).map fun r => match r.2.2 with
    | .sat x => (List.range 4).map x.q.s.t.rats.value
    | _ => []) = some [0, 0, 1, 1] := by decide +kernel

/-! Arguments with two variables. `f` (6) is a function, `x` (8), `y` (10) and `z` (12) are real constants; 14 is
`(+ x y)`, 16 is `(+ x z)`, 18 is `(f (+ x y))`, 20 is `(f (+ x z))`, 29 is `(< (f (+ x y)) (f (+ x z)))`, 30 is
`(>= z 0)` and 32 is `(or (not (>= z 0)) (< (f (+ x y)) (f (+ x z))))`. -/

def opsB : List MgrOp :=
  [.or [⟨31⟩, ⟨29⟩], .geq ⟨12⟩ Tm.zero, .lt ⟨18⟩ ⟨20⟩, .app ⟨6⟩ [⟨16⟩], .app ⟨6⟩ [⟨14⟩], .plus [⟨8⟩, ⟨12⟩],
    .plus [⟨8⟩, ⟨10⟩], .fresh .real, .fresh .real, .fresh .real, .fresh .real]

def tB (n : Nat) : TermTable := (build (opsB.drop n)).getD ⟨[], []⟩

theorem tB_reach : TReach h0 (tB 0) := by
  have h : ∀ n, n ≤ 11 → build (opsB.drop n) = some (tB n) := by decide +kernel
  have r11 : TReach h0 (tB 11) := .init
  have r10 : TReach h0 (tB 10) := build_step (op := .fresh .real) (ops := opsB.drop 11) (h 11 (by omega)) r11
    (by unfold MgrOp.Typed; decide) (h 10 (by omega))
  have r9 : TReach h0 (tB 9) := build_step (op := .fresh .real) (ops := opsB.drop 10) (h 10 (by omega)) r10
    (by unfold MgrOp.Typed; decide) (h 9 (by omega))
  have r8 : TReach h0 (tB 8) := build_step (op := .fresh .real) (ops := opsB.drop 9) (h 9 (by omega)) r9
    (by unfold MgrOp.Typed; decide) (h 8 (by omega))
  have r7 : TReach h0 (tB 7) := build_step (op := .fresh .real) (ops := opsB.drop 8) (h 8 (by omega)) r8
    (by unfold MgrOp.Typed; decide) (h 7 (by omega))
  have r6 : TReach h0 (tB 6) := build_step (op := .plus [⟨8⟩, ⟨10⟩]) (ops := opsB.drop 7) (h 7 (by omega)) r7
    (by unfold MgrOp.Typed; decide +kernel) (h 6 (by omega))
  have r5 : TReach h0 (tB 5) := build_step (op := .plus [⟨8⟩, ⟨12⟩]) (ops := opsB.drop 6) (h 6 (by omega)) r6
    (by unfold MgrOp.Typed; decide +kernel) (h 5 (by omega))
  have r4 : TReach h0 (tB 4) := build_step (op := .app ⟨6⟩ [⟨14⟩]) (ops := opsB.drop 5) (h 5 (by omega)) r5
    (by unfold MgrOp.Typed; decide +kernel) (h 4 (by omega))
  have r3 : TReach h0 (tB 3) := build_step (op := .app ⟨6⟩ [⟨16⟩]) (ops := opsB.drop 4) (h 4 (by omega)) r4
    (by unfold MgrOp.Typed; decide +kernel) (h 3 (by omega))
  have r2 : TReach h0 (tB 2) := build_step (op := .lt ⟨18⟩ ⟨20⟩) (ops := opsB.drop 3) (h 3 (by omega)) r3
    (by unfold MgrOp.Typed; decide +kernel) (h 2 (by omega))
  have r1 : TReach h0 (tB 1) := build_step (op := .geq ⟨12⟩ Tm.zero) (ops := opsB.drop 2) (h 2 (by omega)) r2
    (by unfold MgrOp.Typed; decide +kernel) (h 1 (by omega))
  exact build_step (op := .or [⟨31⟩, ⟨29⟩]) (ops := opsB.drop 1) (h 1 (by omega)) r1
    (by unfold MgrOp.Typed; decide +kernel) (h 0 (by omega))

theorem tB_supported : Supported (cfg true) (tB 0) :=
  supported_check (by decide +kernel) (by decide +kernel) (by decide +kernel)

theorem tB_realFns : RealFns (tB 0) := realFns_check (by decide +kernel)

theorem conv_level : check (cfg true) (tB 0) IState.init [⟨32⟩] = some (some (conv (tB 0) [⟨32⟩])) :=
  getD_check (by decide +kernel)

/-- The rational variables are `x` (0), `y` (1), `(f (+ x y))` (2), `z` (3) and `(f (+ x z))` (4). -/
def actsLevel : List Qf.BAct := [.vars .rational 5, .cons [(2, 1), (4, -1)] .lt 0, .cons [(3, 1)] .lt 0, .vars .boolean 3]

/-- The solver decides `y`, `z`, `x` and then the values of the function. -/
def order : List Var := [Var.rat 1, Var.rat 3, Var.rat 0, Var.rat 2, Var.rat 4]

/-- The start and some iterations of the solver. -/
def part (E : Ufl.Env) (acts : List Qf.BAct) (n : Nat) : Option (UC Unit × List QAtom × UC Unit) :=
  match Ufl.startRun E acts with
  | none => none
  | some (c0, P) => (Ufl.stepsRun E order 100 n c0).map fun c => (c0, P, c)

theorem part_sound {E : Ufl.Env} {acts : List Qf.BAct} {n : Nat} {c0 c : UC Unit} {P : List QAtom}
    (h : part E acts n = some (c0, P, c)) : Ufl.Start E P c0 ∧ Ufl.Reach E Qf.anyOrder c0 c := by
  unfold part at h
  split at h
  · cases h
  · rename_i c1 P1 hs
    obtain ⟨out', hr, h2⟩ := Option.map_eq_some_iff.1 h
    cases h2
    exact ⟨Ufl.startRun_sound _ hs, Ufl.stepsRun_sound _ _ _ hr _ .refl⟩

/-- After nine iterations `y` and `z` are 0, but the literal of the constraint `y = z` (3) is false. -/
def bad (c : UC Unit) : Bool :=
  c.u.q.la.ok == false && decide (c.u.q.s.t.bools.value 3 = false ∧ c.u.q.s.t.bools.defined 3 = true ∧
    c.u.q.la.store.terms (c.u.q.la.store.get 3) = [(3, -1), (1, 1)] ∧ (c.u.q.la.store.get 3).pred = .eq ∧
    (c.u.q.la.store.get 3).rhs = 0 ∧ c.u.q.s.t.rats.defined 1 = true ∧ c.u.q.s.t.rats.defined 3 = true ∧
    c.u.q.s.t.rats.value 1 = 0 ∧ c.u.q.s.t.rats.value 3 = 0 ∧ (c.u.q.la.store.get 3).lit.ord = 3 ∧
    (c.u.q.la.store.get 3).lit.isNeg = false)

theorem part_bad : ((part (env (tB 0) [⟨32⟩]) actsLevel 9).map fun r => bad r.2.2) = some true := by decide +kernel

end Yaga.UflExample
