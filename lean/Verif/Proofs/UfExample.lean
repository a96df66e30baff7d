/-
Runs of the plugin for uninterpreted functions, used as examples.
-/
import Verif.Proofs.UfSat

set_option linter.unusedVariables false

namespace Yaga.UfExample

open TermTable Spec Internalizer

def h0 : TermHash := ⟨fun _ _ => 0, fun _ _ => 0, fun _ => 0⟩

/-- The table after some operations (last one first). -/
def build : List MgrOp → Option TermTable
  | [] => some (TermTable.init h0)
  | op :: ops => (build ops).bind fun s => (op.run h0 s).map (·.1)

theorem build_step {op : MgrOp} {ops : List MgrOp} {s r : TermTable} (h : build ops = some s)
    (hr : TReach h0 s) (ht : op.Typed s) (h' : build (op :: ops) = some r) : TReach h0 r := by
  rw [build, h] at h'
  simp only [Option.bind_some, Option.map_eq_some_iff] at h'
  obtain ⟨q, h1, rfl⟩ := h'
  exact .step hr ht h1

def cfg (d : Bool) : ICfg := ⟨fun n => n, fun _ => 0, d⟩

theorem kind_beyond (s : TermTable) {t : Tm} (h : s.terms.length ≤ t.index) : s.kind t = .reserved := by
  unfold TermTable.kind TermTable.entry
  rw [List.getElem?_eq_none h]; rfl

theorem args_beyond (s : TermTable) {t : Tm} (h : s.terms.length ≤ t.index) : s.args t = [] := by
  have he : s.entry t = none := List.getElem?_eq_none h
  unfold TermTable.args TermTable.allArgs TermTable.descr
  rw [he]; simp

theorem kind_mod (s : TermTable) (t : Tm) : s.kind t = s.kind (Tm.positive t.index) := (kind_pos s t).symm

theorem args_mod (s : TermTable) (t : Tm) : s.args t = s.args (Tm.positive t.index) := (args_pos s t).symm

theorem type_mod (s : TermTable) (t : Tm) : s.type t = s.type (Tm.positive t.index) := (type_pos s t).symm

instance (σ : Nat → ℚ) (ts : List (Nat × ℚ)) (p : Pred) (q : ℚ) : Decidable (LinTrue σ ts p q) := by
  unfold LinTrue Rel; cases p <;> infer_instance

instance (m : Assignment) (l : Lit) : Decidable (litTrue m l) := by unfold litTrue; infer_instance

instance (m : Assignment) (c : Clause) : Decidable (clauseTrue m c) := by unfold clauseTrue; infer_instance

instance (m : Assignment) (cs : List Clause) : Decidable (allTrue m cs) := by unfold allTrue; infer_instance

theorem models_check {st : IState} {m : Assignment} {r : Nat → ℚ} (h1 : allTrue m st.clauses)
    (h2 : ∀ k, k < st.store.cons.length → st.store.terms (st.store.get k) ≠ [] →
      (m k = true ↔ LinTrue r (st.store.terms (st.store.get k)) (st.store.get k).pred (st.store.get k).rhs)) :
    Models st m r := by
  refine ⟨h1, fun k hk => ?_⟩
  by_cases hl : k < st.store.cons.length
  · exact h2 k hl hk
  · refine absurd ?_ hk
    unfold LinStore.get
    rw [List.getElem?_eq_none (by omega)]
    exact LinStore.terms_empty _

/-! Functions on numbers. `f` (6) is a function, `x` (8) and `y` (10) are real constants; 12 is `(f x)`, 14 is
`(f y)` and 23 is `(< (f x) (f y))`. -/

def ops : List MgrOp :=
  [.lt ⟨12⟩ ⟨14⟩, .app ⟨6⟩ [⟨10⟩], .app ⟨6⟩ [⟨8⟩], .fresh .real, .fresh .real, .fresh .real]

def tb (n : Nat) : TermTable := (build (ops.drop n)).getD ⟨[], []⟩

theorem tb_reach : TReach h0 (tb 0) := by
  have h : ∀ n, n ≤ 6 → build (ops.drop n) = some (tb n) := by decide +kernel
  have r6 : TReach h0 (tb 6) := .init
  have r5 : TReach h0 (tb 5) := build_step (op := .fresh .real) (ops := ops.drop 6) (h 6 (by omega)) r6
    (by unfold MgrOp.Typed; decide) (h 5 (by omega))
  have r4 : TReach h0 (tb 4) := build_step (op := .fresh .real) (ops := ops.drop 5) (h 5 (by omega)) r5
    (by unfold MgrOp.Typed; decide) (h 4 (by omega))
  have r3 : TReach h0 (tb 3) := build_step (op := .fresh .real) (ops := ops.drop 4) (h 4 (by omega)) r4
    (by unfold MgrOp.Typed; decide) (h 3 (by omega))
  have r2 : TReach h0 (tb 2) := build_step (op := .app ⟨6⟩ [⟨8⟩]) (ops := ops.drop 3) (h 3 (by omega)) r3
    (by unfold MgrOp.Typed; decide +kernel) (h 2 (by omega))
  have r1 : TReach h0 (tb 1) := build_step (op := .app ⟨6⟩ [⟨10⟩]) (ops := ops.drop 2) (h 2 (by omega)) r2
    (by unfold MgrOp.Typed; decide +kernel) (h 1 (by omega))
  exact build_step (op := .lt ⟨12⟩ ⟨14⟩) (ops := ops.drop 1) (h 1 (by omega)) r1
    (by unfold MgrOp.Typed; decide +kernel) (h 0 (by omega))

theorem tb_supported (d : Bool) : Supported (cfg d) (tb 0) := by
  have h1 : ∀ i, i < (tb 0).terms.length → ∀ a ∈ (tb 0).args (Tm.positive i), (tb 0).kind a = .app → a.isNeg = false := by
    decide +kernel
  have h2 : ∀ i, i < (tb 0).terms.length → Tm.ff ∉ (tb 0).args (Tm.positive i) := by decide +kernel
  have h3 : ∀ i, i < (tb 0).terms.length → (tb 0).kind (Tm.positive i) ≠ .arithBinEq := by decide +kernel
  refine ⟨fun t a ha => ?_, fun t => ?_, fun _ t ht => ?_⟩ <;> by_cases hi : (tb 0).terms.length ≤ t.index
  · rw [args_beyond _ hi] at ha; cases ha
  · exact h1 t.index (by omega) a (by rwa [args_mod] at ha)
  · rw [args_beyond _ hi]; simp
  · rw [args_mod]; exact h2 t.index (by omega)
  · rw [kind_beyond _ hi] at ht; cases ht
  · exact absurd (by rwa [kind_mod] at ht) (h3 t.index (by omega))

theorem tb_realFns : RealFns (tb 0) := by
  have h1 : ∀ i, i < (tb 0).terms.length → (tb 0).kind (Tm.positive i) = .app → (tb 0).type (Tm.positive i) = .real ∧
      ∀ a ∈ (tb 0).args (Tm.positive i), (tb 0).type a = .real := by decide +kernel
  intro t ht
  by_cases hi : (tb 0).terms.length ≤ t.index
  · rw [kind_beyond _ hi] at ht; cases ht
  · rw [type_mod, args_mod]; exact h1 t.index (by omega) (by rwa [kind_mod] at ht)

/-- The result of the conversion of the assertion `(< (f x) (f y))`. The rational variables are `x` (0),
`(f x)` (1), `y` (2) and `(f y)` (3). -/
def st : IState := ((check (cfg true) (tb 0) IState.init [⟨23⟩]).getD none).getD IState.init

theorem getD_check {cfg : ICfg} {s : TermTable} {as : List Tm}
    (h : ((check cfg s IState.init as).getD none).isSome = true) :
    check cfg s IState.init as = some (some (((check cfg s IState.init as).getD none).getD IState.init)) := by
  cases hc : check cfg s IState.init as with
  | none => rw [hc] at h; cases h
  | some o => cases o with
    | none => rw [hc] at h; cases h
    | some st => rfl

theorem st_check : check (cfg true) (tb 0) IState.init [⟨23⟩] = some (some st) := getD_check (by decide +kernel)

/-- A decision. -/
def dec (u : UF Nat) (v : Var) (x : Val) : UF Nat := { u with trail := u.trail.step (.decide v x) }

/-- A Boolean propagation. -/
def asg (u : UF Nat) (k : Nat) (lvl : Nat) (b : Bool) : UF Nat :=
  { u with trail := u.trail.step (.propagate (Var.bool k) none lvl (.b b)) }

/-- A call of `propagate`. -/
def prop (s : TermTable) (u : UF Nat) : UF Nat := ((UF.propagate (cfg true) s u).getD (u, [])).1

theorem prop_reach {s : TermTable} {st : IState} {u : UF Nat} {d : Bool} (h : UF.Reach (cfg true) s st u d)
    (hp : (UF.propagate (cfg true) s u).map (·.2) = some []) : UF.Reach (cfg true) s st (prop s u) true := by
  cases hc : UF.propagate (cfg true) s u with
  | none => rw [hc] at hp; cases hp
  | some r =>
    rw [hc] at hp
    simp only [Option.map_some, Option.some.injEq] at hp
    have := UF.Reach.propagate h (u' := r.1) (cs := r.2) hc
    rw [hp] at this
    unfold prop
    rw [hc]
    exact this

instance (tr : Trail Nat) (v : Var) (x : Val) : Decidable (tr.Pre (.decide v x)) := by
  unfold Trail.Pre; infer_instance

instance (tr : Trail Nat) (v : Var) (r : Option Nat) (l : Nat) (x : Val) : Decidable (tr.Pre (.propagate v r l x)) := by
  unfold Trail.Pre; infer_instance

/-- One round: a decision and `propagate` without a conflict. -/
def round (s : TermTable) (u : UF Nat) (v : Var) (x : Val) : UF Nat := prop s (dec u v x)

theorem round_reach {s : TermTable} {st : IState} {u : UF Nat} {v : Var} {x : Val} (h : UF.Reach (cfg true) s st u true)
    (hp : u.trail.Pre (.decide v x)) (hc : (UF.propagate (cfg true) s (dec u v x)).map (·.2) = some []) :
    UF.Reach (cfg true) s st (round s u v x) true := prop_reach (.decide h hp) hc

/-- `x`, `(f x)` and `y` have the value 0. -/
def u3 : UF Nat :=
  round (tb 0) (round (tb 0) (round (tb 0) (UF.start Nat (tb 0) st) (Var.rat 0) (.q 0)) (Var.rat 1) (.q 0))
    (Var.rat 2) (.q 0)

theorem u3_reach : UF.Reach (cfg true) (tb 0) st u3 true := by
  refine round_reach (round_reach (round_reach .start ?_ ?_) ?_ ?_) ?_ ?_ <;> decide +kernel

/-- `(f y)` has the value 1. -/
def u4 : UF Nat := dec u3 (Var.rat 3) (.q 1)

theorem u4_reach : UF.Reach (cfg true) (tb 0) st u4 false := .decide u3_reach (by decide +kernel)

/-- The conflict clause: `x` is not `y`, or `(f x)` is `(f y)`. -/
theorem u4_conflict : (UF.propagate (cfg true) (tb 0) u4).map (·.2) = some [[(Lit.pos 1).neg, Lit.pos 2]] := by
  decide +kernel

/-- `x` and `(f x)` are 0, `y` and `(f y)` are 1; the constraint `(f x) < (f y)` is true. -/
def w4 : UF Nat :=
  asg (round (tb 0) (round (tb 0) (round (tb 0) (round (tb 0) (UF.start Nat (tb 0) st) (Var.rat 0) (.q 0)) (Var.rat 1) (.q 0))
    (Var.rat 2) (.q 1)) (Var.rat 3) (.q 1)) 0 0 true

theorem w4_reach : UF.Reach (cfg true) (tb 0) st w4 true := by
  refine .assign (round_reach (round_reach (round_reach (round_reach .start ?_ ?_) ?_ ?_) ?_ ?_) ?_ ?_) ?_ <;> decide +kernel

/-! Functions of truth values. `f` (6) is a function of one truth value, `x` (8) a real constant, `b` (10) a
Boolean constant; 12 is `(>= x 0)`, 14 is `(f b)`, 16 is `(f (>= x 0))` and 25 is `(< (f b) (f (>= x 0)))`. -/

def opsB : List MgrOp :=
  [.lt ⟨14⟩ ⟨16⟩, .app ⟨6⟩ [⟨12⟩], .app ⟨6⟩ [⟨10⟩], .geq ⟨8⟩ Tm.zero, .fresh .bool, .fresh .real, .fresh .real]

def tbB (n : Nat) : TermTable := (build (opsB.drop n)).getD ⟨[], []⟩

theorem tbB_reach : TReach h0 (tbB 0) := by
  have h : ∀ n, n ≤ 7 → build (opsB.drop n) = some (tbB n) := by decide +kernel
  have r7 : TReach h0 (tbB 7) := .init
  have r6 : TReach h0 (tbB 6) := build_step (op := .fresh .real) (ops := opsB.drop 7) (h 7 (by omega)) r7
    (by unfold MgrOp.Typed; decide) (h 6 (by omega))
  have r5 : TReach h0 (tbB 5) := build_step (op := .fresh .real) (ops := opsB.drop 6) (h 6 (by omega)) r6
    (by unfold MgrOp.Typed; decide) (h 5 (by omega))
  have r4 : TReach h0 (tbB 4) := build_step (op := .fresh .bool) (ops := opsB.drop 5) (h 5 (by omega)) r5
    (by unfold MgrOp.Typed; decide) (h 4 (by omega))
  have r3 : TReach h0 (tbB 3) := build_step (op := .geq ⟨8⟩ Tm.zero) (ops := opsB.drop 4) (h 4 (by omega)) r4
    (by unfold MgrOp.Typed; decide +kernel) (h 3 (by omega))
  have r2 : TReach h0 (tbB 2) := build_step (op := .app ⟨6⟩ [⟨10⟩]) (ops := opsB.drop 3) (h 3 (by omega)) r3
    (by unfold MgrOp.Typed; decide +kernel) (h 2 (by omega))
  have r1 : TReach h0 (tbB 1) := build_step (op := .app ⟨6⟩ [⟨12⟩]) (ops := opsB.drop 2) (h 2 (by omega)) r2
    (by unfold MgrOp.Typed; decide +kernel) (h 1 (by omega))
  exact build_step (op := .lt ⟨14⟩ ⟨16⟩) (ops := opsB.drop 1) (h 1 (by omega)) r1
    (by unfold MgrOp.Typed; decide +kernel) (h 0 (by omega))

/-- The result of the conversion of the assertions `(< (f b) (f (>= x 0)))`, `b` and `(>= x 0)`. The rational
variables are `(f b)` (0), `x` (1) and `(f (>= x 0))` (2), the Boolean ones are `b` (0), the constraint
`x < 0` (1), and the negation of the first assertion (2). -/
def stB : IState := ((check (cfg true) (tbB 0) IState.init [⟨25⟩, ⟨10⟩, ⟨12⟩]).getD none).getD IState.init

theorem stB_check : check (cfg true) (tbB 0) IState.init [⟨25⟩, ⟨10⟩, ⟨12⟩] = some (some stB) :=
  getD_check (by decide +kernel)

/-- `x` is 1, the constraint `x < 0` is false, `(f (>= x 0))` is 1. -/
def b2 : UF Nat :=
  round (tbB 0) (prop (tbB 0) (asg (dec (UF.start Nat (tbB 0) stB) (Var.rat 1) (.q 1)) 1 1 false)) (Var.rat 2) (.q 1)

theorem b2_reach : UF.Reach (cfg true) (tbB 0) stB b2 true := by
  refine round_reach (prop_reach (.assign (.decide .start ?_) ?_) ?_) ?_ ?_ <;> decide +kernel

/-- Then `b` is true, `(f b)` is 0 and the constraint `(f b) < (f (>= x 0))` is true. -/
def b4 : UF Nat := asg (round (tbB 0) (round (tbB 0) b2 (Var.bool 0) (.b true)) (Var.rat 0) (.q 0)) 2 0 true

theorem b4_reach : UF.Reach (cfg true) (tbB 0) stB b4 true := by
  refine .assign (round_reach (round_reach b2_reach ?_ ?_) ?_ ?_) ?_ <;> decide +kernel

/-- Or `b` is false and `(f b)` is 0. -/
def c4 : UF Nat := dec (round (tbB 0) b2 (Var.bool 0) (.b false)) (Var.rat 0) (.q 0)

theorem c4_reach : UF.Reach (cfg true) (tbB 0) stB c4 false := by
  refine .decide (round_reach b2_reach ?_ ?_) ?_ <;> decide +kernel

/-- The conflict clause: `(f b)` is `(f (>= x 0))`. -/
theorem c4_conflict : (UF.propagate (cfg true) (tbB 0) c4).map (·.2) = some [[Lit.pos 3]] := by decide +kernel

theorem tbB_terms : (tbB 0).terms = [⟨.reserved, .null, .none⟩, ⟨.constant, .bool, .const 0⟩, ⟨.arithConst, .real, .rat 0⟩,
    ⟨.uninterpreted, .real, .none⟩, ⟨.uninterpreted, .real, .none⟩, ⟨.uninterpreted, .bool, .none⟩,
    ⟨.arithGe, .bool, .comp [⟨8⟩]⟩, ⟨.app, .real, .comp [⟨6⟩, ⟨10⟩]⟩, ⟨.app, .real, .comp [⟨6⟩, ⟨12⟩]⟩,
    ⟨.arithConst, .real, .rat (-1)⟩, ⟨.product, .real, .comp [⟨18⟩, ⟨16⟩]⟩, ⟨.poly, .real, .comp [⟨14⟩, ⟨20⟩]⟩,
    ⟨.arithGe, .bool, .comp [⟨22⟩]⟩] := by decide +kernel

/-- `b` is false, `x` is 1, the function returns 1 for true and 0 for false. -/
def iB : Interp where
  constB _ := false
  constQ _ := 1
  fnB _ _ := false
  fnQ _ as := match as with | [.b true] => 1 | _ => 0

/-- The state after the conflict. -/
def c5 : UF Nat := prop (tbB 0) c4

theorem c5_prop : UF.propagate (cfg true) (tbB 0) c4 = some (c5, [[Lit.pos 3]]) := by
  have h := c4_conflict
  unfold c5 prop
  cases hc : UF.propagate (cfg true) (tbB 0) c4 with
  | none => rw [hc] at h; cases h
  | some r =>
    rw [hc] at h
    simp only [Option.map_some, Option.some.injEq] at h
    rw [← h]; rfl

/-- The values of the terms of the table. -/
theorem tbB_ge (I : Interp) : denB I (tbB 0) ⟨12⟩ = decide (0 ≤ I.constQ 4) := by
  unfold denB den; rw [tbB_terms]; rfl

theorem tbB_b (I : Interp) : denB I (tbB 0) ⟨10⟩ = I.constB 5 := by
  unfold denB den; rw [tbB_terms]; rfl

theorem tbB_x (I : Interp) : denQ I (tbB 0) ⟨8⟩ = I.constQ 4 := by
  unfold denQ den; rw [tbB_terms]; rfl

theorem tbB_fb (I : Interp) : denQ I (tbB 0) ⟨14⟩ = I.fnQ 3 [.b (I.constB 5)] := by
  unfold denQ den; rw [tbB_terms]; rfl

theorem tbB_fx (I : Interp) : denQ I (tbB 0) ⟨16⟩ = I.fnQ 3 [.b (decide (0 ≤ I.constQ 4))] := by
  unfold denQ den; rw [tbB_terms]; rfl

theorem tbB_lt (I : Interp) : denB I (tbB 0) ⟨25⟩ =
    !decide (0 ≤ I.fnQ 3 [.b (I.constB 5)] + (-1 * I.fnQ 3 [.b (decide (0 ≤ I.constQ 4))] + 0)) := by
  unfold denB den; rw [tbB_terms]; rfl

end Yaga.UfExample
