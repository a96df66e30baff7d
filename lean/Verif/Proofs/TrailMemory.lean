/-
The trail with its vectors computes what the model without memory computes.
-/
import Verif.Model.TrailMemory
import Verif.Proofs.TrailProgress

namespace Yaga

theorem VType.toNat_inj {a b : VType} (h : a.toNat = b.toNat) : a = b := by
  cases a <;> cases b <;> simp_all [VType.toNat]

/-- The vector has length `n` and contains the values of `f`. -/
def Row {α : Type} (l : List α) (n : Nat) (f : Nat → α) : Prop := ∀ o, l[o]? = if o < n then some (f o) else none

namespace Row
variable {α : Type} {l : List α} {n : Nat} {f g : Nat → α}

theorem length (h : Row l n f) : l.length = n := by
  rcases Nat.lt_trichotomy l.length n with h1 | h1 | h1
  · have := h l.length
    rw [if_pos h1, List.getElem?_eq_none (Nat.le_refl _)] at this; cases this
  · exact h1
  · have := h n
    rw [if_neg (by omega), List.getElem?_eq_getElem h1] at this; cases this

theorem set (h : Row l n f) {o : Nat} (ho : o < n) {x : α} (h1 : g o = x) (h2 : ∀ k, k ≠ o → g k = f k) :
    Row (l.set o x) n g := by
  intro k
  by_cases e : k = o
  · subst e; rw [List.getElem?_set_self (by rw [h.length]; exact ho), if_pos ho, h1]
  · rw [List.getElem?_set_ne (fun e' => e e'.symm), h k, h2 k e]

theorem congr (h : Row l n f) (e : ∀ k, k < n → g k = f k) : Row l n g := by
  intro k
  rw [h k]
  split_ifs with hk
  · rw [e k hk]
  · rfl

theorem resize (h : Row l n f) (k : Nat) (z : α) :
    Row (resizeL l k z) k fun i => if i < n ∧ i < k then f i else z := by
  intro o
  have hl := h.length
  unfold resizeL
  show _ = if o < k then some (if o < n ∧ o < k then f o else z) else none
  by_cases h1 : o < k
  · rw [if_pos h1]
    by_cases h2 : o < n
    · rw [if_pos ⟨h2, h1⟩, List.getElem?_append_left (by rw [List.length_take]; omega), List.getElem?_take_of_lt h1, h o,
        if_pos h2]
    · rw [if_neg (fun e => h2 e.1), List.getElem?_append_right (by rw [List.length_take]; omega),
        List.getElem?_replicate, if_pos (by rw [List.length_take]; omega)]
  · rw [if_neg h1, List.getElem?_eq_none]
    simp; omega

theorem replicate (n : Nat) (z : α) : Row (List.replicate n z) n fun _ => z := by
  intro o; rw [List.getElem?_replicate]

theorem nil (f : Nat → α) : Row [] 0 f := by intro o; simp

theorem map_const (h : Row l n f) (z : α) : Row (l.map fun _ => z) n fun _ => z := by
  intro o
  rw [List.getElem?_map, h o]
  split_ifs <;> rfl

end Row

theorem Row.of_all {α : Type} {l : List α} {z : α} (h : ∀ x ∈ l, x = z) (k : Nat) :
    Row (resizeL l k z) k fun _ => z := by
  have : Row l l.length fun _ => z := by
    intro o
    split_ifs with ho
    · rw [List.getElem?_eq_getElem ho, h _ (List.getElem_mem _)]
    · exact List.getElem?_eq_none (by omega)
  exact (this.resize k z).congr fun i _ => by split_ifs <;> rfl

/-- The vectors of a vector; those of types without a model only have `z`. -/
structure Rows {α : Type} (P : VType → Bool) (num : VType → Nat) (p : List (List α)) (z : α) (f : Var → α) : Prop where
  row : ∀ ty, P ty = true → ∃ row, p[ty.toNat]? = some row ∧ Row row (num ty) fun o => f ⟨ty, o⟩
  pad : ∀ ty, P ty = false → ∀ row, p[ty.toNat]? = some row → ∀ x ∈ row, x = z

namespace Rows
variable {α : Type} {P : VType → Bool} {num : VType → Nat} {p : List (List α)} {z : α} {f g : Var → α}

theorem cell (h : Rows P num p z f) {v : Var} (hv : P v.type = true) (ho : v.ord < num v.type) :
    TMem.cell p v = some (f v) := by
  obtain ⟨row, h1, h2⟩ := h.row _ hv
  unfold TMem.cell
  rw [h1]
  show row[v.ord]? = _
  rw [h2 v.ord, if_pos ho]

theorem lt (h : Rows P num p z f) {ty : VType} (hv : P ty = true) : ty.toNat < p.length := by
  obtain ⟨row, h1, -⟩ := h.row _ hv
  by_contra hn
  rw [List.getElem?_eq_none (by omega)] at h1; cases h1

theorem set (h : Rows P num p z f) {v : Var} (hv : P v.type = true) (ho : v.ord < num v.type) {x : α} (h1 : g v = x)
    (h2 : ∀ w, w ≠ v → g w = f w) : ∃ p', TMem.setCell p v x = some p' ∧ p'.length = p.length ∧ Rows P num p' z g := by
  obtain ⟨row, k1, k2⟩ := h.row _ hv
  unfold TMem.setCell
  rw [k1]
  simp only
  rw [if_pos (by rw [k2.length]; simpa using ho)]
  refine ⟨_, rfl, by simp, ⟨fun ty hty => ?_, fun ty hty r hr => ?_⟩⟩
  · by_cases e : ty = v.type
    · subst e
      refine ⟨_, List.getElem?_set_self (h.lt hv), k2.set ho h1 fun k hk => h2 _ fun e => hk ?_⟩
      rw [← e]
    · obtain ⟨r, r1, r2⟩ := h.row ty hty
      refine ⟨r, ?_, r2.congr fun k _ => h2 _ fun e' => e ?_⟩
      · rw [List.getElem?_set_ne (fun e' => e (VType.toNat_inj e'.symm))]; exact r1
      · rw [← e']
  · have e : ty ≠ v.type := fun e => by rw [e, hv] at hty; cases hty
    rw [List.getElem?_set_ne (fun e' => e (VType.toNat_inj e'.symm))] at hr
    exact h.pad ty hty r hr

theorem congr (h : Rows P num p z f) (e : ∀ v, v.ord < num v.type → g v = f v) : Rows P num p z g :=
  ⟨fun ty hty => by
    obtain ⟨r, r1, r2⟩ := h.row ty hty
    exact ⟨r, r1, r2.congr fun k hk => e ⟨ty, k⟩ hk⟩, h.pad⟩

theorem resizeL_get {l : List α} {k : Nat} (hk : l.length ≤ k) (x : α) (i : Nat) (hi : i < k) :
    (resizeL l k x)[i]? = if i < l.length then l[i]? else some x := by
  unfold resizeL
  rw [List.take_of_length_le hk]
  split_ifs with h
  · rw [List.getElem?_append_left h]
  · rw [List.getElem?_append_right (by omega), List.getElem?_replicate, if_pos (by omega)]

theorem length_resizeL {l : List α} {k : Nat} (x : α) : (resizeL l k x).length = k := by
  unfold resizeL; simp; omega

theorem resize (h : Rows P num p z f) (ty : VType) (n k : Nat) (hk : p.length ≤ k) (ht : ty.toNat < k)
    (h0 : P ty = false → num ty = 0)
    (hg : ∀ v, g v = if v.type ≠ ty ∨ (v.ord < num ty ∧ v.ord < n) then f v else z) :
    ∃ row, (resizeL p k (List.replicate n z))[ty.toNat]? = some row ∧
      Rows (Function.update P ty true) (Function.update num ty n)
        ((resizeL p k (List.replicate n z)).set ty.toNat (resizeL row n z)) z g := by
  have hlen : (resizeL p k (List.replicate n z)).length = k := length_resizeL _
  obtain ⟨row, hrow, hR⟩ : ∃ row, (resizeL p k (List.replicate n z))[ty.toNat]? = some row ∧
      Row (resizeL row n z) n fun o => g ⟨ty, o⟩ := by
    rw [resizeL_get hk _ _ ht]
    by_cases hP : P ty = true
    · rw [if_pos (h.lt hP)]
      obtain ⟨r, r1, r2⟩ := h.row ty hP
      exact ⟨r, r1, (r2.resize n z).congr fun o _ => by rw [hg]; simp⟩
    · have hP' : P ty = false := by simpa using hP
      have hz : ∀ o, g ⟨ty, o⟩ = z := fun o => by
        rw [hg, if_neg]
        rintro (e | ⟨e, -⟩)
        · exact e rfl
        · rw [h0 hP'] at e; omega
      split_ifs with hl
      · exact ⟨_, List.getElem?_eq_getElem hl,
          (Row.of_all (h.pad ty hP' _ (List.getElem?_eq_getElem hl)) n).congr fun o _ => hz o⟩
      · exact ⟨_, rfl, (Row.of_all (fun x hx => (List.mem_replicate.1 hx).2) n).congr fun o _ => hz o⟩
  refine ⟨row, hrow, ⟨fun ty' hty => ?_, fun ty' hty r hr => ?_⟩⟩
  · by_cases e : ty' = ty
    · subst e
      rw [Function.update_self]
      exact ⟨_, List.getElem?_set_self (by rw [hlen]; exact ht), hR⟩
    · rw [Function.update_of_ne e] at hty ⊢
      obtain ⟨r, r1, r2⟩ := h.row ty' hty
      refine ⟨r, ?_, r2.congr fun o _ => by rw [hg, if_pos (Or.inl e)]⟩
      have hl := h.lt hty
      rw [List.getElem?_set_ne (fun e' => e (VType.toNat_inj e'.symm)), resizeL_get hk _ _ (by omega), if_pos hl, r1]
  · have e : ty' ≠ ty := fun e => by rw [e, Function.update_self] at hty; cases hty
    rw [Function.update_of_ne e] at hty
    rw [List.getElem?_set_ne (fun e' => e (VType.toNat_inj e'.symm))] at hr
    have hlt : ty'.toNat < k := by
      by_contra hn
      rw [List.getElem?_eq_none (by rw [hlen]; omega)] at hr; cases hr
    rw [resizeL_get hk _ _ hlt] at hr
    split_ifs at hr with hl
    · exact h.pad ty' hty r hr
    · obtain rfl := Option.some.inj hr
      exact fun x hx => (List.mem_replicate.1 hx).2

theorem clear (h : Rows P num p z f) (hg : ∀ v, g v = z) :
    Rows P num (p.map fun row => row.map fun _ => z) z g := by
  refine ⟨fun ty hty => ?_, fun ty hty r hr x hx => ?_⟩
  · obtain ⟨r, r1, r2⟩ := h.row ty hty
    exact ⟨_, by rw [List.getElem?_map, r1]; rfl, (r2.map_const z).congr fun o _ => hg _⟩
  · rw [List.getElem?_map] at hr
    obtain ⟨r', -, rfl⟩ := Option.map_eq_some_iff.1 hr
    simp only [List.mem_map] at hx
    obtain ⟨-, -, rfl⟩ := hx
    rfl

end Rows

variable {R : Type}

/-- The time stamp of a variable and the counter of its type. -/
def Trail.tsOf (t : Trail R) (v : Var) : Int :=
  match v.type with
  | .boolean => t.bools.ts v.ord
  | .rational => t.rats.ts v.ord
def Trail.gts (t : Trail R) : VType → Nat
  | .boolean => t.bools.globalTs
  | .rational => t.rats.globalTs

/-- A model stores the values of one type. -/
structure ModelSim (M : MMem) (t : Trail R) (ty : VType) : Prop where
  values : Row M.values (t.numVars ty) fun o => t.valueOf ⟨ty, o⟩
  defined : Row M.defined (t.numVars ty) fun o => t.isDefined ⟨ty, o⟩
  ts : Row M.ts (t.numVars ty) fun o => t.tsOf ⟨ty, o⟩
  gts : M.globalTs = t.gts ty

/-- `t'` has the same variables and values of type `ty` as `t`. -/
structure SameType (t t' : Trail R) (ty : VType) : Prop where
  num : t'.numVars ty = t.numVars ty
  value : ∀ o, t'.valueOf ⟨ty, o⟩ = t.valueOf ⟨ty, o⟩
  defined : ∀ o, t'.isDefined ⟨ty, o⟩ = t.isDefined ⟨ty, o⟩
  ts : ∀ o, t'.tsOf ⟨ty, o⟩ = t.tsOf ⟨ty, o⟩
  gts : t'.gts ty = t.gts ty

theorem ModelSim.congr {M : MMem} {t t' : Trail R} {ty : VType} (h : ModelSim M t ty) (e : SameType t t' ty) :
    ModelSim M t' ty := by
  refine ⟨?_, ?_, ?_, h.gts.trans e.gts.symm⟩ <;> rw [e.num]
  · exact h.values.congr fun k _ => e.value k
  · exact h.defined.congr fun k _ => e.defined k
  · exact h.ts.congr fun k _ => e.ts k

/-- All models. -/
structure ModelsSim (P : VType → Bool) (ms : List (Option MMem)) (t : Trail R) : Prop where
  model : ∀ ty, P ty = true → ∃ M, ms[ty.toNat]? = some (some M) ∧ ModelSim M t ty
  absent : ∀ ty, P ty = false → (ms[ty.toNat]?).join = none

namespace ModelsSim
variable {P : VType → Bool} {ms : List (Option MMem)} {t t' : Trail R}

theorem lt (h : ModelsSim P ms t) {ty : VType} (hv : P ty = true) : ty.toNat < ms.length := by
  obtain ⟨M, h1, -⟩ := h.model _ hv
  by_contra hn
  rw [List.getElem?_eq_none (by omega)] at h1; cases h1

theorem congr (h : ModelsSim P ms t) (e : ∀ ty, SameType t t' ty) : ModelsSim P ms t' :=
  ⟨fun ty hty => by
    obtain ⟨M, h1, h2⟩ := h.model ty hty
    exact ⟨M, h1, h2.congr (e ty)⟩, h.absent⟩

theorem set (h : ModelsSim P ms t) {ty : VType} (hlt : ty.toNat < ms.length) {M : MMem} (hM : ModelSim M t' ty)
    (e : ∀ ty', ty' ≠ ty → SameType t t' ty') :
    ModelsSim (Function.update P ty true) (ms.set ty.toNat (some M)) t' := by
  refine ⟨fun ty' hty => ?_, fun ty' hty => ?_⟩
  · by_cases e' : ty' = ty
    · subst e'; exact ⟨M, List.getElem?_set_self hlt, hM⟩
    · rw [Function.update_of_ne e'] at hty
      obtain ⟨N, h1, h2⟩ := h.model ty' hty
      refine ⟨N, ?_, h2.congr (e ty' e')⟩
      rw [List.getElem?_set_ne (fun x => e' (VType.toNat_inj x.symm)), h1]
  · have e' : ty' ≠ ty := fun x => by rw [x, Function.update_self] at hty; cases hty
    rw [Function.update_of_ne e'] at hty
    rw [List.getElem?_set_ne (fun x => e' (VType.toNat_inj x.symm))]
    exact h.absent ty' hty

theorem set' (h : ModelsSim P ms t) {ty : VType} (hv : P ty = true) {M : MMem} (hM : ModelSim M t' ty)
    (e : ∀ ty', ty' ≠ ty → SameType t t' ty') : ModelsSim P (ms.set ty.toNat (some M)) t' := by
  have := h.set (h.lt hv) hM e
  rwa [show Function.update P ty true = P by rw [← hv, Function.update_eq_self]] at this

end ModelsSim

/-- How a level is stored. -/
def encLevel : Option Nat → Int
  | none => -1
  | some n => n

namespace TMem

/-- The vectors store the trail; `P` are the types that have a model. -/
structure Sim (P : VType → Bool) (m : TMem R) (t : Trail R) : Prop where
  trail : m.trail = t.levels
  same : m.varLevel.length = m.varReason.length
  level : Rows P t.numVars m.varLevel (-1) fun v => encLevel (t.level v)
  reason : Rows P t.numVars m.varReason none t.reason
  models : ModelsSim P m.models t
  none : ∀ ty, P ty = false → t.numVars ty = 0 ∧ t.gts ty = 0

variable {P : VType → Bool} {m : TMem R} {t : Trail R}

theorem Sim.has (h : Sim P m t) {v : Var} (ho : v.ord < t.numVars v.type) : P v.type = true := by
  by_contra hn
  rw [(h.none _ (by simpa using hn)).1] at ho; omega

theorem Sim.hasType (h : Sim P m t) {ty : VType} (hP : P ty = true) : m.hasType ty = true := by
  unfold TMem.hasType
  have h1 := h.level.lt hP
  have h2 := h.reason.lt hP
  have h3 := h.models.lt hP
  simp [h1, h2, h3]

theorem decide_sim (h : Sim P m t) {v : Var} (ho : v.ord < t.numVars v.type) :
    ∃ m', m.decide v = some m' ∧ Sim P m' (t.decide v) := by
  have hv := h.has ho
  unfold TMem.decide
  rw [if_pos (h.hasType hv)]
  obtain ⟨vl, e1, e2, e3⟩ := h.level.set (g := fun w => encLevel ((t.decide v).level w)) hv ho
    (x := (((m.trail ++ [[(⟨v, Option.none⟩ : Asg R)]]).length : Nat) : Int) - 1)
    (by simp [Trail.decide, encLevel, h.trail]) (fun w hw => by simp [Trail.decide, Function.update_of_ne hw])
  obtain ⟨vr, f1, f2, f3⟩ := h.reason.set (g := (t.decide v).reason) hv ho (x := Option.none)
    (by simp [Trail.decide]) (fun w hw => by simp [Trail.decide, Function.update_of_ne hw])
  simp only
  rw [e1]
  simp only [Option.bind_some]
  rw [f1]
  refine ⟨_, rfl, ⟨by simp [Trail.decide, h.trail], by simp only; rw [e2, f2, h.same], e3, f3, h.models.congr fun ty => ?_,
    h.none⟩⟩
  exact ⟨rfl, fun _ => rfl, fun _ => rfl, fun _ => rfl, rfl⟩

theorem propagate_sim (h : Sim P m t) {v : Var} (ho : v.ord < t.numVars v.type) (r : Option R) {lvl : Nat}
    (hn : t.levels ≠ []) (hl : lvl ≤ t.decisionLevel) :
    ∃ m', m.propagate v r lvl = some m' ∧ Sim P m' (t.propagate v r lvl) := by
  have hv := h.has ho
  have hlen := List.length_pos_iff.2 hn
  unfold TMem.propagate
  have hc : 0 ≤ (lvl : Int) ∧ (lvl : Int) ≤ (m.trail.length : Int) - 1 := by
    unfold Trail.decisionLevel at hl
    rw [h.trail]; omega
  rw [if_pos hc, if_pos (h.hasType hv)]
  obtain ⟨vl, e1, e2, e3⟩ := h.level.set (g := fun w => encLevel ((t.propagate v r lvl).level w)) hv ho
    (x := (lvl : Int)) (by simp [Trail.propagate, encLevel])
    (fun w hw => by simp [Trail.propagate, Function.update_of_ne hw])
  obtain ⟨vr, f1, f2, f3⟩ := h.reason.set (g := (t.propagate v r lvl).reason) hv ho (x := r)
    (by simp [Trail.propagate]) (fun w hw => by simp [Trail.propagate, Function.update_of_ne hw])
  rw [e1]
  simp only [Option.bind_some]
  rw [f1]
  refine ⟨_, rfl, ⟨by simp [Trail.propagate, h.trail], by simp only; rw [e2, f2, h.same], e3, f3,
    h.models.congr fun ty => ?_, h.none⟩⟩
  exact ⟨rfl, fun _ => rfl, fun _ => rfl, fun _ => rfl, rfl⟩

theorem model_eq (h : Sim P m t) {ty : VType} (hP : P ty = true) :
    ∃ M, m.model ty = some M ∧ ModelSim M t ty := by
  obtain ⟨M, h1, h2⟩ := h.models.model ty hP
  exact ⟨M, by unfold TMem.model; rw [h1]; rfl, h2⟩

theorem setValue_sim (h : Sim P m t) {v : Var} (ho : v.ord < t.numVars v.type) {x : Val}
    (hx : x.hasType v.type = true) : ∃ m', m.setValue v x = some m' ∧ Sim P m' (t.setValue v x) := by
  have hv := h.has ho
  obtain ⟨M, e1, hM⟩ := model_eq h hv
  unfold TMem.setValue
  rw [e1]
  simp only
  rw [if_pos (by rw [hM.values.length, hM.defined.length, hM.ts.length, hx]; simp [ho])]
  obtain ⟨ty, o⟩ := v
  have hnum : (t.setValue ⟨ty, o⟩ x).numVars = t.numVars := by
    cases ty <;> cases x <;> first | rfl | (funext ty'; cases ty' <;> rfl)
  have hlv : (t.setValue ⟨ty, o⟩ x).level = t.level := by cases ty <;> cases x <;> rfl
  have hre : (t.setValue ⟨ty, o⟩ x).reason = t.reason := by cases ty <;> cases x <;> rfl
  refine ⟨_, rfl, ⟨?_, h.same, ?_, ?_, ?_, ?_⟩⟩
  · rw [h.trail]; cases ty <;> cases x <;> rfl
  · rw [hnum, hlv]; exact h.level
  · rw [hnum, hre]; exact h.reason
  · refine h.models.set' hv ?_ fun ty' hne => ?_
    · refine ⟨?_, ?_, ?_, ?_⟩
      · rw [hnum]
        refine hM.values.set ho ?_ fun k hk => ?_
        · cases ty <;> cases x <;> first | (simp [Trail.valueOf, Trail.setValue, PModel.setValue]; done) | cases hx
        · cases ty <;> cases x <;> simp [Trail.valueOf, Trail.setValue, PModel.setValue, Function.update_of_ne hk]
      · rw [hnum]
        refine hM.defined.set ho ?_ fun k hk => ?_
        · cases ty <;> cases x <;> first | (simp [Trail.isDefined, Trail.setValue, PModel.setValue]; done) | cases hx
        · cases ty <;> cases x <;> simp [Trail.isDefined, Trail.setValue, PModel.setValue, Function.update_of_ne hk]
      · rw [hnum]
        refine hM.ts.set ho ?_ fun k hk => ?_
        · rw [hM.gts]
          cases ty <;> cases x <;> first | (simp [Trail.tsOf, Trail.gts, Trail.setValue, PModel.setValue]; done) | cases hx
        · cases ty <;> cases x <;> simp [Trail.tsOf, Trail.setValue, PModel.setValue, Function.update_of_ne hk]
      · simp only
        rw [hM.gts]
        cases ty <;> cases x <;> first | rfl | cases hx
    · refine ⟨by rw [hnum], fun k => ?_, fun k => ?_, fun k => ?_, ?_⟩ <;>
        cases ty <;> cases ty' <;> cases x <;> first | rfl | exact absurd rfl hne
  · intro ty' hty'
    refine ⟨by rw [hnum]; exact (h.none ty' hty').1, ?_⟩
    rw [← (h.none ty' hty').2]
    have hne : ty' ≠ ty := fun e => by rw [e] at hty'; exact absurd (hv.symm.trans hty') (by simp)
    cases ty <;> cases ty' <;> cases x <;> first | rfl | exact absurd rfl hne | cases hx

theorem clearValue_sim (h : Sim P m t) {v : Var} (ho : v.ord < t.numVars v.type) :
    ∃ m', m.clearValue v = some m' ∧ Sim P m' (t.clearValue v) := by
  have hv := h.has ho
  obtain ⟨M, e1, hM⟩ := model_eq h hv
  unfold TMem.clearValue
  rw [e1]
  simp only
  rw [if_pos (by rw [hM.defined.length]; simp [ho])]
  obtain ⟨ty, o⟩ := v
  have hnum : (t.clearValue ⟨ty, o⟩).numVars = t.numVars := by
    cases ty <;> (funext ty'; cases ty' <;> rfl)
  have hlv : (t.clearValue ⟨ty, o⟩).level = t.level := by cases ty <;> rfl
  have hre : (t.clearValue ⟨ty, o⟩).reason = t.reason := by cases ty <;> rfl
  refine ⟨_, rfl, ⟨?_, h.same, ?_, ?_, ?_, ?_⟩⟩
  · rw [h.trail]; cases ty <;> rfl
  · rw [hnum, hlv]; exact h.level
  · rw [hnum, hre]; exact h.reason
  · refine h.models.set' hv ?_ fun ty' hne => ?_
    · refine ⟨?_, ?_, ?_, ?_⟩
      · rw [hnum]
        exact hM.values.congr fun k _ => by cases ty <;> rfl
      · rw [hnum]
        refine hM.defined.set ho ?_ fun k hk => ?_
        · cases ty <;> simp [Trail.isDefined, Trail.clearValue, PModel.clear]
        · cases ty <;> simp [Trail.isDefined, Trail.clearValue, PModel.clear, Function.update_of_ne hk]
      · rw [hnum]
        exact hM.ts.congr fun k _ => by cases ty <;> rfl
      · simp only
        rw [hM.gts]
        cases ty <;> rfl
    · refine ⟨by rw [hnum], fun k => ?_, fun k => ?_, fun k => ?_, ?_⟩ <;>
        cases ty <;> cases ty' <;> first | rfl | exact absurd rfl hne
  · intro ty' hty'
    refine ⟨by rw [hnum]; exact (h.none ty' hty').1, ?_⟩
    rw [← (h.none ty' hty').2]
    cases ty <;> cases ty' <;> rfl

theorem unassignAbove_sim (h : Sim P m t) {a : Asg R} (ho : a.var.ord < t.numVars a.var.type) (lvl : Nat) :
    ∃ m', m.unassignAbove lvl a = some m' ∧ Sim P m' (t.unassignAbove lvl a) ∧
      (t.unassignAbove lvl a).numVars = t.numVars ∧ (t.unassignAbove lvl a).levels = t.levels := by
  have hv := h.has ho
  unfold TMem.unassignAbove Trail.unassignAbove
  rw [h.level.cell hv ho]
  simp only
  cases hl : t.level a.var with
  | none =>
    rw [if_neg (by simp [encLevel])]
    exact ⟨m, rfl, h, rfl, rfl⟩
  | some l =>
    simp only
    by_cases hgt : l > lvl
    · rw [if_pos (by simp [encLevel]; exact hgt), if_pos hgt]
      obtain ⟨vl, e1, e2, e3⟩ := h.level.set (g := fun w => encLevel (Function.update t.level a.var Option.none w)) hv ho
        (x := -1) (by simp [encLevel]) (fun w hw => by simp [Function.update_of_ne hw])
      obtain ⟨vr, f1, f2, f3⟩ := h.reason.set (g := Function.update t.reason a.var Option.none) hv ho (x := Option.none)
        (by simp) (fun w hw => by simp [Function.update_of_ne hw])
      rw [e1]
      simp only [Option.bind_some]
      rw [f1]
      simp only [Option.bind_some]
      have hs : Sim P { m with varLevel := vl, varReason := vr } { t with
          level := Function.update t.level a.var Option.none
          reason := Function.update t.reason a.var Option.none } :=
        ⟨h.trail, by simp only; rw [e2, f2, h.same], e3, f3,
          h.models.congr fun ty => ⟨rfl, fun _ => rfl, fun _ => rfl, fun _ => rfl, rfl⟩, h.none⟩
      obtain ⟨m', g1, g2⟩ := clearValue_sim hs (v := a.var) ho
      refine ⟨m', g1, g2, ?_, ?_⟩
      · obtain ⟨⟨ty, o⟩, r⟩ := a
        cases ty <;> (funext ty'; cases ty' <;> rfl)
      · obtain ⟨⟨ty, o⟩, r⟩ := a
        cases ty <;> rfl
    · rw [if_neg (by simp [encLevel]; omega), if_neg hgt]
      exact ⟨m, rfl, h, rfl, rfl⟩

theorem unassignAll_sim (lvl : Nat) : ∀ (xs : List (Asg R)) (m : TMem R) (t : Trail R), Sim P m t →
    (∀ a ∈ xs, a.var.ord < t.numVars a.var.type) →
    ∃ m', xs.foldlM (unassignAbove lvl) m = some m' ∧ Sim P m' (xs.foldl (Trail.unassignAbove lvl) t) ∧
      (xs.foldl (Trail.unassignAbove lvl) t).numVars = t.numVars ∧
      (xs.foldl (Trail.unassignAbove lvl) t).levels = t.levels
  | [], m, t, h, _ => ⟨m, rfl, h, rfl, rfl⟩
  | a :: xs, m, t, h, ha => by
    obtain ⟨m1, e1, e2, e3, e4⟩ := unassignAbove_sim h (ha a List.mem_cons_self) lvl
    obtain ⟨m2, f1, f2, f3, f4⟩ := unassignAll_sim lvl xs m1 _ e2 fun b hb => by
      rw [e3]; exact ha b (List.mem_cons_of_mem _ hb)
    refine ⟨m2, ?_, f2, f3.trans e3, f4.trans e4⟩
    rw [List.foldlM_cons, e1]
    exact f1

theorem popLevel_sim (h : Sim P m t) (hn : t.levels ≠ [])
    (ha : ∀ xs ∈ t.levels, ∀ a ∈ xs, a.var.ord < t.numVars a.var.type) (lvl : Nat) :
    ∃ m', m.popLevel lvl = some m' ∧ Sim P m' (t.popLevel lvl) ∧ (t.popLevel lvl).numVars = t.numVars ∧
      (t.popLevel lvl).levels = t.levels.dropLast := by
  unfold TMem.popLevel Trail.popLevel
  have hlast : t.assigned t.decisionLevel = t.levels.getLast hn := by
    unfold Trail.assigned Trail.decisionLevel
    have := List.length_pos_iff.2 hn
    rw [List.getLast_eq_getElem, List.getD_eq_getElem?_getD, List.getElem?_eq_getElem (by omega)]; rfl
  rw [h.trail, List.getLast?_eq_some_getLast hn, hlast]
  simp only
  obtain ⟨m', e1, e2, e3, e4⟩ := unassignAll_sim lvl (t.levels.getLast hn) m t h
    (ha _ (List.getLast_mem hn))
  rw [e1]
  refine ⟨_, rfl, ⟨by rw [← e2.trail], e2.same, ?_, ?_, ?_, ?_⟩, ?_, by rw [e4]⟩
  · exact e2.level
  · exact e2.reason
  · exact e2.models.congr fun ty => ⟨rfl, fun _ => rfl, fun _ => rfl, fun _ => rfl, rfl⟩
  · exact e2.none
  · exact e3

theorem popLevels_sim (lvl : Nat) : ∀ (n fuel : Nat) (m : TMem R) (t : Trail R), Sim P m t →
    (∀ xs ∈ t.levels, ∀ a ∈ xs, a.var.ord < t.numVars a.var.type) → t.levels.length = lvl + 1 + n → n < fuel →
    ∃ m', popLevels lvl fuel m = some m' ∧ Sim P m' (Trail.popLevels lvl n t) ∧ m'.trail.length = lvl + 1
  | n, 0, _, _, _, _, _, hf => absurd hf (by omega)
  | 0, fuel + 1, m, t, h, _, hl, _ => by
    unfold popLevels Trail.popLevels
    rw [if_neg (by rw [h.trail, hl]; push_cast; omega)]
    exact ⟨m, rfl, h, by rw [h.trail, hl]⟩
  | n + 1, fuel + 1, m, t, h, ha, hl, hf => by
    unfold popLevels Trail.popLevels
    rw [if_pos (by rw [h.trail, hl]; push_cast; omega)]
    obtain ⟨m1, e1, e2, e3, e4⟩ := popLevel_sim h (fun e => by rw [e] at hl; simp at hl) ha lvl
    rw [e1]
    simp only [Option.bind_some]
    refine popLevels_sim lvl n fuel m1 _ e2 (fun xs hx a hm => ?_) (by rw [e4, List.length_dropLast]; omega) (by omega)
    rw [e3]
    rw [e4] at hx
    exact ha xs (List.dropLast_subset _ hx) a hm

theorem backtrack_sim (h : Sim P m t) (hi : t.Inv) {lvl : Nat} (hl : lvl ≤ t.decisionLevel) :
    ∃ m', m.backtrack lvl = some m' ∧ Sim P m' (t.backtrack lvl) := by
  have hlen := hi.length_pos
  have hd : t.decisionLevel = t.levels.length - 1 := rfl
  unfold TMem.backtrack Trail.backtrack
  rw [if_pos (by omega)]
  obtain ⟨m', e1, e2, e3⟩ := popLevels_sim lvl (t.decisionLevel - lvl) (m.trail.length + 1) m t h
    (fun xs hx a ha => by
      obtain ⟨i, hi'⟩ := List.mem_iff_getElem?.1 hx
      obtain ⟨l, h1, -⟩ := hi.listed i xs a hi' ha
      exact hi.range _ _ h1) (by omega) (by rw [h.trail]; omega)
  rw [e1]
  simp only [Option.bind_some]
  rw [if_pos (by rw [e3]; push_cast; omega)]
  exact ⟨m', rfl, e2⟩

theorem clear_sim (h : Sim P m t) : Sim P m.clear t.clear := by
  have hnum : t.clear.numVars = t.numVars := by funext ty; cases ty <;> rfl
  refine ⟨rfl, by simp [TMem.clear, h.same], ?_, ?_, ?_, fun ty hty => ⟨by rw [hnum]; exact (h.none ty hty).1, by
    rw [← (h.none ty hty).2]; cases ty <;> rfl⟩⟩
  · rw [hnum]; exact h.level.clear fun v => rfl
  · rw [hnum]; exact h.reason.clear fun v => rfl
  · refine ⟨fun ty hty => ?_, fun ty hty => ?_⟩
    · obtain ⟨M, h1, h2⟩ := h.models.model ty hty
      refine ⟨{ M with defined := List.replicate M.defined.length false }, ?_, ?_⟩
      · show (m.models.map _)[ty.toNat]? = _
        rw [List.getElem?_map, h1]; rfl
      · refine ⟨?_, ?_, ?_, ?_⟩
        · rw [hnum]; exact h2.values.congr fun k _ => by cases ty <;> rfl
        · rw [hnum, h2.defined.length]; exact (Row.replicate _ _).congr fun k _ => by cases ty <;> rfl
        · rw [hnum]; exact h2.ts.congr fun k _ => by cases ty <;> rfl
        · simp only; rw [h2.gts]; cases ty <;> rfl
    · show ((m.models.map _)[ty.toNat]?).join = _
      have := h.models.absent ty hty
      rw [List.getElem?_map]
      cases hm : m.models[ty.toNat]? with
      | none => rfl
      | some M =>
        rw [hm] at this
        cases M with
        | none => rfl
        | some M => cases this

theorem resize_num (t : Trail R) (ty : VType) (n : Nat) :
    (t.resize ty n).numVars = Function.update t.numVars ty n := by
  funext ty'
  cases ty <;> cases ty' <;> rfl

/-- `resize`; the case `P ty = false` is the call in `set_model`, where the model is new. -/
theorem resize_core {M : MMem} (h1 : m.trail = t.levels) (h2 : m.varLevel.length = m.varReason.length)
    (h3 : Rows P t.numVars m.varLevel (-1) fun v => encLevel (t.level v))
    (h4 : Rows P t.numVars m.varReason Option.none t.reason) (h5 : ∀ ty, P ty = false → t.numVars ty = 0 ∧ t.gts ty = 0)
    {ty : VType} (n : Nat) (hM : m.model ty = some M)
    (h6 : ModelsSim (Function.update P ty true) (m.models.set ty.toNat (some (M.resize ty n))) (t.resize ty n)) :
    ∃ m', m.resize ty n = some m' ∧ Sim (Function.update P ty true) m' (t.resize ty n) := by
  unfold TMem.resize
  rw [hM]
  simp only
  have hkeep : ∀ v : Var, (v.type != ty || (Decidable.decide (v.ord < t.numVars ty) && Decidable.decide (v.ord < n))) = true ↔
      (v.type ≠ ty ∨ (v.ord < t.numVars ty ∧ v.ord < n)) := fun v => by simp
  have hr : (t.resize ty n).reason = fun v => if (v.type != ty || (Decidable.decide (v.ord < t.numVars ty) &&
      Decidable.decide (v.ord < n))) = true then t.reason v else Option.none := by cases ty <;> rfl
  have hl : (t.resize ty n).level = fun v => if (v.type != ty || (Decidable.decide (v.ord < t.numVars ty) &&
      Decidable.decide (v.ord < n))) = true then t.level v else Option.none := by cases ty <;> rfl
  obtain ⟨r, r1, r2⟩ := h4.resize (g := (t.resize ty n).reason) ty n (max m.varReason.length (ty.toNat + 1))
    (by omega) (by omega) (fun e => (h5 ty e).1) (fun v => by
      rw [hr]; simp only [hkeep])
  obtain ⟨l, l1, l2⟩ := h3.resize (g := fun v => encLevel ((t.resize ty n).level v)) ty n
    (max m.varReason.length (ty.toNat + 1)) (by omega) (by omega) (fun e => (h5 ty e).1) (fun v => by
      rw [hl]; simp only [hkeep]
      split_ifs <;> rfl)
  rw [r1, l1]
  refine ⟨_, rfl, ⟨?_, ?_, ?_, ?_, h6, ?_⟩⟩
  · simp only; rw [h1]; cases ty <;> rfl
  · simp [Rows.length_resizeL]
  · rw [resize_num]; exact l2
  · rw [resize_num]; exact r2
  · intro ty' hty
    have e : ty' ≠ ty := fun e => by rw [e, Function.update_self] at hty; cases hty
    rw [Function.update_of_ne e] at hty
    refine ⟨by rw [resize_num, Function.update_of_ne e]; exact (h5 ty' hty).1, ?_⟩
    rw [← (h5 ty' hty).2]
    cases ty <;> cases ty' <;> rfl

theorem resize_other (t : Trail R) {ty ty' : VType} (n : Nat) (hne : ty' ≠ ty) : SameType t (t.resize ty n) ty' := by
  refine ⟨?_, fun k => ?_, fun k => ?_, fun k => ?_, ?_⟩ <;>
    cases ty <;> cases ty' <;> first | rfl | exact absurd rfl hne

theorem resize_model {M : MMem} {ty : VType} (hM : ModelSim M t ty) (n : Nat) :
    ModelSim (M.resize ty n) (t.resize ty n) ty := by
  have hn : (t.resize ty n).numVars ty = n := by rw [resize_num, Function.update_self]
  refine ⟨?_, ?_, ?_, ?_⟩
  · rw [hn]
    refine (hM.values.resize n ty.zero).congr fun k _ => ?_
    cases ty <;> simp only [Trail.valueOf, Trail.resize, PModel.resize, Trail.numVars, VType.zero] <;>
      (split_ifs with hk <;> simp_all)
  · rw [hn]
    refine (hM.defined.resize n false).congr fun k _ => ?_
    cases ty <;> rfl
  · rw [hn]
    refine (hM.ts.resize n (-1)).congr fun k _ => ?_
    cases ty <;> rfl
  · show M.globalTs = _
    rw [hM.gts]; cases ty <;> rfl

theorem resize_sim (h : Sim P m t) {ty : VType} (hP : P ty = true) (n : Nat) :
    ∃ m', m.resize ty n = some m' ∧ Sim P m' (t.resize ty n) := by
  obtain ⟨M, e1, hM⟩ := model_eq h hP
  have hup : Function.update P ty true = P := by rw [← hP, Function.update_eq_self]
  have := resize_core h.trail h.same h.level h.reason h.none n e1
    (h.models.set (h.models.lt hP) (resize_model hM n) fun ty' hne => resize_other t n hne)
  rwa [hup] at this

theorem setModel_sim (h : Sim P m t) {ty : VType} (hP : P ty = false) (n : Nat) :
    ∃ m', m.setModel ty n = some m' ∧ Sim (Function.update P ty true) m' (t.resize ty n) := by
  unfold TMem.setModel
  simp only
  generalize hms : (if m.models.length ≤ ty.toNat then resizeL m.models (ty.toNat + 1) Option.none else m.models) = ms
  have hlt : ty.toNat < ms.length := by
    rw [← hms]
    split_ifs with e
    · rw [Rows.length_resizeL]; omega
    · omega
  have hs : ModelsSim P ms t := by
    rw [← hms]
    split_ifs with e
    · refine ⟨fun ty' hty => ?_, fun ty' hty => ?_⟩
      · obtain ⟨M, h1, h2⟩ := h.models.model ty' hty
        have := h.models.lt hty
        exact ⟨M, by rw [Rows.resizeL_get (by omega) _ _ (by omega), if_pos this, h1], h2⟩
      · by_cases hl : ty'.toNat < ty.toNat + 1
        · rw [Rows.resizeL_get (by omega) _ _ hl]
          split_ifs
          · exact h.models.absent ty' hty
          · rfl
        · rw [List.getElem?_eq_none (by rw [Rows.length_resizeL]; omega)]; rfl
    · exact h.models
  rw [if_pos (by simpa using hlt)]
  have hM : ModelSim ⟨[], [], [], 0⟩ t ty := by
    obtain ⟨h1, h2⟩ := h.none ty hP
    exact ⟨by rw [h1]; exact Row.nil _, by rw [h1]; exact Row.nil _, by rw [h1]; exact Row.nil _, h2.symm⟩
  refine resize_core (m := { m with models := ms.set ty.toNat (some ⟨[], [], [], 0⟩) }) h.trail h.same h.level
    h.reason h.none n (M := ⟨[], [], [], 0⟩) ?_ ?_
  · unfold TMem.model
    simp only
    rw [List.getElem?_set_self hlt]; rfl
  · simp only
    rw [List.set_set]
    exact hs.set hlt (resize_model hM n) fun ty' hne => resize_other t n hne

end TMem
end Yaga
