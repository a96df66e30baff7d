/-
A measure of trails that grows in every iteration of the main loop that is not a restart and creates no
variable: the levels are the digits of a number, the lowest level first.
-/
import Verif.Proofs.QfEnds
import Verif.Proofs.QfSplit

namespace Yaga
open BS
namespace Progress

/-! ### Numbers with digits `f 0, …, f n` -/

/-- The number with the digits `f 0, …, f k` in base `B`. -/
def val (B : Nat) (f : Nat → Nat) : Nat → Nat
  | 0 => f 0
  | k + 1 => val B f k * B + f (k + 1)

theorem val_mono {B : Nat} {f g : Nat → Nat} (k : Nat) (h : ∀ i ≤ k, f i ≤ g i) : val B f k ≤ val B g k := by
  induction k with
  | zero => exact h 0 (le_refl _)
  | succ k ih =>
    have h1 := ih fun i hi => h i (by omega)
    have h2 := h (k + 1) (le_refl _)
    exact Nat.add_le_add (Nat.mul_le_mul_right _ h1) h2

theorem val_lt {B : Nat} {f g : Nat → Nat} (k : Nat) (hB : ∀ i, f i < B)
    (h : ∃ j ≤ k, (∀ i < j, f i ≤ g i) ∧ f j < g j) : val B f k < val B g k := by
  induction k with
  | zero =>
    obtain ⟨j, hj, -, h2⟩ := h
    have : j = 0 := by omega
    subst this
    exact h2
  | succ k ih =>
    obtain ⟨j, hj, h1, h2⟩ := h
    show val B f k * B + f (k + 1) < val B g k * B + g (k + 1)
    by_cases hk : j = k + 1
    · subst hk
      have := val_mono (B := B) k fun i hi => h1 i (by omega)
      exact Nat.add_lt_add_of_le_of_lt (Nat.mul_le_mul_right _ this) h2
    · have h3 := ih ⟨j, by omega, h1, h2⟩
      have h4 : (val B f k + 1) * B ≤ val B g k * B := Nat.mul_le_mul_right _ h3
      have h5 := hB (k + 1)
      rw [Nat.add_mul, Nat.one_mul] at h4
      omega

theorem val_bound {B : Nat} {f : Nat → Nat} (k : Nat) (hB : ∀ i, f i < B) : val B f k < B ^ (k + 1) := by
  induction k with
  | zero => simpa [val] using hB 0
  | succ k ih =>
    have h4 : (val B f k + 1) * B ≤ B ^ (k + 1) * B := Nat.mul_le_mul_right _ ih
    have h5 := hB (k + 1)
    rw [Nat.add_mul, Nat.one_mul] at h4
    show val B f k * B + f (k + 1) < B ^ (k + 1) * B
    omega

/-! ### The measure -/

/-- The number of variables. -/
def size (t : Trail Nat) : Nat := t.bools.num + t.rats.num

/-- All variables. -/
def vars (t : Trail Nat) : List Var := (List.range t.bools.num).map Var.bool ++ (List.range t.rats.num).map Var.rat

/-- The number of variables assigned at a level. -/
def cnt (t : Trail Nat) (i : Nat) : Nat := (vars t).countP fun v => t.level v == some i

/-- `1` if the list of the level starts with a Boolean variable. -/
def top (t : Trail Nat) (i : Nat) : Nat :=
  match (t.assigned i).head? with
  | some a => if a.var.type = .boolean then 1 else 0
  | none => 0

/-- The digit of a level. -/
def digit (t : Trail Nat) (i : Nat) : Nat :=
  if i ≤ t.decisionLevel then top t i * (size t + 1) + cnt t i else 0

/-- The measure of a trail. -/
def measure (t : Trail Nat) : Nat := val (2 * (size t + 1)) (digit t) (size t)

theorem vars_length (t : Trail Nat) : (vars t).length = size t := by simp [vars, size]

theorem mem_vars {t : Trail Nat} (hi : t.Inv) {v : Var} {l : Nat} (h : t.level v = some l) : v ∈ vars t := by
  have hr := hi.range _ _ h
  obtain ⟨ty, n⟩ := v
  cases ty with
  | boolean => exact List.mem_append_left _ (List.mem_map.mpr ⟨n, List.mem_range.mpr hr, rfl⟩)
  | rational => exact List.mem_append_right _ (List.mem_map.mpr ⟨n, List.mem_range.mpr hr, rfl⟩)

theorem top_le (t : Trail Nat) (i : Nat) : top t i ≤ 1 := by
  unfold top
  split
  · split <;> omega
  · omega

theorem cnt_le (t : Trail Nat) (i : Nat) : cnt t i ≤ size t := by
  rw [← vars_length]; exact List.countP_le_length

theorem digit_base (t : Trail Nat) (i : Nat) : digit t i < 2 * (size t + 1) := by
  unfold digit
  split
  · have h1 := Nat.mul_le_mul_right (size t + 1) (top_le t i)
    have h2 := cnt_le t i
    omega
  · omega

theorem measure_lt_pow (t : Trail Nat) : measure t < (2 * (size t + 1)) ^ (size t + 1) :=
  val_bound _ (digit_base t)

/-- There are no more levels than variables. -/
theorem level_count {t : Trail Nat} (hi : t.Inv) : t.decisionLevel ≤ size t := by
  have hd : ∀ i, i < t.decisionLevel → ∃ v, t.level v = some (i + 1) := by
    intro i h
    have hlt : i + 1 < t.levels.length := by unfold Trail.decisionLevel at h; omega
    obtain ⟨a, rest, -, h2, -⟩ := hi.decision (i + 1) _ (by omega) (List.getElem?_eq_getElem hlt)
    exact ⟨_, h2⟩
  have : Nonempty Var := ⟨.bool 0⟩
  choose! f hf using hd
  have hnd : ((List.range t.decisionLevel).map f).Nodup := by
    refine List.Nodup.map_on ?_ List.nodup_range
    intro x hx y hy e
    have h1 := hf x (List.mem_range.mp hx)
    have h2 := hf y (List.mem_range.mp hy)
    rw [e, h2] at h1
    simpa using h1.symm
  have hsub : (List.range t.decisionLevel).map f ⊆ vars t := by
    intro v hv
    obtain ⟨i, h1, rfl⟩ := List.mem_map.mp hv
    exact mem_vars hi (hf i (List.mem_range.mp h1))
  have := (List.subperm_of_subset hnd hsub).length_le
  rw [vars_length] at this
  simpa using this

theorem countP_lt {α : Type} {p q : α → Bool} {l : List α} (h : ∀ x ∈ l, p x = true → q x = true) {a : α}
    (ha : a ∈ l) (h1 : p a = false) (h2 : q a = true) : l.countP p < l.countP q := by
  induction l with
  | nil => simp at ha
  | cons b l ih =>
    have hle : l.countP p ≤ l.countP q := List.countP_mono_left fun x hx => h x (List.mem_cons_of_mem _ hx)
    rw [List.countP_cons, List.countP_cons]
    rcases List.mem_cons.mp ha with rfl | ha
    · simp [h1, h2]; omega
    · have h3 := ih (fun x hx => h x (List.mem_cons_of_mem _ hx)) ha
      have h4 := h b List.mem_cons_self
      by_cases hp : p b = true
      · simp [hp, h4 hp]; exact h3
      · simp [hp]; split <;> omega

section
variable {t t' : Trail Nat} {i : Nat}

theorem top_mono (h : t.assigned i <+: t'.assigned i) : top t i ≤ top t' i := by
  unfold top
  cases h0 : (t.assigned i).head? with
  | none => simp
  | some a => rw [Qf.head_prefix h h0]

theorem cnt_mono (hv : vars t' = vars t) (h : ∀ v, t.level v = some i → t'.level v = some i) : cnt t i ≤ cnt t' i := by
  unfold cnt
  rw [hv]
  refine List.countP_mono_left fun v _ hx => ?_
  have := h v (by simpa using hx)
  simpa using this

theorem digit_le (hs : size t' = size t) (hv : vars t' = vars t) (hd : i ≤ t.decisionLevel → i ≤ t'.decisionLevel)
    (hl : t.assigned i <+: t'.assigned i) (ho : ∀ v, t.level v = some i → t'.level v = some i) :
    digit t i ≤ digit t' i := by
  unfold digit
  by_cases h : i ≤ t.decisionLevel
  · rw [if_pos h, if_pos (hd h), hs]
    exact Nat.add_le_add (Nat.mul_le_mul_right _ (top_mono hl)) (cnt_mono hv ho)
  · rw [if_neg h]; exact Nat.zero_le _

theorem digit_lt_new (hs : size t' = size t) (hv : vars t' = vars t) (hd : i ≤ t'.decisionLevel)
    (hl : t.assigned i <+: t'.assigned i) (ho : ∀ v, t.level v = some i → t'.level v = some i)
    {v : Var} (hm : v ∈ vars t) (h1 : t.level v ≠ some i) (h2 : t'.level v = some i) :
    digit t i < digit t' i := by
  have hc : cnt t i < cnt t' i := by
    unfold cnt
    rw [hv]
    refine countP_lt (fun w _ hw => ?_) hm (by simpa using h1) (by simpa using h2)
    have := ho w (by simpa using hw)
    simpa using this
  unfold digit
  rw [if_pos hd, hs]
  by_cases h : i ≤ t.decisionLevel
  · rw [if_pos h]
    exact Nat.add_lt_add_of_le_of_lt (Nat.mul_le_mul_right _ (top_mono hl)) hc
  · rw [if_neg h]; omega

theorem digit_lt_top (hs : size t' = size t) (hd : i ≤ t'.decisionLevel) (h0 : top t i = 0) (h1 : top t' i = 1) :
    digit t i < digit t' i := by
  have := cnt_le t i
  unfold digit
  rw [if_pos hd, hs, h0, h1]
  split <;> omega

theorem measure_le (hs : size t' = size t) (h : ∀ i, digit t i ≤ digit t' i) : measure t ≤ measure t' := by
  unfold measure
  rw [hs]
  exact val_mono _ fun i _ => h i

theorem measure_lt (hs : size t' = size t) {j : Nat} (hj : j ≤ size t) (h : ∀ i < j, digit t i ≤ digit t' i)
    (h' : digit t j < digit t' j) : measure t < measure t' := by
  unfold measure
  rw [hs]
  exact val_lt _ (digit_base t) ⟨j, hj, h, h'⟩

end

/-! ### Steps -/

/-- The trail only grew, and no level was added. -/
structure Fwd (t t' : Trail Nat) : Prop where
  dl : t'.decisionLevel = t.decisionLevel
  lists : ∀ i, t.assigned i <+: t'.assigned i
  old : ∀ v l, t.level v = some l → t'.level v = some l
  rats : t'.rats.num = t.rats.num
  bools : t.bools.num ≤ t'.bools.num

theorem Fwd.refl (t : Trail Nat) : Fwd t t := ⟨rfl, fun _ => List.prefix_refl _, fun _ _ h => h, rfl, le_refl _⟩

theorem Fwd.trans {a b c : Trail Nat} (h : Fwd a b) (h' : Fwd b c) : Fwd a c :=
  ⟨h'.dl.trans h.dl, fun i => (h.lists i).trans (h'.lists i), fun v l hv => h'.old v l (h.old v l hv),
    h'.rats.trans h.rats, h.bools.trans h'.bools⟩

theorem Fwd.measure {t t' : Trail Nat} (h : Fwd t t') (hn : t'.bools.num = t.bools.num) :
    measure t ≤ measure t' := by
  refine measure_le (by rw [size, size, hn, h.rats]) fun i => ?_
  exact digit_le (by rw [size, size, hn, h.rats]) (by rw [vars, vars, hn, h.rats]) (fun hi => h.dl.symm ▸ hi)
    (h.lists i) fun v hv => h.old v i hv

theorem rats_setValue (t : Trail Nat) (v : Var) (x : Val) : (t.setValue v x).rats.num = t.rats.num := by
  have := congrFun (Trail.numVars_setValue t v x) .rational
  exact this

theorem assigns_fwd {t t' : Trail Nat} (hi : t.Inv) (h : Assigns t t') : Fwd t t' ∧ t'.Inv := by
  induction h with
  | refl => exact ⟨Fwd.refl _, hi⟩
  | @step t1 l r h hn hu ih =>
    obtain ⟨i1, i2⟩ := ih
    have hg := grow_propagate i2 (v := l.var) (r := some r) (lvl := t1.decisionLevel) (x := .b (!l.isNeg))
      ⟨hn, hu, rfl, le_refl _⟩
    refine ⟨i1.trans ⟨?_, hg.lists, hg.old, ?_, ?_⟩, hg.inv⟩
    · simp [Trail.decisionLevel, Trail.propagate]
    · rw [rats_setValue]; rfl
    · rw [numBools_setValue]; exact le_refl _

/-- A decision. -/
theorem decide_measure {t : Trail Nat} (hi : t.Inv) {v : Var} {x : Val} (hp : t.Pre (.decide v x)) :
    measure t < measure ((t.decide v).setValue v x) := by
  have hg := grow_decide hi hp
  have hn : ((t.decide v).setValue v x).bools.num = t.bools.num := by rw [numBools_setValue]; rfl
  have hr : ((t.decide v).setValue v x).rats.num = t.rats.num := by rw [rats_setValue]; rfl
  have hd : ((t.decide v).setValue v x).decisionLevel = t.decisionLevel + 1 := by
    have := hi.length_pos
    simp [Trail.decisionLevel, Trail.decide]; omega
  have hs : size ((t.decide v).setValue v x) = size t := by rw [size, size, hn, hr]
  have hv : vars ((t.decide v).setValue v x) = vars t := by rw [vars, vars, hn, hr]
  have hlv : ((t.decide v).setValue v x).level v = some (t.decisionLevel + 1) := by
    have := hi.length_pos
    simp [Trail.decide, Trail.decisionLevel]; omega
  refine measure_lt hs (j := t.decisionLevel + 1) ?_ (fun i hlt => ?_) ?_
  · have := level_count hg.inv
    rw [hd, hs] at this
    exact this
  · exact digit_le hs hv (fun h => by omega) (hg.lists i) fun w hw => hg.old w i hw
  · refine digit_lt_new hs hv (by omega) (hg.lists _) (fun w hw => hg.old w _ hw) ?_ ?_ hlv
    · rw [← hv]; exact mem_vars hg.inv hlv
    · rw [hp.2.1]; simp

section
variable {t : Trail Nat} {L : Nat}

theorem backtrack_lists (hi : t.Inv) (hL : L ≤ t.decisionLevel) {i : Nat} (h : i ≤ L) :
    (t.backtrack L).assigned i = t.assigned i := by
  rw [Trail.assigned, Trail.assigned, List.getD_eq_getElem?_getD, List.getD_eq_getElem?_getD,
    (Trail.backtrack_spec hi L hL).1, List.getElem?_take, if_pos (by omega)]

theorem backtrack_old (hi : t.Inv) (hL : L ≤ t.decisionLevel) {i : Nat} (h : i ≤ L) {v : Var}
    (hv : t.level v = some i) : (t.backtrack L).level v = some i := by
  rw [((Trail.backtrack_spec hi L hL).2.2.1 v (by intro l hl; rw [hv] at hl; cases hl; exact h)).1, hv]

theorem backtrack_nums (hi : t.Inv) (hL : L ≤ t.decisionLevel) :
    (t.backtrack L).bools.num = t.bools.num ∧ (t.backtrack L).rats.num = t.rats.num := by
  have := (Trail.backtrack_spec hi L hL).2.2.2.2
  exact ⟨congrFun this .boolean, congrFun this .rational⟩

/-- Backtracking and the assignment of a variable that is then not assigned. -/
theorem uip_measure (hi : t.Inv) (hL : L ≤ t.decisionLevel) {t' : Trail Nat} (ha : Assigns (t.backtrack L) t')
    {v : Var} (hu : (t.backtrack L).level v = none) (hv : t'.level v = some L) : measure t < measure t' := by
  have hib := Trail.backtrack_inv hi L hL
  obtain ⟨f, hi'⟩ := assigns_fwd hib ha
  have hdl := Trail.decisionLevel_backtrack hi L hL
  obtain ⟨n1, n2⟩ := backtrack_nums hi hL
  have n3 := Qf.assigns_num ha
  have hs : size t' = size t := by rw [size, size, n3, f.rats, n1, n2]
  have hvs : vars t' = vars t := by rw [vars, vars, n3, f.rats, n1, n2]
  have hlist : ∀ i ≤ L, t.assigned i <+: t'.assigned i := fun i h => by
    rw [← backtrack_lists hi hL h]; exact f.lists i
  have hold : ∀ i ≤ L, ∀ w, t.level w = some i → t'.level w = some i := fun i h w hw =>
    f.old _ _ (backtrack_old hi hL h hw)
  have hd' : t'.decisionLevel = L := f.dl.trans hdl
  refine measure_lt hs (j := L) (hL.trans (level_count hi)) (fun i hlt => ?_) ?_
  · exact digit_le hs hvs (fun _ => by omega) (hlist i hlt.le) (hold i hlt.le)
  · refine digit_lt_new hs hvs (by omega) (hlist L (le_refl _)) (hold L (le_refl _)) ?_ ?_ hv
    · rw [← hvs]; exact mem_vars hi' hv
    · intro h; rw [backtrack_old hi hL (le_refl _) h] at hu; cases hu

/-- Backtracking below a level that does not start with a Boolean variable and a Boolean decision. -/
theorem split_measure (hi : t.Inv) (hL : L + 1 ≤ t.decisionLevel) {o : Nat} {x : Val}
    (hp : (t.backtrack L).Pre (.decide (.bool o) x)) {a : Asg Nat} (h1 : (t.assigned (L + 1)).head? = some a)
    (h2 : a.var.type ≠ .boolean) : measure t < measure (((t.backtrack L).decide (.bool o)).setValue (.bool o) x) := by
  have hL' : L ≤ t.decisionLevel := by omega
  have hib := Trail.backtrack_inv hi L hL'
  have hg := grow_decide hib hp
  have hdl := Trail.decisionLevel_backtrack hi L hL'
  obtain ⟨n1, n2⟩ := backtrack_nums hi hL'
  set t' := ((t.backtrack L).decide (.bool o)).setValue (.bool o) x with ht'
  have hn : t'.bools.num = t.bools.num := by rw [ht', numBools_setValue]; exact n1
  have hr : t'.rats.num = t.rats.num := by rw [ht', rats_setValue]; exact n2
  have hs : size t' = size t := by rw [size, size, hn, hr]
  have hvs : vars t' = vars t := by rw [vars, vars, hn, hr]
  have hd' : t'.decisionLevel = L + 1 := by
    have := hib.length_pos
    have e : t'.decisionLevel = (t.backtrack L).decisionLevel + 1 := by
      rw [ht']; simp [Trail.decisionLevel, Trail.decide]; omega
    rw [e, hdl]
  refine measure_lt hs (j := L + 1) (hL.trans (level_count hi)) (fun i hlt => ?_) ?_
  · have hle : i ≤ L := by omega
    refine digit_le hs hvs (fun _ => by omega) ?_ fun w hw => hg.old _ _ (backtrack_old hi hL' hle hw)
    rw [← backtrack_lists hi hL' hle]; exact hg.lists i
  · refine digit_lt_top hs (by omega) ?_ ?_
    · unfold top; rw [h1]; simp [h2]
    · have hh : (t'.assigned (L + 1)).head? = some ⟨.bool o, none⟩ := by
        have hlen : (t.backtrack L).levels.length = L + 1 := by
          have := hib.length_pos
          unfold Trail.decisionLevel at hdl; omega
        rw [ht', Trail.assigned, Trail.levels_setValue, List.getD_eq_getElem?_getD]
        simp [Trail.decide, hlen]
      unfold top; rw [hh]; simp
end
end Progress
end Yaga
