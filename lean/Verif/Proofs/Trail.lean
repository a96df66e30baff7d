import Verif.Model.Trail
import Verif.Proofs.Literal

namespace Yaga
namespace Trail
variable {R : Type}

/-! ### Access lemmas -/

theorem isDefined_clearValue (t : Trail R) (v w : Var) :
    (t.clearValue v).isDefined w = if w = v then false else t.isDefined w := by
  rcases v with ⟨tv, ov⟩
  rcases w with ⟨tw, ow⟩
  cases tv <;> cases tw <;> simp [clearValue, isDefined, PModel.clear, Function.update_apply]

theorem isDefined_setValue (t : Trail R) (v w : Var) (x : Val) (h : x.hasType v.type = true) :
    (t.setValue v x).isDefined w = if w = v then true else t.isDefined w := by
  rcases v with ⟨tv, ov⟩
  rcases w with ⟨tw, ow⟩
  cases tv <;> cases tw <;> cases x <;>
    simp_all [setValue, isDefined, PModel.setValue, Function.update_apply, Val.hasType]

theorem valueOf_setValue (t : Trail R) (v w : Var) (x : Val) (h : x.hasType v.type = true) :
    (t.setValue v x).valueOf w = if w = v then x else t.valueOf w := by
  rcases v with ⟨tv, ov⟩
  rcases w with ⟨tw, ow⟩
  cases tv <;> cases tw <;> cases x <;>
    simp_all [setValue, valueOf, PModel.setValue, Function.update_apply, Val.hasType]
  all_goals split <;> simp_all

@[simp] theorem level_setValue (t : Trail R) (v : Var) (x : Val) :
    (t.setValue v x).level = t.level := by
  rcases v with ⟨tv, ov⟩; cases tv <;> cases x <;> rfl
@[simp] theorem reason_setValue (t : Trail R) (v : Var) (x : Val) :
    (t.setValue v x).reason = t.reason := by
  rcases v with ⟨tv, ov⟩; cases tv <;> cases x <;> rfl
@[simp] theorem levels_setValue (t : Trail R) (v : Var) (x : Val) :
    (t.setValue v x).levels = t.levels := by
  rcases v with ⟨tv, ov⟩; cases tv <;> cases x <;> rfl
@[simp] theorem numVars_setValue (t : Trail R) (v : Var) (x : Val) :
    (t.setValue v x).numVars = t.numVars := by
  rcases v with ⟨tv, ov⟩
  cases tv <;> cases x <;> funext ty <;> cases ty <;> rfl

@[simp] theorem level_clearValue (t : Trail R) (v : Var) :
    (t.clearValue v).level = t.level := by
  rcases v with ⟨tv, ov⟩; cases tv <;> rfl
@[simp] theorem reason_clearValue (t : Trail R) (v : Var) :
    (t.clearValue v).reason = t.reason := by
  rcases v with ⟨tv, ov⟩; cases tv <;> rfl
@[simp] theorem levels_clearValue (t : Trail R) (v : Var) :
    (t.clearValue v).levels = t.levels := by
  rcases v with ⟨tv, ov⟩; cases tv <;> rfl
@[simp] theorem numVars_clearValue (t : Trail R) (v : Var) :
    (t.clearValue v).numVars = t.numVars := by
  rcases v with ⟨tv, ov⟩; cases tv <;> funext ty <;> cases ty <;> rfl
@[simp] theorem valueOf_clearValue (t : Trail R) (v : Var) :
    (t.clearValue v).valueOf = t.valueOf := by
  rcases v with ⟨tv, ov⟩
  cases tv <;> funext w <;> rcases w with ⟨tw, ow⟩ <;> cases tw <;> rfl

/-! ### `pushFrom` -/

@[simp] theorem length_pushFrom (a : Asg R) (lvl : Nat) (ls : List (List (Asg R))) :
    (pushFrom a lvl ls).length = ls.length := by
  induction ls generalizing lvl with
  | nil => cases lvl <;> rfl
  | cons x xs ih => cases lvl <;> simp [pushFrom, ih]

theorem getElem?_pushFrom (a : Asg R) (lvl i : Nat) (ls : List (List (Asg R))) :
    (pushFrom a lvl ls)[i]? = (ls[i]?).map (fun xs => if lvl ≤ i then xs ++ [a] else xs) := by
  induction ls generalizing lvl i with
  | nil => cases lvl <;> simp [pushFrom]
  | cons x xs ih =>
    cases lvl with
    | zero => cases i <;> simp [pushFrom, ih]
    | succ k => cases i <;> simp [pushFrom, ih]

theorem take_pushFrom (a : Asg R) (lvl k : Nat) (ls : List (List (Asg R))) (h : k ≤ lvl) :
    (pushFrom a lvl ls).take k = ls.take k := by
  apply List.ext_getElem?
  intro i
  simp only [List.getElem?_take, getElem?_pushFrom]
  split
  · rename_i hi
    have : ¬ lvl ≤ i := by omega
    simp [this]
  · rfl

/-! ### Backtracking -/

/-- `t'` is `t` with the variables of `S` that sit above level `L` made unassigned. -/
structure ClearedTo (L : Nat) (S : Var → Prop) (t t' : Trail R) : Prop where
  gone : ∀ v l, S v → t.level v = some l → L < l →
    t'.level v = none ∧ t'.reason v = none ∧ t'.isDefined v = false
  kept : ∀ v, (¬ S v ∨ ∀ l, t.level v = some l → l ≤ L) →
    t'.level v = t.level v ∧ t'.reason v = t.reason v ∧ t'.isDefined v = t.isDefined v
  values : t'.valueOf = t.valueOf
  nums : t'.numVars = t.numVars

theorem ClearedTo.refl (L : Nat) (t : Trail R) : ClearedTo L (fun _ => False) t t :=
  ⟨fun _ _ h => h.elim, fun _ _ => ⟨rfl, rfl, rfl⟩, rfl, rfl⟩

theorem ClearedTo.trans {L : Nat} {S1 S2 : Var → Prop} {t t1 t2 : Trail R}
    (h1 : ClearedTo L S1 t t1) (h2 : ClearedTo L S2 t1 t2) :
    ClearedTo L (fun v => S1 v ∨ S2 v) t t2 := by
  refine ⟨?_, ?_, h2.values.trans h1.values, h2.nums.trans h1.nums⟩
  · intro v l hs hl hlt
    by_cases hs1 : S1 v
    · obtain ⟨a, b, c⟩ := h1.gone v l hs1 hl hlt
      obtain ⟨a', b', c'⟩ := h2.kept v (Or.inr (by simp [a]))
      exact ⟨a'.trans a, b'.trans b, c'.trans c⟩
    · obtain ⟨a, b, c⟩ := h1.kept v (Or.inl hs1)
      exact h2.gone v l (hs.resolve_left hs1) (a.trans hl) hlt
  · intro v hv
    have k1 := h1.kept v (by
      rcases hv with hv | hv
      · exact Or.inl fun h => hv (Or.inl h)
      · exact Or.inr hv)
    have k2 := h2.kept v (by
      rcases hv with hv | hv
      · exact Or.inl fun h => hv (Or.inr h)
      · refine Or.inr fun l hl => hv l ?_
        rw [← k1.1]; exact hl)
    exact ⟨k2.1.trans k1.1, k2.2.1.trans k1.2.1, k2.2.2.trans k1.2.2⟩

theorem ClearedTo.congr {L : Nat} {S1 S2 : Var → Prop} {t t1 : Trail R}
    (h1 : ClearedTo L S1 t t1) (h : ∀ v, S1 v ↔ S2 v) : ClearedTo L S2 t t1 := by
  have : S1 = S2 := funext fun v => propext (h v)
  exact this ▸ h1

theorem unassignAbove_clearedTo (L : Nat) (t : Trail R) (a : Asg R) :
    ClearedTo L (fun v => v = a.var) t (unassignAbove L t a) ∧
    (unassignAbove L t a).levels = t.levels := by
  unfold unassignAbove
  rcases hl : t.level a.var with _ | l
  · simp only
    refine ⟨⟨?_, fun _ _ => ⟨rfl, rfl, rfl⟩, rfl, rfl⟩, trivial⟩
    rintro v l rfl h; rw [hl] at h; cases h
  · simp only
    by_cases hgt : l > L
    · rw [if_pos hgt]
      refine ⟨⟨?_, ?_, ?_, ?_⟩, by simp⟩
      · rintro v l' rfl _ _
        simp [isDefined_clearValue]
      · intro v hv
        have hne : v ≠ a.var := by
          rcases hv with hv | hv
          · exact hv
          · rintro rfl; have := hv l hl; omega
        simp only [level_clearValue, reason_clearValue, isDefined_clearValue,
          Function.update_of_ne hne, hne, if_false, true_and]
        rcases v with ⟨tv, ov⟩; cases tv <;> rfl
      · rw [valueOf_clearValue]; funext w; rcases w with ⟨tw, ow⟩; cases tw <;> rfl
      · rw [numVars_clearValue]; funext w; cases w <;> rfl
    · rw [if_neg hgt]
      refine ⟨⟨?_, fun _ _ => ⟨rfl, rfl, rfl⟩, rfl, rfl⟩, rfl⟩
      rintro v l' rfl h hlt
      rw [hl] at h; cases h; omega

theorem foldl_unassignAbove (L : Nat) (xs : List (Asg R)) (t : Trail R) :
    ClearedTo L (fun v => ∃ a ∈ xs, a.var = v) t (xs.foldl (unassignAbove L) t) ∧
    (xs.foldl (unassignAbove L) t).levels = t.levels := by
  induction xs generalizing t with
  | nil => exact ⟨(ClearedTo.refl L t).congr (by simp), rfl⟩
  | cons a xs ih =>
    obtain ⟨h1, h2⟩ := unassignAbove_clearedTo L t a
    obtain ⟨h3, h4⟩ := ih (unassignAbove L t a)
    refine ⟨(h1.trans h3).congr ?_, ?_⟩
    · intro v; simp [eq_comm]
    · simpa [h2] using h4

theorem popLevel_clearedTo (L : Nat) (t : Trail R) :
    ClearedTo L (fun v => ∃ a ∈ t.assigned t.decisionLevel, a.var = v) t (popLevel L t) ∧
    (popLevel L t).levels = t.levels.dropLast := by
  obtain ⟨h1, h2⟩ := foldl_unassignAbove L (t.assigned t.decisionLevel) t
  refine ⟨⟨h1.gone, h1.kept, h1.values, h1.nums⟩, ?_⟩
  simp [popLevel, h2]

theorem popLevels_clearedTo (L n : Nat) (t : Trail R) (hn : n < t.levels.length) :
    ClearedTo L (fun v => ∃ i xs, t.levels.length - n ≤ i ∧ t.levels[i]? = some xs ∧
      ∃ a ∈ xs, a.var = v) t (popLevels L n t) ∧
    (popLevels L n t).levels = t.levels.take (t.levels.length - n) := by
  induction n generalizing t with
  | zero =>
    refine ⟨(ClearedTo.refl L t).congr ?_, by simp [popLevels]⟩
    intro v
    simp only [false_iff]
    rintro ⟨i, xs, hi, hx, -⟩
    rw [List.getElem?_eq_none (by omega)] at hx
    cases hx
  | succ n ih =>
    obtain ⟨h1, h2⟩ := popLevel_clearedTo L t
    have hlen : (popLevel L t).levels.length = t.levels.length - 1 := by simp [h2]
    obtain ⟨h3, h4⟩ := ih (popLevel L t) (by omega)
    refine ⟨(h1.trans h3).congr ?_, ?_⟩
    · intro v
      constructor
      · rintro (⟨a, ha, rfl⟩ | ⟨i, xs, hi, hx, ha⟩)
        · refine ⟨t.decisionLevel, t.assigned t.decisionLevel, ?_, ?_, a, ha, rfl⟩
          · simp [decisionLevel]; omega
          · rw [assigned, List.getD_eq_getElem?_getD,
              List.getElem?_eq_getElem (by simp [decisionLevel]; omega)]; simp
        · rw [h2, List.getElem?_dropLast] at hx
          split at hx
          · exact ⟨i, xs, by omega, hx, ha⟩
          · cases hx
      · rintro ⟨i, xs, hi, hx, ha⟩
        by_cases he : i = t.levels.length - 1
        · left
          have : t.assigned t.decisionLevel = xs := by
            rw [assigned, List.getD_eq_getElem?_getD]; simp [decisionLevel, ← he, hx]
          rw [this]; exact ha
        · right
          have hlt : i < t.levels.length := by
            by_contra hc; rw [List.getElem?_eq_none (by omega)] at hx; cases hx
          refine ⟨i, xs, by omega, ?_, ha⟩
          rw [h2, List.getElem?_dropLast, if_pos (by omega)]; exact hx
    · rw [popLevels, h4, h2]
      rw [List.dropLast_eq_take, List.take_take]
      congr 1
      simp; omega

/-! ### Invariant -/

/-- The bookkeeping invariant of the trail (property C03). -/
structure Inv (t : Trail R) : Prop where
  nonempty : t.levels ≠ []
  /-- only variables in range have a level -/
  range : ∀ v l, t.level v = some l → v.ord < t.numVars v.type
  /-- levels are at most the current decision level -/
  bound : ∀ v l, t.level v = some l → l ≤ t.decisionLevel
  /-- an element of the list of level `i` is assigned at a level `≤ i`, with the recorded reason -/
  listed : ∀ i xs a, t.levels[i]? = some xs → a ∈ xs →
    ∃ l, t.level a.var = some l ∧ l ≤ i ∧ t.reason a.var = a.reason
  /-- an assigned variable is in the list of its level -/
  own : ∀ v l, t.level v = some l → ∃ xs, t.levels[l]? = some xs ∧ ∃ a ∈ xs, a.var = v
  /-- the lists containing a variable form an interval starting at its level -/
  interval : ∀ v l i j xs ys, t.level v = some l → l ≤ i → i ≤ j →
    t.levels[j]? = some xs → (∃ a ∈ xs, a.var = v) → t.levels[i]? = some ys → ∃ a ∈ ys, a.var = v
  /-- no list contains a variable twice -/
  nodup : ∀ (i : Nat) (xs : List (Asg R)), t.levels[i]? = some xs → (xs.map Asg.var).Nodup
  /-- every level above 0 starts with its decision -/
  decision : ∀ i xs, 0 < i → t.levels[i]? = some xs →
    ∃ a rest, xs = a :: rest ∧ t.level a.var = some i ∧ a.reason = none
  /-- exactly the assigned variables have a value -/
  defined : ∀ v, t.isDefined v = true ↔ ∃ l, t.level v = some l
  /-- unassigned variables have no reason -/
  noReason : ∀ v, t.level v = none → t.reason v = none

theorem Inv.length_pos {t : Trail R} (h : Inv t) : 0 < t.levels.length :=
  List.length_pos_iff.2 h.nonempty

theorem init_inv : Inv (init : Trail R) := by
  refine ⟨by simp [init], by simp [init], by simp [init], ?_, by simp [init], ?_, ?_, ?_, ?_, ?_⟩
  · intro i xs a h ha
    rcases i with _ | i <;> simp [init] at h; subst h; simp at ha
  · intro v l i j xs ys h; simp [init] at h
  · intro i xs h
    rcases i with _ | i <;> simp [init] at h; subst h; simp
  · intro i xs hi h
    rcases i with _ | i <;> simp [init] at h; omega
  · intro v; rcases v with ⟨tv, ov⟩; cases tv <;> simp [init, isDefined, PModel.empty]
  · intro v _; rfl

theorem decide_inv {t : Trail R} (h : Inv t) (v : Var) (x : Val) (hr : v.ord < t.numVars v.type)
    (hu : t.level v = none) (hx : x.hasType v.type = true) :
    Inv ((t.decide v).setValue v x) := by
  have hlen := h.length_pos
  have hdl : ((t.decide v).setValue v x).decisionLevel = t.levels.length := by
    simp [decisionLevel, Trail.decide]
  have hnot : ∀ (i : Nat) (xs : List (Asg R)) (a : Asg R), t.levels[i]? = some xs → a ∈ xs → a.var ≠ v := by
    rintro i xs a h1 h2 rfl
    obtain ⟨l, hl, -⟩ := h.listed i xs a h1 h2
    rw [hu] at hl; cases hl
  have hget : ∀ i xs, (t.decide v).levels[i]? = some xs →
      (t.levels[i]? = some xs ∧ i < t.levels.length) ∨
      (i = t.levels.length ∧ xs = [⟨v, none⟩]) := by
    intro i xs hi
    simp only [Trail.decide] at hi
    rcases Nat.lt_trichotomy i t.levels.length with hlt | heq | hgt
    · rw [List.getElem?_append_left hlt] at hi; exact Or.inl ⟨hi, hlt⟩
    · subst heq; simp at hi; exact Or.inr ⟨rfl, hi.symm⟩
    · rw [List.getElem?_eq_none (by simp; omega)] at hi; cases hi
  have hlv : ∀ w, w ≠ v → (t.decide v).level w = t.level w := by
    intro w hw; simp [Trail.decide, Function.update_of_ne hw]
  have hlvv : (t.decide v).level v = some t.levels.length := by simp [Trail.decide]
  refine ⟨?_, ?_, ?_, ?_, ?_, ?_, ?_, ?_, ?_, ?_⟩
  · simp [Trail.decide]
  · intro w l hl
    simp only [level_setValue, numVars_setValue] at *
    by_cases e : w = v
    · subst e; exact hr
    · rw [hlv w e] at hl; exact h.range w l hl
  · intro w l hl
    rw [hdl]
    simp only [level_setValue] at hl
    by_cases e : w = v
    · subst e; rw [hlvv] at hl; cases hl; exact le_refl _
    · rw [hlv w e] at hl
      have := h.bound w l hl; simp only [decisionLevel] at this; omega
  · intro i xs a hi ha
    simp only [levels_setValue, level_setValue, reason_setValue] at *
    rcases hget i xs hi with ⟨h1, h2⟩ | ⟨h1, h2⟩
    · have hne := hnot i xs a h1 ha
      obtain ⟨l, h3, h4, h5⟩ := h.listed i xs a h1 ha
      refine ⟨l, by rw [hlv _ hne]; exact h3, h4, ?_⟩
      simp [Trail.decide, Function.update_of_ne hne, h5]
    · subst h1; subst h2
      simp only [List.mem_singleton] at ha; subst ha
      exact ⟨_, hlvv, le_refl _, by simp [Trail.decide]⟩
  · intro w l hl
    simp only [levels_setValue, level_setValue] at *
    by_cases e : w = v
    · subst e
      rw [hlvv] at hl; cases hl
      exact ⟨[⟨w, none⟩], by simp [Trail.decide], _, List.mem_singleton.2 rfl, rfl⟩
    · rw [hlv w e] at hl
      obtain ⟨xs, h1, h2⟩ := h.own w l hl
      have : l < t.levels.length := by
        by_contra hc; rw [List.getElem?_eq_none (by omega)] at h1; cases h1
      exact ⟨xs, by simp only [Trail.decide]; rw [List.getElem?_append_left this]; exact h1, h2⟩
  · intro w l i j xs ys hl hli hij hj hw hi
    simp only [levels_setValue, level_setValue] at *
    by_cases e : w = v
    · subst e
      rw [hlvv] at hl; cases hl
      rcases hget i ys hi with ⟨h1, h2⟩ | ⟨h1, h2⟩
      · omega
      · subst h2; exact ⟨_, List.mem_singleton.2 rfl, rfl⟩
    · rw [hlv w e] at hl
      rcases hget j xs hj with ⟨h1, h2⟩ | ⟨h1, h2⟩
      · rcases hget i ys hi with ⟨h3, h4⟩ | ⟨h3, h4⟩
        · exact h.interval w l i j xs ys hl hli hij h1 hw h3
        · omega
      · subst h2
        obtain ⟨a, ha, haw⟩ := hw
        simp only [List.mem_singleton] at ha; subst ha
        exact absurd haw.symm e
  · intro i xs hi
    simp only [levels_setValue] at hi
    rcases hget i xs hi with ⟨h1, h2⟩ | ⟨h1, h2⟩
    · exact h.nodup i xs h1
    · subst h2; simp
  · intro i xs hpos hi
    simp only [levels_setValue, level_setValue] at *
    rcases hget i xs hi with ⟨h1, h2⟩ | ⟨h1, h2⟩
    · obtain ⟨a, rest, h3, h4, h5⟩ := h.decision i xs hpos h1
      have hne := hnot i xs a h1 (by simp [h3])
      exact ⟨a, rest, h3, by rw [hlv _ hne]; exact h4, h5⟩
    · subst h2; subst h1; exact ⟨_, [], rfl, hlvv, rfl⟩
  · intro w
    rw [isDefined_setValue _ _ _ _ hx]
    simp only [level_setValue]
    by_cases e : w = v
    · subst e; simp [hlvv]
    · rw [hlv w e, if_neg e]
      have : (t.decide v).isDefined w = t.isDefined w := by
        rcases w with ⟨tw, ow⟩; cases tw <;> rfl
      rw [this]; exact h.defined w
  · intro w hw
    simp only [level_setValue, reason_setValue] at *
    by_cases e : w = v
    · subst e; rw [hlvv] at hw; cases hw
    · rw [hlv w e] at hw
      simp only [Trail.decide, Function.update_of_ne e]
      exact h.noReason w hw

theorem propagate_inv {t : Trail R} (h : Inv t) (v : Var) (r : Option R) (lvl : Nat) (x : Val)
    (hr : v.ord < t.numVars v.type) (hu : t.level v = none) (hx : x.hasType v.type = true)
    (hl : lvl ≤ t.decisionLevel) : Inv ((t.propagate v r lvl).setValue v x) := by
  have hlen := h.length_pos
  have hdl : ((t.propagate v r lvl).setValue v x).decisionLevel = t.decisionLevel := by
    simp [decisionLevel, Trail.propagate]
  have hnot : ∀ (i : Nat) (xs : List (Asg R)) (a : Asg R), t.levels[i]? = some xs → a ∈ xs → a.var ≠ v := by
    rintro i xs a h1 h2 rfl
    obtain ⟨l, hl, -⟩ := h.listed i xs a h1 h2
    rw [hu] at hl; cases hl
  have hget : ∀ i xs, (t.propagate v r lvl).levels[i]? = some xs →
      ∃ ys, t.levels[i]? = some ys ∧ xs = (if lvl ≤ i then ys ++ [⟨v, r⟩] else ys) := by
    intro i xs hi
    simp only [Trail.propagate, getElem?_pushFrom, Option.map_eq_some_iff] at hi
    obtain ⟨ys, h1, h2⟩ := hi
    exact ⟨ys, h1, h2.symm⟩
  have hput : ∀ i ys, t.levels[i]? = some ys → (t.propagate v r lvl).levels[i]? =
      some (if lvl ≤ i then ys ++ [⟨v, r⟩] else ys) := by
    intro i ys hi
    simp [Trail.propagate, getElem?_pushFrom, hi]
  have hlv : ∀ w, w ≠ v → (t.propagate v r lvl).level w = t.level w := by
    intro w hw; simp [Trail.propagate, Function.update_of_ne hw]
  have hlvv : (t.propagate v r lvl).level v = some lvl := by simp [Trail.propagate]
  have hmem : ∀ i (ys : List (Asg R)) a, a ∈ (if lvl ≤ i then ys ++ [⟨v, r⟩] else ys) →
      a ∈ ys ∨ (lvl ≤ i ∧ a = ⟨v, r⟩) := by
    intro i ys a ha
    split at ha
    · rcases List.mem_append.1 ha with h | h
      · exact Or.inl h
      · exact Or.inr ⟨by assumption, by simpa using h⟩
    · exact Or.inl ha
  refine ⟨?_, ?_, ?_, ?_, ?_, ?_, ?_, ?_, ?_, ?_⟩
  · simp only [levels_setValue, Trail.propagate, ne_eq, ← List.length_eq_zero_iff, length_pushFrom]
    omega
  · intro w l hl
    simp only [level_setValue, numVars_setValue] at *
    by_cases e : w = v
    · subst e; exact hr
    · rw [hlv w e] at hl; exact h.range w l hl
  · intro w l hlw
    rw [hdl]
    simp only [level_setValue] at hlw
    by_cases e : w = v
    · subst e; rw [hlvv] at hlw; cases hlw; exact hl
    · rw [hlv w e] at hlw; exact h.bound w l hlw
  · intro i xs a hi ha
    simp only [levels_setValue, level_setValue, reason_setValue] at *
    obtain ⟨ys, h1, rfl⟩ := hget i xs hi
    rcases hmem i ys a ha with h2 | ⟨h2, rfl⟩
    · have hne := hnot i ys a h1 h2
      obtain ⟨l, h3, h4, h5⟩ := h.listed i ys a h1 h2
      refine ⟨l, by rw [hlv _ hne]; exact h3, h4, ?_⟩
      simp [Trail.propagate, Function.update_of_ne hne, h5]
    · exact ⟨_, hlvv, h2, by simp [Trail.propagate]⟩
  · intro w l hlw
    simp only [levels_setValue, level_setValue] at *
    by_cases e : w = v
    · subst e
      rw [hlvv] at hlw; cases hlw
      have : lvl < t.levels.length := by simp only [decisionLevel] at hl; omega
      refine ⟨_, hput lvl _ (List.getElem?_eq_getElem this), ⟨w, r⟩, ?_, rfl⟩
      simp
    · rw [hlv w e] at hlw
      obtain ⟨xs, h1, a, h2, h3⟩ := h.own w l hlw
      refine ⟨_, hput l _ h1, a, ?_, h3⟩
      split
      · exact List.mem_append_left _ h2
      · exact h2
  · intro w l i j xs ys hlw hli hij hj hw hi
    simp only [levels_setValue, level_setValue] at *
    obtain ⟨xs', hj', rfl⟩ := hget j xs hj
    obtain ⟨ys', hi', rfl⟩ := hget i ys hi
    by_cases e : w = v
    · subst e
      rw [hlvv] at hlw; cases hlw
      exact ⟨⟨w, r⟩, by simp [hli], rfl⟩
    · rw [hlv w e] at hlw
      obtain ⟨a, ha, haw⟩ := hw
      rcases hmem j xs' a ha with h2 | ⟨h2, rfl⟩
      · obtain ⟨b, hb, hbw⟩ := h.interval w l i j xs' ys' hlw hli hij hj' ⟨a, h2, haw⟩ hi'
        refine ⟨b, ?_, hbw⟩
        split
        · exact List.mem_append_left _ hb
        · exact hb
      · exact absurd haw.symm e
  · intro i xs hi
    simp only [levels_setValue] at hi
    obtain ⟨ys, h1, rfl⟩ := hget i xs hi
    split
    · rw [List.map_append, List.nodup_append]
      refine ⟨h.nodup i ys h1, by simp, ?_⟩
      intro a ha b hb
      simp only [List.map_cons, List.map_nil, List.mem_singleton] at hb
      subst hb
      obtain ⟨c, hc, rfl⟩ := List.mem_map.1 ha
      exact hnot i ys c h1 hc
    · exact h.nodup i ys h1
  · intro i xs hpos hi
    simp only [levels_setValue, level_setValue] at *
    obtain ⟨ys, h1, rfl⟩ := hget i xs hi
    obtain ⟨a, rest, h3, h4, h5⟩ := h.decision i ys hpos h1
    have hne := hnot i ys a h1 (by simp [h3])
    refine ⟨a, if lvl ≤ i then rest ++ [⟨v, r⟩] else rest, ?_, by rw [hlv _ hne]; exact h4, h5⟩
    subst h3
    split <;> simp
  · intro w
    rw [isDefined_setValue _ _ _ _ hx]
    simp only [level_setValue]
    by_cases e : w = v
    · subst e; simp [hlvv]
    · rw [hlv w e, if_neg e]
      have : (t.propagate v r lvl).isDefined w = t.isDefined w := by
        rcases w with ⟨tw, ow⟩; cases tw <;> rfl
      rw [this]; exact h.defined w
  · intro w hw
    simp only [level_setValue, reason_setValue] at *
    by_cases e : w = v
    · subst e; rw [hlvv] at hw; cases hw
    · rw [hlv w e] at hw
      simp only [Trail.propagate, Function.update_of_ne e]
      exact h.noReason w hw

/-- Full description of the state after backtracking. -/
theorem backtrack_spec {t : Trail R} (h : Inv t) (L : Nat) (hL : L ≤ t.decisionLevel) :
    (t.backtrack L).levels = t.levels.take (L + 1) ∧
    (∀ v l, t.level v = some l → L < l → (t.backtrack L).level v = none ∧
      (t.backtrack L).reason v = none ∧ (t.backtrack L).isDefined v = false) ∧
    (∀ v, (∀ l, t.level v = some l → l ≤ L) → (t.backtrack L).level v = t.level v ∧
      (t.backtrack L).reason v = t.reason v ∧ (t.backtrack L).isDefined v = t.isDefined v) ∧
    (t.backtrack L).valueOf = t.valueOf ∧ (t.backtrack L).numVars = t.numVars := by
  have hlen := h.length_pos
  have hdl : t.decisionLevel = t.levels.length - 1 := rfl
  obtain ⟨h1, h2⟩ := popLevels_clearedTo L (t.decisionLevel - L) t (by omega)
  have hlen' : t.levels.length - (t.decisionLevel - L) = L + 1 := by omega
  rw [hlen'] at h1 h2
  refine ⟨h2, ?_, ?_, h1.values, h1.nums⟩
  · intro v l hl hlt
    obtain ⟨xs, hx, ha⟩ := h.own v l hl
    exact h1.gone v l ⟨l, xs, by omega, hx, ha⟩ hl hlt
  · intro v hv
    exact h1.kept v (Or.inr hv)

theorem decisionLevel_backtrack {t : Trail R} (h : Inv t) (L : Nat) (hL : L ≤ t.decisionLevel) :
    (t.backtrack L).decisionLevel = L := by
  have hlen := h.length_pos
  have hdl : t.decisionLevel = t.levels.length - 1 := rfl
  simp only [decisionLevel, (backtrack_spec h L hL).1, List.length_take]
  omega

theorem backtrack_inv {t : Trail R} (h : Inv t) (L : Nat) (hL : L ≤ t.decisionLevel) :
    Inv (t.backtrack L) := by
  have hlen := h.length_pos
  have hdl : t.decisionLevel = t.levels.length - 1 := rfl
  obtain ⟨hlev, hgone, hkept, -, hnum⟩ := backtrack_spec h L hL
  have hget : ∀ i xs, (t.backtrack L).levels[i]? = some xs → t.levels[i]? = some xs ∧ i ≤ L := by
    intro i xs hi
    rw [hlev, List.getElem?_take] at hi
    split at hi
    · exact ⟨hi, by omega⟩
    · cases hi
  have hput : ∀ i, i ≤ L → (t.backtrack L).levels[i]? = t.levels[i]? := by
    intro i hi
    rw [hlev, List.getElem?_take, if_pos (by omega)]
  have hback : ∀ v l, (t.backtrack L).level v = some l → t.level v = some l ∧ l ≤ L := by
    intro v l hl
    rcases hv : t.level v with _ | l'
    · rw [(hkept v (by simp [hv])).1, hv] at hl; cases hl
    · by_cases hlt : L < l'
      · rw [(hgone v l' hv hlt).1] at hl; cases hl
      · rw [(hkept v (by intro l hl; rw [hv] at hl; cases hl; omega)).1, hv] at hl
        cases hl; exact ⟨rfl, by omega⟩
  have hfwd : ∀ v l, t.level v = some l → l ≤ L →
      (t.backtrack L).level v = some l ∧ (t.backtrack L).reason v = t.reason v := by
    intro v l hl hle
    have := hkept v (by intro l' hl'; rw [hl] at hl'; cases hl'; exact hle)
    exact ⟨this.1.trans hl, this.2.1⟩
  refine ⟨?_, ?_, ?_, ?_, ?_, ?_, ?_, ?_, ?_, ?_⟩
  · rw [hlev]; simp [h.nonempty]
  · intro v l hl; rw [hnum]; exact h.range v l (hback v l hl).1
  · intro v l hl; rw [decisionLevel_backtrack h L hL]; exact (hback v l hl).2
  · intro i xs a hi ha
    obtain ⟨h1, h2⟩ := hget i xs hi
    obtain ⟨l, h3, h4, h5⟩ := h.listed i xs a h1 ha
    obtain ⟨h6, h7⟩ := hfwd _ _ h3 (by omega)
    exact ⟨l, h6, h4, h7.trans h5⟩
  · intro v l hl
    obtain ⟨h1, h2⟩ := hback v l hl
    obtain ⟨xs, h3, h4⟩ := h.own v l h1
    exact ⟨xs, by rw [hput l h2]; exact h3, h4⟩
  · intro v l i j xs ys hl hli hij hj hw hi
    exact h.interval v l i j xs ys (hback v l hl).1 hli hij (hget j xs hj).1 hw (hget i ys hi).1
  · intro i xs hi; exact h.nodup i xs (hget i xs hi).1
  · intro i xs hpos hi
    obtain ⟨h1, h2⟩ := hget i xs hi
    obtain ⟨a, rest, h3, h4, h5⟩ := h.decision i xs hpos h1
    exact ⟨a, rest, h3, (hfwd _ _ h4 h2).1, h5⟩
  · intro v
    rcases hv : t.level v with _ | l'
    · obtain ⟨h1, -, h3⟩ := hkept v (by simp [hv])
      rw [h1, h3]; exact h.defined v
    · by_cases hlt : L < l'
      · obtain ⟨h1, -, h3⟩ := hgone v l' hv hlt
        rw [h1, h3]; simp
      · obtain ⟨h1, -, h3⟩ := hkept v (by intro l hl; rw [hv] at hl; cases hl; omega)
        rw [h1, h3]; exact h.defined v
  · intro v hv
    rcases hv' : t.level v with _ | l'
    · rw [(hkept v (by simp [hv'])).2.1]; exact h.noReason v hv'
    · by_cases hlt : L < l'
      · exact (hgone v l' hv' hlt).2.1
      · rw [(hfwd v l' hv' (by omega)).1] at hv; cases hv

theorem clear_inv (t : Trail R) : Inv t.clear := by
  have hlev : t.clear.level = fun _ => none := rfl
  have hget : ∀ i xs, t.clear.levels[i]? = some xs → i = 0 ∧ xs = [] := by
    intro i xs hi
    rcases i with _ | i <;> simp [clear] at hi
    exact ⟨rfl, hi⟩
  refine ⟨by simp [clear], by simp [hlev], by simp [hlev], ?_, by simp [hlev], by simp [hlev],
    ?_, ?_, ?_, ?_⟩
  · intro i xs a hi ha; rw [(hget i xs hi).2] at ha; cases ha
  · intro i xs hi; rw [(hget i xs hi).2]; simp
  · intro i xs hpos hi; have := (hget i xs hi).1; omega
  · intro v
    rcases v with ⟨tv, ov⟩; cases tv <;> simp [clear, isDefined, PModel.clearAll]
  · intro v _; rfl

theorem numVars_resize (t : Trail R) (ty ty' : VType) (n : Nat) :
    (t.resize ty n).numVars ty' = if ty' = ty then n else t.numVars ty' := by
  cases ty <;> cases ty' <;> simp [resize, numVars, PModel.resize]

theorem level_resize (t : Trail R) (h : Inv t) (ty : VType) (n : Nat)
    (hn : ∀ v l, v.type = ty → t.level v = some l → v.ord < n) :
    (t.resize ty n).level = t.level ∧ (t.resize ty n).reason = t.reason ∧
    (t.resize ty n).isDefined = t.isDefined ∧ (t.resize ty n).levels = t.levels := by
  have key : ∀ v, (v.type != ty || (Decidable.decide (v.ord < t.numVars ty) &&
      Decidable.decide (v.ord < n))) = false → t.level v = none := by
    intro v hv
    rcases hl : t.level v with _ | l
    · rfl
    · simp only [Bool.or_eq_false_iff, bne_eq_false_iff_eq, Bool.and_eq_false_iff,
        decide_eq_false_iff_not] at hv
      have h1 := hn v l hv.1 hl
      have h2 := h.range v l hl
      rw [hv.1] at h2
      omega
  refine ⟨?_, ?_, ?_, by cases ty <;> rfl⟩
  · funext v
    have : (t.resize ty n).level v = if (v.type != ty || (Decidable.decide (v.ord < t.numVars ty) &&
      Decidable.decide (v.ord < n))) then t.level v else none := by cases ty <;> rfl
    rw [this]
    split
    · rfl
    · rename_i hc; rw [key v (by simpa using hc)]
  · funext v
    have : (t.resize ty n).reason v = if (v.type != ty || (Decidable.decide (v.ord < t.numVars ty) &&
      Decidable.decide (v.ord < n))) then t.reason v else none := by cases ty <;> rfl
    rw [this]
    split
    · rfl
    · rename_i hc; rw [h.noReason v (key v (by simpa using hc))]
  · funext v
    have hd := h.defined v
    by_cases hk : (v.type != ty || (Decidable.decide (v.ord < t.numVars ty) &&
      Decidable.decide (v.ord < n))) = true
    · have hk' : v.type ≠ ty ∨ (v.ord < t.numVars ty ∧ v.ord < n) := by simpa using hk
      clear hk key hn
      rcases v with ⟨tv, ov⟩
      cases ty <;> cases tv <;> simp_all [resize, isDefined, PModel.resize, numVars]
    · have hl := key v (by simpa using hk)
      have hk' : ¬ (v.type ≠ ty ∨ (v.ord < t.numVars ty ∧ v.ord < n)) := by simpa using hk
      clear hk key hn
      rw [hl] at hd
      have hf : t.isDefined v = false := by
        cases hh : t.isDefined v
        · rfl
        · rw [hh] at hd; simp at hd
      rw [hf]
      rcases v with ⟨tv, ov⟩
      cases ty <;> cases tv <;> simp_all [resize, isDefined, PModel.resize, numVars]

theorem resize_inv {t : Trail R} (h : Inv t) (ty : VType) (n : Nat)
    (hn : ∀ v l, v.type = ty → t.level v = some l → v.ord < n) : Inv (t.resize ty n) := by
  obtain ⟨h1, h2, h3, h4⟩ := level_resize t h ty n hn
  refine ⟨by rw [h4]; exact h.nonempty, ?_, ?_, ?_, ?_, ?_, ?_, ?_, ?_, ?_⟩
  · intro v l hl
    rw [h1] at hl
    rw [numVars_resize]
    split
    · exact hn v l (by assumption) hl
    · exact h.range v l hl
  · intro v l hl; rw [h1] at hl; simpa [decisionLevel, h4] using h.bound v l hl
  · rw [h1, h2, h4]; exact h.listed
  · rw [h1, h4]; exact h.own
  · rw [h1, h4]; exact h.interval
  · rw [h4]; exact h.nodup
  · rw [h1, h4]; exact h.decision
  · rw [h1, h3]; exact h.defined
  · rw [h1, h2]; exact h.noReason

end Trail
end Yaga
