/-
Changes of the trail and the repository that assign nothing, and the invariant of the watch lists.
-/
import Verif.Proofs.LraBase
import Verif.Proofs.LraNew
import Verif.Model.LraPluginHistory

set_option linter.unusedSimpArgs false
set_option linter.unusedVariables false

namespace Yaga
open Spec
open LinStore (delta WfTerms Inv Kept Made)

namespace LA
open Lra
variable {R : Type} {hv : Nat → Nat} {hc : ℚ → Nat} {t t' : Trail R} {s s' : LinStore} {b b' : BState}
variable {X Y X' Y' : Nat → Nat → Prop}

theorem Sem.backtrack (hB : Base hv hc t s b) (h : Sem t s b X Y) {k : Nat} (hk : k ≤ t.decisionLevel) :
    Sem (t.backtrack k) s b X Y := by
  have hcl := cleared_popLevels (hv := hv) (hc := hc) (s := s) (b := b) k (t.decisionLevel - k) t
  obtain ⟨hlv, hgone, hkept, hval, _⟩ := Trail.backtrack_spec hB.tinv k hk
  have hvb : ∀ o, (t.backtrack k).bools.value o = t.bools.value o := fun o => by
    have := congrFun hval ⟨.boolean, o⟩
    simpa [Trail.valueOf] using this
  have hvr : ∀ o, (t.backtrack k).rats.value o = t.rats.value o := fun o => by
    have := congrFun hval ⟨.rational, o⟩
    simpa [Trail.valueOf] using this
  have hdl := Trail.decisionLevel_backtrack hB.tinv k hk
  have hbt : (t.backtrack k).bools.ts = t.bools.ts := hcl.bts
  have hrt : (t.backtrack k).rats.ts = t.rats.ts := hcl.rts
  have hlev : ∀ v l, l ≤ k → (t.level v = some l ↔ (t.backtrack k).level v = some l) := by
    intro v l hl
    constructor
    · intro e
      rw [(hkept v (fun l' hl' => by rw [e] at hl'; cases hl'; exact hl)).1]; exact e
    · intro e
      cases e' : t.level v with
      | none =>
        rw [(hkept v (fun l' hl' => by rw [e'] at hl'; cases hl')).1, e'] at e; exact e
      | some l' =>
        rcases Nat.lt_or_ge k l' with h1 | h1
        · rw [(hgone v l' e' h1).1] at e; cases e
        · rw [(hkept v (fun l'' hl' => by rw [e'] at hl'; cases hl'; exact h1)).1, e'] at e; exact e
  refine Sem.env hB (Trail.backtrack_inv hB.tinv k hk) (by omega) hB.inv (Kept.refl s) (fun j hj => ?_)
    (fun d hd => Or.inl hd) (fun _ _ _ h => h) (fun _ _ _ h => h) h
  rw [hdl] at hj
  refine ⟨ext_cut (fun o l hl hlj => ?_) (fun o l hl hlj => ?_),
    ext_cut (fun o l hl hlj => ?_) (fun o l hl hlj => ?_)⟩
  · exact ⟨⟨l, (hlev _ l (by omega)).mp hl, hlj⟩, hvb o, by rw [hbt]⟩
  · exact ⟨⟨l, (hlev _ l (by omega)).mp hl, hlj⟩, hvr o, by rw [hrt]⟩
  · exact ⟨⟨l, (hlev _ l (by omega)).mpr hl, hlj⟩, (hvb o).symm, by rw [hbt]⟩
  · exact ⟨⟨l, (hlev _ l (by omega)).mpr hl, hlj⟩, (hvr o).symm, by rw [hrt]⟩

theorem vars_ne (hI : Inv s) {e : LinCons} (he : e ∈ s.set) (h : s.terms e ≠ []) : s.varsOf e ≠ [] := by
  rw [LinStore.varsOf_eq hI.len (hI.rng e he).2]
  simpa using h

theorem Base.vars_ne (hB : Base hv hc t s b) {c : LinCons} (hcc : IsCons s c) : s.varsOf c ≠ [] := by
  obtain ⟨e, he, hce⟩ := hcc
  have : s.varsOf c = s.varsOf e := by rcases hce with r | r <;> rw [r]; rfl
  rw [this]
  exact LA.vars_ne hB.inv he (hB.ne e he)

theorem Sem.clear (hB : Base hv hc t s b) : Sem t.clear s b X Y := by
  refine ⟨fun c hc' hd v hv => ?_, fun k _ o _ e he heo hy => ?_, fun k _ o _ => ?_⟩
  · have : (mods t.clear).bools.defined c.lit.ord = false := rfl
    unfold evalLit at hv
    rw [this] at hv
    cases hv
  · exfalso
    have hne := hB.vars_ne ⟨e, he, Or.inl rfl⟩
    obtain ⟨y, hyv⟩ := List.exists_mem_of_ne_nil _ hne
    have := hy y hyv
    rw [cut_r] at this
    obtain ⟨l, hl, _⟩ := this
    cases hl
  · refine compO_of_undef ?_
    by_contra hcon
    rw [Bool.not_eq_false, cut_b] at hcon
    obtain ⟨l, hl, _⟩ := hcon
    cases hl

theorem resize_ext (ht : t.Inv) (ty : VType) {n : Nat} (hn : t.numVars ty ≤ n) (k : Nat) :
    Ext (cut t k) (cut (t.resize ty n) k) ∧ Ext (cut (t.resize ty n) k) (cut t k) := by
  obtain ⟨h1, h2, h3⟩ := resize_same ht ty hn
  have hin : ∀ v l, t.level v = some l → v.ord < t.numVars v.type := fun v l h => ht.range v l h
  cases ty with
  | boolean =>
    have hb : ∀ o l, t.level ⟨.boolean, o⟩ = some l →
        (t.resize .boolean n).bools.value o = t.bools.value o ∧
        (t.resize .boolean n).bools.ts o = t.bools.ts o := by
      intro o l hl
      have ho : o < t.bools.num := hin _ _ hl
      have hn' : t.bools.num ≤ n := hn
      have : o < t.bools.num ∧ o < n := ⟨ho, by omega⟩
      simp [Trail.resize, PModel.resize, this]
    have hr : (t.resize .boolean n).rats = t.rats := rfl
    refine ⟨ext_cut (fun o l hl hlk => ⟨⟨l, by rw [h1]; exact hl, hlk⟩, hb o l hl⟩)
      (fun o l hl hlk => ⟨⟨l, by rw [h1]; exact hl, hlk⟩, by rw [hr], by rw [hr]⟩),
      ext_cut (fun o l hl hlk => ?_)
      (fun o l hl hlk => ⟨⟨l, by rw [h1] at hl; exact hl, hlk⟩, by rw [hr], by rw [hr]⟩)⟩
    rw [h1] at hl
    exact ⟨⟨l, hl, hlk⟩, (hb o l hl).1.symm, (hb o l hl).2.symm⟩
  | rational =>
    have hb : ∀ o l, t.level ⟨.rational, o⟩ = some l →
        (t.resize .rational n).rats.value o = t.rats.value o ∧
        (t.resize .rational n).rats.ts o = t.rats.ts o := by
      intro o l hl
      have ho : o < t.rats.num := hin _ _ hl
      have hn' : t.rats.num ≤ n := hn
      have : o < t.rats.num ∧ o < n := ⟨ho, by omega⟩
      simp [Trail.resize, PModel.resize, this]
    have hr : (t.resize .rational n).bools = t.bools := rfl
    refine ⟨ext_cut (fun o l hl hlk => ⟨⟨l, by rw [h1]; exact hl, hlk⟩, by rw [hr], by rw [hr]⟩)
      (fun o l hl hlk => ⟨⟨l, by rw [h1]; exact hl, hlk⟩, hb o l hl⟩),
      ext_cut
      (fun o l hl hlk => ⟨⟨l, by rw [h1] at hl; exact hl, hlk⟩, by rw [hr], by rw [hr]⟩)
      (fun o l hl hlk => ?_)⟩
    rw [h1] at hl
    exact ⟨⟨l, hl, hlk⟩, (hb o l hl).1.symm, (hb o l hl).2.symm⟩

theorem dl_resize (ht : t.Inv) (ty : VType) {n : Nat} (hn : t.numVars ty ≤ n) :
    (t.resize ty n).decisionLevel = t.decisionLevel := by
  unfold Trail.decisionLevel
  rw [(resize_same ht ty hn).2.1]

theorem Sem.resizeBool (hB : Base hv hc t s b) (h : Sem t s b X Y) {n : Nat} (hn : t.bools.num ≤ n) :
    Sem (t.resize .boolean n) (s.resize n) b X Y := by
  obtain ⟨h1, h2, h3⟩ := resize_same hB.tinv .boolean (n := n) hn
  have hlen : s.cons.length ≤ n := by
    have := hB.linv.len
    have h' : s.cons.length = t.bools.num := this
    omega
  obtain ⟨hI', hK⟩ := LinStore.resize_spec hB.inv hlen
  exact Sem.env hB h3 (le_of_eq (dl_resize hB.tinv .boolean hn)) hI' hK
    (fun k _ => resize_ext hB.tinv .boolean hn k) (fun d hd => Or.inl hd) (fun _ _ _ h => h)
    (fun _ _ _ h => h) h

theorem Sem.resizeRat (hB : Base hv hc t s b) (h : Sem t s b X Y) {n : Nat} (hn : t.rats.num ≤ n) :
    Sem (t.resize .rational n) s b X Y := by
  obtain ⟨h1, h2, h3⟩ := resize_same hB.tinv .rational (n := n) hn
  exact Sem.env hB h3 (le_of_eq (dl_resize hB.tinv .rational hn)) hB.inv (Kept.refl s)
    (fun k _ => resize_ext hB.tinv .rational hn k) (fun d hd => Or.inl hd) (fun _ _ _ h => h)
    (fun _ _ _ h => h) h

theorem swap_kept (hI : Inv s) {e : LinCons} (he : e ∈ s.set) {i j : Nat} (hi : i < e.size)
    (hj : j < e.size) : Inv (s.swapTerms e i j) ∧ Kept s (s.swapTerms e i j) := by
  have hg : s.get e.lit.ord = e := LinStore.get_of_mem hI he
  have := LinStore.swap_spec hI (ord := e.lit.ord) (by rw [hg]; exact hi) (by rw [hg]; exact hj)
  rw [hg] at this; exact this

theorem Sem.swap (hB : Base hv hc t s b) (h : Sem t s b X Y) {e : LinCons} (he : e ∈ s.set) {i j : Nat}
    (hi : i < e.size) (hj : j < e.size) : Sem t (s.swapTerms e i j) b X Y := by
  obtain ⟨hI', hK⟩ := swap_kept hB.inv he hi hj
  exact Sem.env hB hB.tinv (le_refl _) hI' hK (fun k _ => ⟨Ext.refl _, Ext.refl _⟩)
    (fun d hd => Or.inl hd) (fun _ _ _ h => h) (fun _ _ _ h => h) h

/-- The variables after an exchange. -/
theorem varsOf_swap (hI : Inv s) {e : LinCons} (he : e ∈ s.set) {i j : Nat} (hi : i < e.size)
    (hj : j < e.size) : (s.swapTerms e i j).varsOf e = LinStore.swapAt (s.varsOf e) i j := by
  have hr := hI.rng e he
  unfold LinCons.size at hi hj
  exact LinStore.slice_swapAt_inside (by omega) (by omega) hr.2

theorem varsOf_swap_other (hI : Inv s) {e d : LinCons} (he : e ∈ s.set) (hd : d ∈ s.set) (hde : d ≠ e)
    {i j : Nat} (hi : i < e.size) (hj : j < e.size) : (s.swapTerms e i j).varsOf d = s.varsOf d := by
  obtain ⟨hI', hK⟩ := swap_kept hI he hi hj
  have h1 := LinStore.swap_other hI he hd (Ne.symm hde) hi hj
  rw [LinStore.varsOf_eq hI'.len (hI'.rng d (hK.set d hd)).2, h1,
    LinStore.varsOf_eq hI.len (hI.rng d hd).2]

theorem varsOf_length (hI : Inv s) {e : LinCons} (he : e ∈ s.set) : (s.varsOf e).length = e.size :=
  LinStore.length_slice (hI.rng e he).2

theorem varsOf_nodup (hI : Inv s) {e : LinCons} (he : e ∈ s.set) : (s.varsOf e).Nodup := by
  rw [LinStore.varsOf_eq hI.len (hI.rng e he).2]
  exact (hI.wf e he).nodup

/-! ### Watch lists -/

/-- A variable with level `a` is unassigned by backtracking not later than one with level `b`; an
unassigned variable has level `none`. -/
def Ge (a b : Option Nat) : Prop := ∀ n, a = some n → ∃ m, b = some m ∧ m ≤ n

/-- The first two variables are the last ones to be assigned. -/
def WI (L : Nat → Option Nat) : List Nat → Prop
  | v0 :: v1 :: rest => Ge (L v0) (L v1) ∧ ∀ y ∈ rest, Ge (L v1) (L y)
  | _ => True

theorem Ge.none (b : Option Nat) : Ge .none b := fun n h => by cases h

theorem Ge.trans {a b c : Option Nat} (h1 : Ge a b) (h2 : Ge b c) : Ge a c := by
  intro n hn
  obtain ⟨m, hm, hle⟩ := h1 n hn
  obtain ⟨p, hp, hle2⟩ := h2 m hm
  exact ⟨p, hp, hle2.trans hle⟩

theorem Ge.eq_none {a : Option Nat} (h : Ge a .none) : a = .none := by
  cases a with
  | none => rfl
  | some n => obtain ⟨m, hm, _⟩ := h n rfl; cases hm

theorem WI.congr {L L' : Nat → Option Nat} {vs : List Nat} (h : ∀ y ∈ vs, L' y = L y) (hw : WI L vs) :
    WI L' vs := by
  match vs, hw, h with
  | [], _, _ => trivial
  | [_], _, _ => trivial
  | v0 :: v1 :: rest, hw, h =>
    refine ⟨by rw [h v0 (by simp), h v1 (by simp)]; exact hw.1, fun y hy => ?_⟩
    rw [h v1 (by simp), h y (by simp [hy])]
    exact hw.2 y hy

/-- All levels above `k` are removed. -/
theorem WI.cut {L L' : Nat → Option Nat} {k : Nat} (h : ∀ y l, L' y = some l ↔ (L y = some l ∧ l ≤ k))
    {vs : List Nat} (hw : WI L vs) : WI L' vs := by
  have key : ∀ a c, Ge (L a) (L c) → Ge (L' a) (L' c) := by
    intro a c hg n hn
    obtain ⟨h1, h2⟩ := (h a n).mp hn
    obtain ⟨m, hm, hle⟩ := hg n h1
    exact ⟨m, (h c m).mpr ⟨hm, hle.trans h2⟩, hle⟩
  match vs, hw with
  | [], _ => trivial
  | [_], _ => trivial
  | v0 :: v1 :: rest, hw => exact ⟨key _ _ hw.1, fun y hy => key _ _ (hw.2 y hy)⟩

theorem WI.none {L : Nat → Option Nat} (h : ∀ y, L y = .none) (vs : List Nat) : WI L vs := by
  match vs with
  | [] => trivial
  | [_] => trivial
  | v0 :: v1 :: rest =>
    exact ⟨by rw [h]; exact Ge.none _, fun y _ => by rw [h]; exact Ge.none _⟩

/-- An unassigned variable is assigned that is not among the first two. -/
theorem WI.assign {L : Nat → Option Nat} {x : Nat} {l : Option Nat} (hx : L x = .none) {vs : List Nat}
    (hw : WI L vs) (hn : x ∉ vs.take 2) : WI (Function.update L x l) vs := by
  match vs, hw, hn with
  | [], _, _ => trivial
  | [_], _, _ => trivial
  | v0 :: v1 :: rest, hw, hn =>
    have h0 : v0 ≠ x := fun e => hn (by simp [e])
    have h1 : v1 ≠ x := fun e => hn (by simp [e])
    refine ⟨?_, fun y hy => ?_⟩
    · rw [Function.update_of_ne h0, Function.update_of_ne h1]; exact hw.1
    · rw [Function.update_of_ne h1]
      have := hw.2 y hy
      by_cases hyx : y = x
      · rw [hyx, hx] at this
        rw [this.eq_none]; exact Ge.none _
      · rw [Function.update_of_ne hyx]; exact this

/-- The variable with the highest level is treated as unassigned. -/
theorem WI.forget {L : Nat → Option Nat} {x d : Nat} (hx : L x = some d)
    (hd : ∀ y l, L y = some l → l ≤ d ∧ (l = d → y = x)) {vs : List Nat} (hw : WI L vs) :
    WI (Function.update L x .none) vs := by
  have key : ∀ a c, Ge (L a) (L c) → Ge (Function.update L x .none a) (Function.update L x .none c) := by
    intro a c hg n hn
    by_cases ha : a = x
    · rw [ha, Function.update_self] at hn; cases hn
    · rw [Function.update_of_ne ha] at hn
      obtain ⟨m, hm, hle⟩ := hg n hn
      have hcx : c ≠ x := by
        intro e
        rw [e, hx] at hm
        cases hm
        obtain ⟨h1, h2⟩ := hd a n hn
        exact ha (h2 (le_antisymm h1 hle))
      rw [Function.update_of_ne hcx]
      exact ⟨m, hm, hle⟩
  match vs, hw with
  | [], _ => trivial
  | [_], _ => trivial
  | v0 :: v1 :: rest, hw => exact ⟨key _ _ hw.1, fun y hy => key _ _ (hw.2 y hy)⟩

/-- The watch lists. `Lf o` gives the levels that count for the constraint with ordinal `o`. -/
structure Wat (Lf : Nat → Nat → Option Nat) (s : LinStore) (w : Nat → List (LinCons × Nat)) : Prop where
  wi : ∀ e ∈ s.set, WI (Lf e.lit.ord) (s.varsOf e)
  mem : ∀ x c i, (c, i) ∈ w x → IsCons s c ∧ x ∈ (s.varsOf c).take 2 ∧ (2 < c.size → 2 ≤ i ∧ i < c.size)
  cov : ∀ e ∈ s.set, ∀ x ∈ (s.varsOf e).take 2, ∃ c i, (c, i) ∈ w x ∧ c.lit.ord = e.lit.ord
  uniq : ∀ x, ((w x).map (·.1.lit.ord)).Nodup

/-- Levels of the rational variables. -/
def lev (t : Trail R) (x : Nat) : Option Nat := t.level ⟨.rational, x⟩

/-- Ordinals of the constraints in a watch list. -/
def ords (l : List (LinCons × Nat)) : List Nat := l.map (·.1.lit.ord)

theorem Wat.congr {Lf Lf' : Nat → Nat → Option Nat} {w : Nat → List (LinCons × Nat)} (h : Wat Lf s w)
    (hw : ∀ e ∈ s.set, WI (Lf' e.lit.ord) (s.varsOf e)) : Wat Lf' s w :=
  ⟨hw, h.mem, h.cov, h.uniq⟩

/-- Everything the loops of the plugin keep. -/
structure Keep (hv : Nat → Nat) (hc : ℚ → Nat) (la : LA R) (X Y : Nat → Nat → Prop)
    (Lf : Nat → Nat → Option Nat) : Prop where
  base : Base hv hc la.trail la.store la.bnd
  ok : la.ok = true
  sem : Sem la.trail la.store la.bnd X Y
  wat : Wat Lf la.store la.watched

/-- A bound recorded by `propagate`. Its reason was assigned at the current level, or it uses the value of a
variable that was. -/
def NewB (la : LA R) (e : Bnd) : Prop :=
  IsCons la.store e.reason ∧
  ((Listed la.trail la.trail.decisionLevel e.reason.lit.ord ∧
      ∃ p ∈ la.store.terms e.reason, lev la.trail p.1 = none) ∨
   (e.deps = [] ∧ ∃ p ∈ la.store.terms e.reason, p.1 ≠ e.var ∧ lev la.trail p.1 = some la.trail.decisionLevel))

/-- What changes during a call of `propagate`. -/
structure Frame (la la' : LA R) : Prop where
  dl : la'.trail.decisionLevel = la.trail.decisionLevel
  rats : la'.trail.rats = la.trail.rats
  lev : ∀ x, lev la'.trail x = lev la.trail x
  asg : ∀ k, ∃ ext, la'.trail.assigned k = la.trail.assigned k ++ ext
  lvl : ∀ v l, la.trail.level v = some l → la'.trail.level v = some l
  kept : Kept la.store la'.store
  cur : la'.curLevel = la.curLevel
  nxt : la'.nextIndex = la.nextIndex
  bval : ∀ o l, la.trail.level ⟨.boolean, o⟩ = some l →
    la'.trail.bools.value o = la.trail.bools.value o
  num : la.trail.bools.num ≤ la'.trail.bools.num
  rsn : ∀ v, la'.trail.reason v = la.trail.reason v
  late : ∀ v l, la.trail.level v = none → la'.trail.level v = some l → v.type = .boolean ∧
    ∃ e ∈ la'.store.set, e.lit.ord = v.ord ∧
      ∀ p ∈ la'.store.terms e, ∃ k ≤ l, LA.lev la'.trail p.1 = some k
  add : ∀ k, ∀ a ∈ la'.trail.assigned k, a ∈ la.trail.assigned k ∨ la.trail.level a.var = none
  top : ∀ v l, la.trail.level v = none → la'.trail.level v = some l →
    ∃ a ∈ la'.trail.assigned la'.trail.decisionLevel, a.var = v
  dec : ∀ v l, la.trail.level v = none → la'.trail.level v = some l → ∃ x, LA.lev la'.trail x = some l
  new : ∀ k x, ∀ e ∈ Lra.lst la'.bnd k x, e ∈ Lra.lst la.bnd k x ∨ NewB la' e
  step : MStep (mods la.trail) (mods la'.trail)
  dom : ∀ e ∈ la'.store.set, e ∈ la.store.set ∨
    ∀ p ∈ la'.store.terms e, p.1 < la'.trail.rats.num

theorem Frame.refl (la : LA R) : Frame la la :=
  ⟨rfl, rfl, fun _ => rfl, fun _ => ⟨[], by simp⟩, fun _ _ h => h, Kept.refl _, rfl, rfl, fun _ _ _ => rfl, le_refl _, fun _ => rfl,
        fun _ _ h1 h2 => absurd (h1.symm.trans h2) (by simp), fun _ _ h => Or.inl h,
        fun _ _ h1 h2 => absurd (h1.symm.trans h2) (by simp),
        fun _ _ h1 h2 => absurd (h1.symm.trans h2) (by simp), fun _ _ _ h => Or.inl h, MStep.refl _,
        fun _ h => Or.inl h⟩

theorem NewB.of {la la' : LA R} {e : Bnd} (h : NewB la e) (hdl : la'.trail.decisionLevel = la.trail.decisionLevel)
    (hlev : ∀ x, lev la'.trail x = lev la.trail x)
    (hasg : ∀ k, ∃ ext, la'.trail.assigned k = la.trail.assigned k ++ ext)
    (hK : Kept la.store la'.store) : NewB la' e := by
  obtain ⟨h1, h2⟩ := h
  obtain ⟨hc, hp⟩ := h1.kept hK
  refine ⟨hc, ?_⟩
  rcases h2 with ⟨⟨a, ha, hav⟩, p, hp1, hp2⟩ | ⟨h0, p, hp1, hp2, hp3⟩
  · left
    obtain ⟨ext, hx⟩ := hasg la.trail.decisionLevel
    refine ⟨⟨a, ?_, hav⟩, p, hp.mem_iff.mpr hp1, (hlev _).trans hp2⟩
    rw [hdl, hx]; exact List.mem_append_left _ ha
  · right
    exact ⟨h0, p, hp.mem_iff.mpr hp1, hp2, by rw [hdl]; exact (hlev _).trans hp3⟩

theorem Frame.trans {a b c : LA R} (h1 : Frame a b) (h2 : Frame b c) : Frame a c where
  dl := h2.dl.trans h1.dl
  rats := h2.rats.trans h1.rats
  lev x := (h2.lev x).trans (h1.lev x)
  asg k := by
    obtain ⟨e1, h1'⟩ := h1.asg k
    obtain ⟨e2, h2'⟩ := h2.asg k
    exact ⟨e1 ++ e2, by rw [h2', h1', List.append_assoc]⟩
  lvl v l h := h2.lvl v l (h1.lvl v l h)
  kept := h1.kept.trans h2.kept
  cur := h2.cur.trans h1.cur
  nxt := h2.nxt.trans h1.nxt
  bval o l h := (h2.bval o l (h1.lvl _ l h)).trans (h1.bval o l h)
  num := h1.num.trans h2.num
  step := h1.step.trans h2.step
  dom e he := by
    rcases h2.dom e he with h | h
    · rcases h1.dom e h with h' | h'
      · exact Or.inl h'
      · refine Or.inr fun p hp => ?_
        rw [h2.rats]
        exact h' p ((h2.kept.terms e h).mem_iff.mp hp)
    · exact Or.inr h
  new k x e he := by
    rcases h2.new k x e he with h | h
    · rcases h1.new k x e h with h | h
      · exact Or.inl h
      · exact Or.inr (h.of h2.dl h2.lev h2.asg h2.kept)
    · exact Or.inr h
  rsn v := (h2.rsn v).trans (h1.rsn v)
  add k x ha := by
    rcases h2.add k x ha with h | h
    · exact h1.add k x h
    · right
      rcases hl : a.trail.level x.var with _ | l
      · rfl
      · rw [h1.lvl _ l hl] at h; cases h
  top v l ha hc := by
    rcases hb : b.trail.level v with _ | k
    · exact h2.top v l hb hc
    · obtain ⟨x, hx, e⟩ := h1.top v k ha hb
      obtain ⟨ext, he⟩ := h2.asg b.trail.decisionLevel
      exact ⟨x, by rw [h2.dl, he]; exact List.mem_append_left _ hx, e⟩
  dec v l ha hc := by
    rcases hb : b.trail.level v with _ | k
    · exact h2.dec v l hb hc
    · have hk : k = l := by
        have := h2.lvl v k hb
        rw [hc] at this; cases this; rfl
      subst hk
      obtain ⟨x, hx⟩ := h1.dec v k ha hb
      exact ⟨x, (h2.lev x).trans hx⟩
  late v l ha hc := by
    rcases hb : b.trail.level v with _ | k
    · exact h2.late v l hb hc
    · have hk : k = l := by
        have := h2.lvl v k hb
        rw [hc] at this; cases this; rfl
      subst hk
      obtain ⟨ht, e, he, heo, hp⟩ := h1.late v k ha hb
      refine ⟨ht, e, h2.kept.set e he, heo, fun p hp' => ?_⟩
      obtain ⟨j, hj, hl⟩ := hp p ((h2.kept.terms e he).subset hp')
      exact ⟨j, hj, (h2.lev p.1).trans hl⟩

variable {la : LA R} {Lf : Nat → Nat → Option Nat}

theorem Keep.check (h : Keep hv hc la X Y Lf) {c : Bool} (hc' : c = true) :
    Keep hv hc (la.check c) X Y Lf ∧ Frame la (la.check c) := by
  subst hc'
  refine ⟨⟨h.base, ?_, h.sem, h.wat⟩, ⟨rfl, rfl, fun _ => rfl, fun _ => ⟨[], by simp [LA.check]⟩,
    fun _ _ h => h, Kept.refl _, rfl, rfl, fun _ _ _ => rfl, le_refl _, fun _ => rfl,
        fun _ _ h1 h2 => absurd (h1.symm.trans h2) (by simp), fun _ _ h => Or.inl h,
        fun _ _ h1 h2 => absurd (h1.symm.trans h2) (by simp),
        fun _ _ h1 h2 => absurd (h1.symm.trans h2) (by simp), fun _ _ _ h => Or.inl h, MStep.refl _, fun _ h => Or.inl h⟩⟩
  show (la.ok && true) = true
  rw [h.ok]; rfl

theorem Keep.defined (h : Keep hv hc la X Y Lf) {x : Nat} :
    la.trail.rats.defined x = true ↔ ∃ l, lev la.trail x = some l := def_r h.base.tinv

theorem Keep.undefined (h : Keep hv hc la X Y Lf) {x : Nat} :
    la.trail.rats.defined x = false ↔ lev la.trail x = none := by
  rw [← Bool.not_eq_true, h.defined]
  cases lev la.trail x <;> simp

/-- The value of a fully assigned constraint agrees with its literal. -/
theorem Keep.checkValue (h : Keep hv hc la X Y Lf) {c : LinCons} (hcc : IsCons la.store c)
    (hb : la.trail.bools.defined c.lit.ord = true)
    (hf : ∀ y ∈ la.store.varsOf c, la.trail.rats.defined y = true) :
    Keep hv hc (la.checkValue c) X Y Lf ∧ Frame la (la.checkValue c) := by
  refine h.check ?_
  unfold LinStore.evalOpt
  rw [if_pos (List.all_eq_true.mpr hf)]
  have hev : evalLit la.trail.bools c.lit = some (la.trail.bools.value c.lit.ord == !c.lit.isNeg) := by
    unfold evalLit; rw [if_pos hb]
  rw [hev, beq_iff_eq, Option.some.injEq]
  have hv' := h.sem.vals c hcc (fun p hp => by
    refine hf p.1 ?_
    rw [hcc.varsOf h.base.inv]; exact List.mem_map.mpr ⟨p, hp, rfl⟩) _ hev
  rw [Bool.eq_iff_iff, hv', LinStore.eval_iff]
  unfold ConsTrue
  cases c.lit.isNeg <;> simp [mods]

/-- The assertions hold when the bound of a unit constraint is added. -/
theorem Keep.unitOk (h : Keep hv hc la X Y Lf) {c : LinCons} (hcc : IsCons la.store c)
    (hb : la.trail.bools.defined c.lit.ord = true) {x : Nat} {vs : List Nat}
    (hvs : la.store.varsOf c = x :: vs) (hx : la.trail.rats.defined x = false)
    (hd : ∀ y ∈ vs, la.trail.rats.defined y = true) : la.unitOk c = true := by
  have hvt : la.store.varsOf c = (la.store.terms c).map (·.1) := hcc.varsOf h.base.inv
  have hwf : WfTerms (la.store.terms c) := hcc.terms_wf h.base.inv
  unfold LA.unitOk
  rw [hb, Bool.true_and]
  cases ht : la.store.terms c with
  | nil => rw [hvs, ht] at hvt; cases hvt
  | cons p ps =>
    rw [hvs, ht] at hvt
    simp only [List.map_cons, List.cons.injEq] at hvt
    have hnz : p.2 ≠ 0 := hwf.nz p (by rw [ht]; exact List.mem_cons_self)
    have hall : (ps.all fun q => la.trail.rats.defined q.1) = true := by
      rw [List.all_eq_true]
      intro q hq
      exact hd q.1 (by rw [hvt.2]; exact List.mem_map.mpr ⟨q, hq, rfl⟩)
    have hp1 : la.trail.rats.defined p.1 = false := by rw [← hvt.1]; exact hx
    dsimp only
    rw [hall, hp1]
    generalize (if evalLit la.trail.bools c.lit = some true then c else c.neg) = d
    by_cases he : d.pred = .eq
    · simp [hnz, he]
    · rcases lt_or_gt_of_ne hnz with h1 | h1 <;> cases hn : d.lit.isNeg <;>
        simp [hnz, he, BState.impliesLower, BState.impliesUpper, hn, h1, h1.le, not_lt_of_gt h1]

/-- The literal of a unit constraint is on the trail, the bound is added. -/
theorem Keep.unit (h : Keep hv hc la X Y Lf) {c : LinCons} (hcc : IsCons la.store c)
    (hb : la.trail.bools.defined c.lit.ord = true) {x : Nat} {vs : List Nat}
    (hvs : la.store.varsOf c = x :: vs) (hx : la.trail.rats.defined x = false)
    (hd : ∀ y ∈ vs, la.trail.rats.defined y = true)
    (hnow : Listed la.trail la.trail.decisionLevel c.lit.ord ∨
      ∃ y ∈ vs, lev la.trail y = some la.trail.decisionLevel) :
    Keep hv hc (la.unit c) X (fun k o => Y k o ∧ ¬ (k = la.trail.decisionLevel ∧ o = c.lit.ord)) Lf ∧
      Frame la (la.unit c) := by
  have eu : la.unit c = { la with bnd := la.bnd.update la.store la.models c } := by
    unfold LA.unit
    rw [h.unitOk hcc hb hvs hx hd]
    simp [LA.check]
  rw [eu]
  have hop : (Op.update c).Ok ⟨la.store, mods la.trail, la.bnd⟩ := ⟨hcc, hb, x, vs, hvs, hx, hd⟩
  have hst : Steps hv hc ⟨la.store, mods la.trail, la.bnd⟩
      ⟨la.store, mods la.trail, la.bnd.update la.store (mods la.trail) c⟩ :=
    Steps.step (.update c) (Steps.refl _) hop
  have hB' := h.base.steps hst
  have hS' := h.sem.bnd h.base (keepsAll_update la.store (mods la.trail) la.bnd c)
  have hF : FullO la.store (mods la.trail) c.lit.ord := fun e he heo _ => hb
  have hC : CompO la.store (mods la.trail) (la.bnd.update la.store (mods la.trail) c) c.lit.ord := by
    intro c' hc' ho' hct y hy hyu hya q hq
    have hyx : y = x := by
      have : la.store.varsOf c' = la.store.varsOf c := by
        rcases IsCons.same_ord h.base.inv hc' hcc ho' with r | r <;> rw [r]; rfl
      rw [this, hvs] at hy
      rcases List.mem_cons.mp hy with e | e
      · exact e
      · have h2 := hd y e
        rw [show (mods la.trail).rats.defined y = la.trail.rats.defined y from rfl, h2] at hyu
        cases hyu
    subst hyx
    exact comp_update (st := ⟨la.store, mods la.trail, la.bnd⟩) h.base.linv hcc hb hvs hx hd hc' ho' hct hq
  refine ⟨⟨hB', h.ok, ?_, h.wat⟩, ⟨rfl, rfl, fun _ => rfl, fun _ => ⟨[], by simp⟩,
    fun _ _ h => h, Kept.refl _, rfl, rfl, fun _ _ _ => rfl, le_refl _, fun _ => rfl,
        fun _ _ h1 h2 => absurd (h1.symm.trans h2) (by simp), fun _ _ h => Or.inl h,
        fun _ _ h1 h2 => absurd (h1.symm.trans h2) (by simp),
        fun _ _ h1 h2 => absurd (h1.symm.trans h2) (by simp), fun k y e he => ?_, MStep.refl _, fun _ h => Or.inl h⟩⟩
  rotate_left
  · rcases (newIn_update la.store (mods la.trail) la.bnd c).2 k y e he with h' | ⟨-, hr, hdp, hvr⟩
    · exact Or.inl h'
    · right
      have hvt : la.store.varsOf c = (la.store.terms c).map (·.1) := hcc.varsOf h.base.inv
      have hter : la.store.terms e.reason = la.store.terms c := by rcases hr with r | r <;> rw [r]; rfl
      have hord : e.reason.lit.ord = c.lit.ord := by
        rcases hr with r | r <;> rw [r]; exact LinStore.Lit.neg_ord _
      have hcr : IsCons la.store e.reason := by
        rcases hr with r | r
        · rw [r]; exact hcc
        · rw [r]; exact hcc.neg
      have hnd : (la.store.varsOf c).Nodup := by
        obtain ⟨d, hd1, hd2⟩ := hcc
        have e1 : la.store.varsOf c = la.store.varsOf d := by rcases hd2 with r | r <;> rw [r]; rfl
        rw [e1]; exact varsOf_nodup h.base.inv hd1
      have hvx : e.var = x := by
        rw [hvr]
        rw [hvs] at hvt
        cases ht : la.store.terms c with
        | nil => rw [ht] at hvt; cases hvt
        | cons p ps => rw [ht] at hvt; injection hvt with h1 h2; exact h1.symm
      refine ⟨hcr, ?_⟩
      show (Listed la.trail la.trail.decisionLevel e.reason.lit.ord ∧ ∃ p ∈ la.store.terms e.reason, _) ∨ (_ ∧
        ∃ p ∈ la.store.terms e.reason, _)
      rw [hord, hter]
      have hmem : ∀ z ∈ x :: vs, ∃ p ∈ la.store.terms c, p.1 = z := by
        intro z hz
        rw [← hvs, hvt] at hz
        obtain ⟨p, hp, e⟩ := List.mem_map.mp hz
        exact ⟨p, hp, e⟩
      rcases hnow with hn | ⟨z, hz, hn⟩
      · left
        obtain ⟨p, hp, e⟩ := hmem x List.mem_cons_self
        exact ⟨hn, p, hp, by rw [e]; exact h.undefined.mp hx⟩
      · right
        obtain ⟨p, hp, e⟩ := hmem z (List.mem_cons_of_mem _ hz)
        refine ⟨hdp, p, hp, ?_, by rw [e]; exact hn⟩
        rw [hvx, e]
        rintro rfl
        rw [hvs] at hnd
        exact (List.nodup_cons.mp hnd).1 hz
  exact (hS'.done hB' hF hC).mono (fun _ _ _ h => h.1) (fun _ _ _ h => h)

theorem foldl_max (f : Nat → Nat) (l : List Nat) : ∀ a, a ≤ l.foldl (fun l x => max l (f x)) a ∧
    (∀ x ∈ l, f x ≤ l.foldl (fun l x => max l (f x)) a) ∧
    (l.foldl (fun l x => max l (f x)) a = a ∨ ∃ x ∈ l, l.foldl (fun l x => max l (f x)) a = f x) := by
  induction l with
  | nil => intro a; simp
  | cons y l ih =>
    intro a
    obtain ⟨h1, h2, h3⟩ := ih (max a (f y))
    simp only [List.foldl_cons]
    refine ⟨(le_max_left _ _).trans h1, ?_, ?_⟩
    · intro x hx
      rcases List.mem_cons.mp hx with e | e
      · rw [e]; exact (le_max_right _ _).trans h1
      · exact h2 x e
    · rcases h3 with e | ⟨x, hx, e⟩
      · rcases max_choice a (f y) with e2 | e2
        · left; rw [e, e2]
        · right; exact ⟨y, by simp, by rw [e, e2]⟩
      · right; exact ⟨x, by simp [hx], e⟩

/-- The literal of a fully assigned constraint is propagated. -/
theorem Keep.propagateCons (hB : Base hv hc la.trail la.store la.bnd) (hok : la.ok = true)
    {X Y : Nat → Nat → Prop} (hS : Sem la.trail la.store la.bnd X Y) (hW : Wat Lf la.store la.watched)
    {c : LinCons} (hcc : IsCons la.store c) (hb : la.trail.bools.defined c.lit.ord = false)
    (hf : ∀ y ∈ la.store.varsOf c, la.trail.rats.defined y = true) :
    Keep hv hc (la.propagateCons c) (fun k o => X k o ∧ o ≠ c.lit.ord)
      (fun k o => Y k o ∧ o ≠ c.lit.ord) Lf ∧
      Frame la (la.propagateCons c) ∧ (la.propagateCons c).trail.bools.defined c.lit.ord = true := by
  have hu : la.trail.level ⟨.boolean, c.lit.ord⟩ = none := by
    by_contra hcon
    obtain ⟨l, hl⟩ := Option.ne_none_iff_exists'.mp hcon
    rw [(def_b hB.tinv).mpr ⟨l, hl⟩] at hb
    cases hb
  have hord : c.lit.ord < la.trail.bools.num := by
    have := hB.linv.len
    have h2 : la.store.cons.length = la.trail.bools.num := this
    obtain ⟨e, he, hce⟩ := hcc
    have : c.lit.ord = e.lit.ord := by rcases hce with r | r <;> rw [r]; exact LinStore.Lit.neg_ord _
    obtain ⟨k, h3, h4⟩ := hB.inv.idx e he
    rw [this, h3, LinStore.Lit.pos_ord, ← h2]
    exact (List.getElem?_eq_some_iff.mp h4).1
  obtain ⟨_, hmx, hmx2⟩ := foldl_max (fun x => (la.level x).getD 0) (la.store.varsOf c) 0
  have hmxe : la.maxLevel c = (la.store.varsOf c).foldl (fun l x => max l ((la.level x).getD 0)) 0 := rfl
  rw [← hmxe] at hmx hmx2
  have hlev : ∀ y ∈ la.store.varsOf c, ∃ l, la.level y = some l ∧ l ≤ la.trail.decisionLevel := by
    intro y hy
    obtain ⟨l, hl⟩ := (def_r hB.tinv).mp (hf y hy)
    exact ⟨l, hl, hB.tinv.bound _ _ hl⟩
  have hlvl : la.maxLevel c ≤ la.trail.decisionLevel := by
    rcases hmx2 with e | ⟨x, hx, e⟩
    · omega
    · obtain ⟨l, hl, hle⟩ := hlev x hx
      rw [e, hl]; exact hle
  set x := xor c.lit.isNeg (la.store.eval la.trail.rats c) with hxd
  have hB' : Base hv hc ((la.trail.propagate ⟨.boolean, c.lit.ord⟩ none (la.maxLevel c)).setValue
      ⟨.boolean, c.lit.ord⟩ (.b x)) la.store la.bnd := hB.setBool hord hu hlvl
  have hdl : ((la.trail.propagate ⟨.boolean, c.lit.ord⟩ none (la.maxLevel c)).setValue
      ⟨.boolean, c.lit.ord⟩ (.b x)).decisionLevel = la.trail.decisionLevel := by
    unfold Trail.decisionLevel
    rw [Trail.levels_setValue]
    simp [Trail.propagate]
  have hS' : Sem ((la.trail.propagate ⟨.boolean, c.lit.ord⟩ none (la.maxLevel c)).setValue
      ⟨.boolean, c.lit.ord⟩ (.b x)) la.store la.bnd (fun k o => X k o ∧ o ≠ c.lit.ord)
      (fun k o => Y k o ∧ o ≠ c.lit.ord) := by
    refine Sem.assignBool hB hS (o := c.lit.ord) (lvl := la.maxLevel c) (x := x) hB'.tinv
      (Trail.level_setValue ..) rfl rfl hu ?_ ?_ ?_ ?_ ?_
    · intro d hd hdo _
      have key : ∀ d, IsCons la.store d → d.lit.ord = c.lit.ord →
          ((x == !d.lit.isNeg) = true ↔ ConsTrue la.store d la.trail.rats.value) := by
        intro d hd hdo
        have hc0 : (x == !c.lit.isNeg) = true ↔ ConsTrue la.store c la.trail.rats.value := by
          have he := LinStore.eval_iff la.store la.trail.rats c
          have h3 : (x == !c.lit.isNeg) = la.store.eval la.trail.rats c := by
            rw [hxd]; cases c.lit.isNeg <;> cases la.store.eval la.trail.rats c <;> rfl
          rw [h3, he]
          unfold ConsTrue
          cases c.lit.isNeg <;> simp
        rcases IsCons.same_ord hB.inv hd hcc hdo with e | e
        · rw [e]; exact hc0
        · rw [e, consTrue_neg, ← hc0]
          show (x == !c.lit.neg.isNeg) = true ↔ _
          rw [LinStore.Lit.neg_isNeg]
          cases x <;> cases c.lit.isNeg <;> simp
      exact key d hd hdo
    · intro k hk hkl _ e he heo hy
      exfalso
      have hve : la.store.varsOf c = la.store.varsOf e := by
        rcases IsCons.of_ord hB.inv he hcc heo.symm with r | r <;> rw [r]; rfl
      rcases hmx2 with e0 | ⟨z, hz, e0⟩
      · omega
      · have := hy z (hve ▸ hz)
        rw [cut_r] at this
        obtain ⟨l, hl, hlk⟩ := this
        rw [e0] at hkl
        have : (la.level z).getD 0 = l := by
          show (la.trail.level ⟨.rational, z⟩).getD 0 = l
          rw [hl]; rfl
        omega
    · intro k hk hkl _
      refine compO_of_full hB.inv hcc (fun y hy => ?_)
      rw [cut_r]
      obtain ⟨l, hl, _⟩ := hlev y hy
      refine ⟨l, ?_, ?_⟩
      · rw [Trail.level_setValue]
        show Function.update la.trail.level ⟨.boolean, c.lit.ord⟩ (some (la.maxLevel c)) ⟨.rational, y⟩ = _
        rw [Function.update_of_ne (by simp)]
        exact hl
      · have := hmx y hy
        rw [hl] at this
        exact le_trans this hkl
    · intro k hk o' ho' hx
      rw [hdl] at hk
      rw [min_eq_left hk] at hx
      exact ⟨hx, ho'⟩
    · intro k hk o' ho' hx
      rw [hdl] at hk
      rw [min_eq_left hk] at hx
      exact ⟨hx, ho'⟩
  have hchk : ((evalLit la.trail.bools c.lit).isNone &&
      (la.store.varsOf c).all fun x => (la.level x).isSome) = true := by
    rw [Bool.and_eq_true]
    refine ⟨?_, List.all_eq_true.mpr fun y hy => ?_⟩
    · unfold evalLit; rw [if_neg (by rw [hb]; simp)]; rfl
    · obtain ⟨l, hl, _⟩ := hlev y hy; rw [hl]; rfl
  refine ⟨⟨hB', ?_, hS', hW⟩, ⟨hdl, rfl, fun y => ?_, fun k => ?_, fun v l hl => ?_, Kept.refl _, rfl, rfl, fun o l hl => ?_,
    le_refl _, fun v => ?_, fun v l h1 h2 => ?_, fun k a ha => ?_, fun v l h1 h2 => ?_, fun v l h1 h2 => ?_,
    fun _ _ _ h => Or.inl h, ⟨PStep.setValue _ _ _, PStep.refl _⟩, fun _ h => Or.inl h⟩, ?_⟩
  · show (la.ok && _) = true
    rw [hok, hchk]; rfl
  · show ((la.trail.propagate ⟨.boolean, c.lit.ord⟩ none (la.maxLevel c)).setValue
      ⟨.boolean, c.lit.ord⟩ (.b x)).level _ = _
    rw [Trail.level_setValue]
    show Function.update la.trail.level ⟨.boolean, c.lit.ord⟩ (some (la.maxLevel c)) ⟨.rational, y⟩ = _
    rw [Function.update_of_ne (by simp)]
    rfl
  · show ∃ ext, ((la.trail.propagate ⟨.boolean, c.lit.ord⟩ none (la.maxLevel c)).setValue
      ⟨.boolean, c.lit.ord⟩ (.b x)).assigned k = _
    unfold Trail.assigned
    rw [Trail.levels_setValue]
    show ∃ ext, (Trail.pushFrom _ (la.maxLevel c) la.trail.levels).getD k [] = _
    rw [List.getD_eq_getElem?_getD, Trail.getElem?_pushFrom, List.getD_eq_getElem?_getD]
    cases la.trail.levels[k]? with
    | none => exact ⟨[], rfl⟩
    | some xs =>
      simp only [Option.map_some, Option.getD_some]
      split
      · exact ⟨_, rfl⟩
      · exact ⟨[], by simp⟩
  · show ((la.trail.propagate ⟨.boolean, c.lit.ord⟩ none (la.maxLevel c)).setValue
      ⟨.boolean, c.lit.ord⟩ (.b x)).level v = _
    rw [Trail.level_setValue]
    show Function.update la.trail.level ⟨.boolean, c.lit.ord⟩ (some (la.maxLevel c)) v = _
    rw [Function.update_of_ne (fun e => by rw [e, hu] at hl; cases hl)]
    exact hl
  · show Function.update la.trail.bools.value c.lit.ord x o = _
    rw [Function.update_of_ne (fun e => by rw [e, hu] at hl; cases hl)]
  · show ((la.trail.propagate ⟨.boolean, c.lit.ord⟩ none (la.maxLevel c)).setValue
      ⟨.boolean, c.lit.ord⟩ (.b x)).reason v = _
    rw [Trail.reason_setValue]
    show Function.update la.trail.reason ⟨.boolean, c.lit.ord⟩ none v = _
    by_cases e : v = ⟨.boolean, c.lit.ord⟩
    · rw [e, Function.update_self]
      rcases hr : la.trail.reason ⟨.boolean, c.lit.ord⟩ with _ | r
      · rfl
      · have := (hB.tinv.noReason _ hu)
        rw [this] at hr; cases hr
    · rw [Function.update_of_ne e]
  · have h2' : Function.update la.trail.level ⟨.boolean, c.lit.ord⟩ (some (la.maxLevel c)) v = some l := by
      have : ((la.trail.propagate ⟨.boolean, c.lit.ord⟩ none (la.maxLevel c)).setValue
        ⟨.boolean, c.lit.ord⟩ (.b x)).level v = some l := h2
      rw [Trail.level_setValue] at this
      exact this
    by_cases e : v = ⟨.boolean, c.lit.ord⟩
    · subst e
      rw [Function.update_self] at h2'
      cases h2'
      obtain ⟨e, he, hce⟩ := hcc
      have hvars : la.store.varsOf c = la.store.varsOf e := by rcases hce with r | r <;> rw [r]; rfl
      refine ⟨rfl, e, he, ?_, fun p hp => ?_⟩
      · rcases hce with r | r <;> rw [r]; exact (LinStore.Lit.neg_ord _).symm
      · have hy : p.1 ∈ la.store.varsOf c := by
          rw [hvars, LinStore.varsOf_eq hB.inv.len (hB.inv.rng e he).2]
          exact List.mem_map.mpr ⟨p, hp, rfl⟩
        obtain ⟨j, hj, -⟩ := hlev p.1 hy
        have hle := hmx p.1 hy
        rw [hj] at hle
        refine ⟨j, hle, ?_⟩
        show ((la.trail.propagate ⟨.boolean, c.lit.ord⟩ none (la.maxLevel c)).setValue
          ⟨.boolean, c.lit.ord⟩ (.b x)).level ⟨.rational, p.1⟩ = _
        rw [Trail.level_setValue]
        show Function.update la.trail.level ⟨.boolean, c.lit.ord⟩ (some (la.maxLevel c)) ⟨.rational, p.1⟩ = _
        rw [Function.update_of_ne (by simp)]
        exact hj
    · rw [Function.update_of_ne e, h1] at h2'; cases h2'
  · have ha' : a ∈ ((la.trail.propagate ⟨.boolean, c.lit.ord⟩ none (la.maxLevel c)).setValue
      ⟨.boolean, c.lit.ord⟩ (.b x)).assigned k := ha
    unfold Trail.assigned at ha' ⊢
    rw [Trail.levels_setValue] at ha'
    change a ∈ (Trail.pushFrom _ (la.maxLevel c) la.trail.levels).getD k [] at ha'
    rw [List.getD_eq_getElem?_getD, Trail.getElem?_pushFrom] at ha'
    rw [List.getD_eq_getElem?_getD]
    cases hk : la.trail.levels[k]? with
    | none => rw [hk] at ha'; simp at ha'
    | some xs =>
      rw [hk] at ha'
      simp only [Option.map_some, Option.getD_some] at ha' ⊢
      split at ha'
      · rcases List.mem_append.mp ha' with h | h
        · exact Or.inl h
        · right
          rw [List.mem_singleton.mp h]
          exact hu
      · exact Or.inl ha'
  · have h2' : Function.update la.trail.level ⟨.boolean, c.lit.ord⟩ (some (la.maxLevel c)) v = some l := by
      have : ((la.trail.propagate ⟨.boolean, c.lit.ord⟩ none (la.maxLevel c)).setValue
        ⟨.boolean, c.lit.ord⟩ (.b x)).level v = some l := h2
      rw [Trail.level_setValue] at this
      exact this
    by_cases e : v = ⟨.boolean, c.lit.ord⟩
    · subst e
      refine ⟨⟨⟨.boolean, c.lit.ord⟩, none⟩, ?_, rfl⟩
      show _ ∈ ((la.trail.propagate ⟨.boolean, c.lit.ord⟩ none (la.maxLevel c)).setValue
        ⟨.boolean, c.lit.ord⟩ (.b x)).assigned ((la.trail.propagate ⟨.boolean, c.lit.ord⟩ none
          (la.maxLevel c)).setValue ⟨.boolean, c.lit.ord⟩ (.b x)).decisionLevel
      rw [hdl]
      unfold Trail.assigned
      rw [Trail.levels_setValue]
      show _ ∈ (Trail.pushFrom _ (la.maxLevel c) la.trail.levels).getD _ []
      rw [List.getD_eq_getElem?_getD, Trail.getElem?_pushFrom]
      have hlen := hB.tinv.length_pos
      have : la.trail.decisionLevel < la.trail.levels.length := by unfold Trail.decisionLevel; omega
      rw [List.getElem?_eq_getElem this]
      simp only [Option.map_some, Option.getD_some]
      rw [if_pos hlvl]
      simp
    · rw [Function.update_of_ne e, h1] at h2'; cases h2'
  · have h2' : Function.update la.trail.level ⟨.boolean, c.lit.ord⟩ (some (la.maxLevel c)) v = some l := by
      have : ((la.trail.propagate ⟨.boolean, c.lit.ord⟩ none (la.maxLevel c)).setValue
        ⟨.boolean, c.lit.ord⟩ (.b x)).level v = some l := h2
      rw [Trail.level_setValue] at this
      exact this
    by_cases e : v = ⟨.boolean, c.lit.ord⟩
    · subst e
      rw [Function.update_self] at h2'
      cases h2'
      obtain ⟨y, hy⟩ : ∃ y, la.level y = some (la.maxLevel c) := by
        rcases hmx2 with e0 | ⟨z, hz, e0⟩
        · have hcc' := hcc
          obtain ⟨e, he, hce⟩ := hcc'
          obtain ⟨p, ps, hps⟩ := List.exists_cons_of_ne_nil (hB.ne e he)
          have hvars : la.store.varsOf c = la.store.varsOf e := by rcases hce with r | r <;> rw [r]; rfl
          have hpm : p.1 ∈ la.store.varsOf c := by
            rw [hvars, LinStore.varsOf_eq hB.inv.len (hB.inv.rng e he).2, hps]; simp
          obtain ⟨j, hj, -⟩ := hlev p.1 hpm
          have hle := hmx p.1 hpm
          rw [hj] at hle
          simp only [Option.getD_some] at hle
          exact ⟨p.1, by rw [hj]; congr 1; omega⟩
        · obtain ⟨j, hj, -⟩ := hlev z hz
          rw [hj] at e0
          exact ⟨z, by rw [hj, e0]; rfl⟩
      refine ⟨y, ?_⟩
      show ((la.trail.propagate ⟨.boolean, c.lit.ord⟩ none (la.maxLevel c)).setValue
        ⟨.boolean, c.lit.ord⟩ (.b x)).level ⟨.rational, y⟩ = _
      rw [Trail.level_setValue]
      show Function.update la.trail.level ⟨.boolean, c.lit.ord⟩ (some (la.maxLevel c)) ⟨.rational, y⟩ = _
      rw [Function.update_of_ne (by simp)]
      exact hy
    · rw [Function.update_of_ne e, h1] at h2'; cases h2'
  · show (la.trail.bools.setValue c.lit.ord x).defined c.lit.ord = true
    simp [PModel.setValue]

end LA
end Yaga
