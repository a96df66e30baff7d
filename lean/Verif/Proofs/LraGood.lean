/-
Invariant of the plugin for linear arithmetic in the solver loop.
-/
import Verif.Proofs.LraPropagate

set_option linter.unusedSimpArgs false
set_option linter.unusedVariables false

namespace Yaga
open Spec
open LinStore (delta WfTerms Inv Kept Made)

namespace LA
open Lra
variable {R : Type} {hv : Nat → Nat} {hc : ℚ → Nat} {o : LaOpts} {la la' : LA R} {s : Stage} {w : Option Nat}

/-- The constraints watched by the variable decided last. -/
def Fresh (la : LA R) (w : Option Nat) (k o : Nat) : Prop :=
  ∃ x, w = some x ∧ k = la.trail.decisionLevel ∧ o ∈ ords (la.watched x)

/-- The constraints that `propagate` has to look at on level `k`. -/
def Pending (la : LA R) (w : Option Nat) (k o : Nat) : Prop :=
  (k < la.trail.decisionLevel ∧ Listed la.trail (k + 1) o) ∨
  (k = la.trail.decisionLevel ∧ (⟨.boolean, o⟩ : Var) ∈ la.todo) ∨ Fresh la w k o

/-- The levels the order of a constraint's variables refers to. -/
def levs (la : LA R) (w : Option Nat) (o : Nat) : Nat → Option Nat :=
  match w with
  | none => lev la.trail
  | some x => if o ∈ ords (la.watched x) then Function.update (lev la.trail) x none else lev la.trail

structure Good (hv : Nat → Nat) (hc : ℚ → Nat) (la : LA R) (s : Stage) (w : Option Nat) : Prop where
  keep : Keep hv hc la (Fresh la w) (Pending la w) (levs la w)
  settled : s = .settled → la.todo = []
  cur : ∀ l, la.curLevel = some l → l ≤ la.trail.decisionLevel
  nxt : la.curLevel = some la.trail.decisionLevel →
    la.nextIndex ≤ (la.trail.assigned la.trail.decisionLevel).length
  dec : s = .decided ↔ w.isSome = true
  last : ∀ x, w = some x →
    la.trail.assigned la.trail.decisionLevel = [⟨⟨.rational, x⟩, none⟩] ∧
    lev la.trail x = some la.trail.decisionLevel ∧ la.curLevel ≠ some la.trail.decisionLevel

theorem not_fresh {k o : Nat} : ¬ Fresh la none k o := by rintro ⟨x, h, _⟩; cases h

theorem Good.normal (h : Good hv hc la s w) (hs : s ≠ .decided) : w = none := by
  cases w with
  | none => rfl
  | some x => exact absurd (h.dec.mpr rfl) hs

theorem skip_le (hn : la.curLevel = some la.trail.decisionLevel →
    la.nextIndex ≤ (la.trail.assigned la.trail.decisionLevel).length) :
    la.skip ≤ (la.trail.assigned la.trail.decisionLevel).length := by
  unfold LA.skip
  split
  · rename_i h; exact hn h
  · exact Nat.zero_le _

/-- A step that only extends the lists of the trail. -/
theorem Good.extend (h : Good hv hc la s none) (hf : Frame la la')
    (hk : Keep hv hc la' (Fresh la none) (Pending la none) (fun _ => lev la'.trail)) :
    Good hv hc la' .changed none := by
  have hcur : la'.curLevel = some la'.trail.decisionLevel ↔ la.curLevel = some la.trail.decisionLevel := by
    rw [hf.cur, hf.dl]
  obtain ⟨ext, hext⟩ := hf.asg la.trail.decisionLevel
  have hskip : la'.skip = la.skip := by
    unfold LA.skip
    rw [hf.cur, hf.dl, hf.nxt]
  refine ⟨hk.mono (fun k _ o hx => absurd hx not_fresh) ?_, (by rintro ⟨⟩), ?_, ?_, ?_, (by rintro x ⟨⟩)⟩
  · rintro k _ o (⟨h1, a, ha, hao⟩ | ⟨h1, h2⟩ | h1)
    · refine Or.inl ⟨by rw [hf.dl]; exact h1, a, ?_, hao⟩
      obtain ⟨e2, he2⟩ := hf.asg (k + 1)
      rw [he2]
      exact List.mem_append_left _ ha
    · refine Or.inr (Or.inl ⟨by rw [hf.dl]; exact h1, ?_⟩)
      unfold LA.todo at h2 ⊢
      rw [hskip, hf.dl, hext, List.drop_append_of_le_length (skip_le h.nxt), List.map_append]
      exact List.mem_append_left _ h2
    · exact absurd h1 not_fresh
  · rw [hf.cur, hf.dl]; exact h.cur
  · intro hc'
    rw [hf.nxt, hf.dl, hext, List.length_append]
    have := h.nxt (hcur.mp hc')
    omega
  · constructor
    · intro hs; cases hs
    · intro hs; cases hs

theorem good_init : Good hv hc (LA.init : LA R) .changed none := by
  have hno : ∀ c, ¬ IsCons (LA.init : LA R).store c := by
    rintro c ⟨e, he, _⟩; cases he
  refine ⟨⟨⟨Steps.refl _, Trail.init_inv, ?_, ?_⟩, rfl, ⟨?_, ?_, ?_⟩, ⟨?_, ?_, ?_, ?_⟩⟩, (by rintro ⟨⟩),
    ?_, ?_, ?_, (by rintro x ⟨⟩)⟩
  · intro i xs a h ha
    rcases i with _ | i
    · simp [LA.init, Trail.init] at h; subst h; cases ha
    · simp [LA.init, Trail.init] at h
  · intro e he; cases he
  · intro c hcc; exact absurd hcc (hno c)
  · intro k _ o _ e he; cases he
  · intro k _ o _; exact compO_of_none (fun c hcc => absurd hcc (hno c))
  · intro e he; cases he
  · intro x c i hc'; cases hc'
  · intro e he; cases he
  · intro x; exact List.nodup_nil
  · intro l hl; simp [LA.init] at hl; omega
  · intro _; exact Nat.zero_le _
  · constructor
    · intro hs; cases hs
    · intro hs; cases hs

theorem Wat.resize {Lf : Nat → Nat → Option Nat} {s : LinStore} {wl : Nat → List (LinCons × Nat)}
    (h : Wat Lf s wl) (n : Nat) : Wat Lf (s.resize n) wl :=
  ⟨h.wi, h.mem, h.cov, h.uniq⟩

/-- The trail's lists and levels stay the same. -/
theorem Good.same (h : Good hv hc la s w) (hlev : la'.trail.level = la.trail.level)
    (hlvs : la'.trail.levels = la.trail.levels) (hc1 : la'.curLevel = la.curLevel)
    (hc2 : la'.nextIndex = la.nextIndex) (hw : ∀ x, w = some x → la'.watched x = la.watched x)
    (hk : Keep hv hc la' (Fresh la w) (Pending la w) (levs la w)) : Good hv hc la' s w := by
  have hdl : la'.trail.decisionLevel = la.trail.decisionLevel := by
    unfold Trail.decisionLevel; rw [hlvs]
  have hasg : ∀ k, la'.trail.assigned k = la.trail.assigned k := by
    intro k; unfold Trail.assigned; rw [hlvs]
  have hle : lev la'.trail = lev la.trail := by
    funext x; unfold lev; rw [hlev]
  have hskip : la'.skip = la.skip := by
    unfold LA.skip; rw [hc1, hdl, hc2]
  have htodo : la'.todo = la.todo := by
    unfold LA.todo; rw [hskip, hdl, hasg]
  have hlevs : levs la' w = levs la w := by
    unfold levs
    cases w with
    | none => funext o; exact hle
    | some x => funext o; dsimp only; rw [hw x rfl, hle]
  have hfr : ∀ k o, Fresh la w k o → Fresh la' w k o := by
    rintro k o ⟨x, h1, h2, h3⟩
    exact ⟨x, h1, by rw [hdl]; exact h2, by rw [hw x h1]; exact h3⟩
  refine ⟨?_, ?_, ?_, ?_, h.dec, ?_⟩
  · rw [hlevs]
    refine hk.mono (fun k _ o => hfr k o) ?_
    rintro k _ o (⟨h1, a, ha, hao⟩ | ⟨h1, h2⟩ | h1)
    · exact Or.inl ⟨by rw [hdl]; exact h1, a, by rw [hasg]; exact ha, hao⟩
    · exact Or.inr (Or.inl ⟨by rw [hdl]; exact h1, by rw [htodo]; exact h2⟩)
    · exact Or.inr (Or.inr (hfr k o h1))
  · rw [htodo]; exact h.settled
  · rw [hc1, hdl]; exact h.cur
  · rw [hc1, hdl, hc2, hasg]; exact h.nxt
  · intro x hx
    rw [hasg, hdl, hle, hc1]; exact h.last x hx

theorem Good.resize (h : Good hv hc la s w) (ty : VType) (n : Nat) (hn : la.trail.numVars ty ≤ n) :
    Good hv hc (la.resize ty n) s w := by
  obtain ⟨h1, h2, _⟩ := resize_same h.keep.base.tinv ty hn
  cases ty with
  | boolean =>
    exact h.same (la' := la.resize .boolean n) h1 h2 rfl rfl (fun _ _ => rfl)
      ⟨h.keep.base.resizeBool hn, h.keep.ok, h.keep.sem.resizeBool h.keep.base hn, h.keep.wat.resize n⟩
  | rational =>
    exact h.same (la' := la.resize .rational n) h1 h2 rfl rfl (fun _ _ => rfl)
      ⟨h.keep.base.resizeRat hn, h.keep.ok, h.keep.sem.resizeRat h.keep.base hn, h.keep.wat⟩

theorem wi_none {L : Nat → Option Nat} {vs : List Nat} (h : ∀ y ∈ vs, L y = .none) : WI L vs :=
  WI.congr (L := fun _ => .none) h (WI.none (fun _ => rfl) vs)

theorem Good.cons (h : Good hv hc la s w) {ts : List (Nat × ℚ)} (p : Pred) (r : ℚ)
    (hnd : (ts.map (·.1)).Nodup) (hne : ∃ q ∈ ts, q.2 ≠ 0) (hdom : ∀ q ∈ ts, q.1 < la.trail.rats.num)
    (hun : ∀ q ∈ ts, la.level q.1 = none) :
    Good hv hc (la.constraint hv hc ts p r).1 s w := by
  have hun' : ∀ q ∈ ts, la.trail.rats.defined q.1 = false := fun q hq => h.keep.undefined.mpr (hun q hq)
  obtain ⟨hk, hf, hwt⟩ := h.keep.consNew hnd hne hdom hun' p r (wi_none fun y hy => by
    obtain ⟨q, hq, rfl⟩ := nzVars_mem hy
    have := hun q hq
    unfold levs
    cases w with
    | none => exact this
    | some x =>
      dsimp only
      split
      · by_cases e : q.1 = x
        · rw [e, Function.update_self]
        · rw [Function.update_of_ne e]; exact this
      · exact this)
  have htr : (la.constraint hv hc ts p r).1.trail = la.trail ∨
      ∃ n, la.trail.bools.num ≤ n ∧ (la.constraint hv hc ts p r).1.trail = la.trail.resize .boolean n := by
    unfold LA.constraint
    dsimp only
    split
    · rename_i hge; exact Or.inr ⟨_, by omega, rfl⟩
    · exact Or.inl rfl
  have hsame : (la.constraint hv hc ts p r).1.trail.level = la.trail.level ∧
      (la.constraint hv hc ts p r).1.trail.levels = la.trail.levels := by
    rcases htr with e | ⟨n, hn, e⟩
    · rw [e]; exact ⟨rfl, rfl⟩
    · rw [e]
      obtain ⟨a, b, _⟩ := resize_same h.keep.base.tinv .boolean (n := n) hn
      exact ⟨a, b⟩
  refine h.same hsame.1 hsame.2 hf.cur hf.nxt (fun x hx => hwt x ?_) hk
  exact h.keep.defined.mpr ⟨_, (h.last x hx).2.1⟩

theorem Good.derive (h : Good hv hc la s w) (hs : s ≠ .decided) {ts : List (Nat × ℚ)} (p : Pred) (r : ℚ)
    (hnd : (ts.map (·.1)).Nodup) (hne : ∃ q ∈ ts, q.2 ≠ 0)
    (has : ∀ q ∈ ts, (la.level q.1).isSome = true)
    (hsrt : ts.Pairwise fun a b => la.sortLevel b.1 ≤ la.sortLevel a.1) :
    Good hv hc (la.derive hv hc ts p r) .changed none := by
  have hw := h.normal hs
  subst hw
  obtain ⟨k1, k2⟩ := Keep.derive (la := la) h.keep hnd hne
    (fun q hq => h.keep.defined.mpr (Option.isSome_iff_exists.mp (has q hq))) hsrt p r
  exact h.extend k2 (by rw [k2.lev_eq]; exact k1)

theorem Good.setBool (h : Good hv hc la s w) (hs : s ≠ .decided) (v : Nat) (b : Bool) (r : Option R)
    (lvl : Nat) (hv' : v < la.trail.bools.num) (hu : la.trail.level ⟨.boolean, v⟩ = none)
    (hl : lvl ≤ la.trail.decisionLevel) : Good hv hc (la.setBool v b r lvl) .changed none := by
  have hw := h.normal hs
  subst hw
  have hB := h.keep.base.setBool (r := r) (x := b) hv' hu hl
  have hdl : (la.setBool v b r lvl).trail.decisionLevel = la.trail.decisionLevel := by
    show (Trail.pushFrom _ _ _).length - 1 = _
    rw [Trail.length_pushFrom]; rfl
  have hasg : ∀ k ≤ la.trail.decisionLevel, (la.setBool v b r lvl).trail.assigned k =
      if lvl ≤ k then la.trail.assigned k ++ [⟨⟨.boolean, v⟩, r⟩] else la.trail.assigned k := by
    intro k hk
    show (Trail.pushFrom _ _ _).getD k [] = _
    unfold Trail.assigned
    rw [List.getD_eq_getElem?_getD, Trail.getElem?_pushFrom, List.getD_eq_getElem?_getD]
    have hlen := dl_succ h.keep.base.tinv
    rw [List.getElem?_eq_getElem (by omega)]
    rfl
  have hlev : lev (la.setBool v b r lvl).trail = lev la.trail := by
    funext y
    show Function.update la.trail.level (⟨.boolean, v⟩ : Var) (some lvl) (⟨.rational, y⟩ : Var) = _
    rw [Function.update_of_ne (by simp)]; rfl
  have hskip : (la.setBool v b r lvl).skip = la.skip := by
    unfold LA.skip
    rw [hdl]; rfl
  have hlast : (la.setBool v b r lvl).trail.assigned la.trail.decisionLevel =
      la.trail.assigned la.trail.decisionLevel ++ [⟨⟨.boolean, v⟩, r⟩] := by
    rw [hasg _ (le_refl _), if_pos hl]
  have htodo : (la.setBool v b r lvl).todo = la.todo ++ [⟨.boolean, v⟩] := by
    unfold LA.todo
    rw [hskip, hdl, hlast, List.drop_append_of_le_length (skip_le h.nxt), List.map_append]
    rfl
  have hund : la.trail.bools.defined v = false := by
    by_contra hcon
    rw [Bool.not_eq_false, def_b h.keep.base.tinv, hu] at hcon
    obtain ⟨l, hl⟩ := hcon
    cases hl
  refine ⟨⟨hB, h.keep.ok, ?_, ?_⟩, (by rintro ⟨⟩), ?_, ?_, ?_, (by rintro x ⟨⟩)⟩
  · refine Sem.assignBool (t := la.trail) (t' := (la.setBool v b r lvl).trail) h.keep.base h.keep.sem hB.tinv
      (o := v) (lvl := lvl) (x := b) rfl rfl rfl hu ?_ ?_ ?_ ?_ ?_
    · intro c hcc hco hall
      exfalso
      obtain ⟨e, he, hce⟩ := hcc
      have hF := h.keep.sem.full la.trail.decisionLevel (le_refl _) v not_fresh e he
        (by rw [← hco]; rcases hce with rfl | rfl
            · rfl
            · exact (Lit.ord_neg _).symm)
        (fun y hy => by
          rw [cut_top h.keep.base.tinv]
          refine hall y ?_
          rcases hce with rfl | rfl
          · exact hy
          · exact hy)
      rw [cut_top h.keep.base.tinv] at hF
      have : la.trail.bools.defined v = true := hF
      rw [hund] at this
      cases this
    · intro k hk hkl _
      exact h.keep.sem.full k (by omega) v not_fresh
    · intro k hk hkl hno
      exfalso
      apply hno
      rw [hdl] at hk
      by_cases hke : k = la.trail.decisionLevel
      · refine Or.inr (Or.inl ⟨by rw [hdl]; exact hke, ?_⟩)
        rw [htodo]; simp
      · refine Or.inl ⟨by rw [hdl]; omega, ⟨⟨.boolean, v⟩, r⟩, ?_, rfl⟩
        rw [hasg _ (by omega), if_pos (by omega)]
        simp
    · intro k hk o' _ hx; exact absurd hx not_fresh
    · intro k hk o' _ hy
      rw [hdl] at hk
      rw [min_eq_left hk] at hy
      rcases hy with ⟨h1, a, ha, hao⟩ | ⟨h1, h2⟩ | h1
      · refine Or.inl ⟨by rw [hdl]; exact h1, a, ?_, hao⟩
        rw [hasg _ (by omega)]
        split
        · exact List.mem_append_left _ ha
        · exact ha
      · refine Or.inr (Or.inl ⟨by rw [hdl]; exact h1, ?_⟩)
        rw [htodo]; exact List.mem_append_left _ h2
      · exact absurd h1 not_fresh
  · have := h.keep.wat
    unfold levs at this ⊢
    rw [hlev]; exact this
  · rw [hdl]; exact h.cur
  · intro hc'
    rw [hdl] at hc'
    rw [hdl, hlast, List.length_append]
    have := h.nxt hc'
    exact Nat.le_add_right_of_le this
  · constructor
    · intro hs; cases hs
    · intro hs; cases hs

/-- A boolean decision when nothing is pending on the current level. -/
theorem Good.decideBool' (hk : Keep hv hc la (Fresh la none) (fun k o => k < la.trail.decisionLevel ∧
      Listed la.trail (k + 1) o) (levs la none))
    (hcur : ∀ l, la.curLevel = some l → l ≤ la.trail.decisionLevel) (v : Nat) (b : Bool)
    (hv' : v < la.trail.bools.num) (hu : la.trail.level ⟨.boolean, v⟩ = none) :
    Good hv hc (la.decideBool v b) .changed none := by
  have hB := hk.base.decideBool (x := b) hv' hu
  have hlen := dl_succ hk.base.tinv
  have hdl : (la.decideBool v b).trail.decisionLevel = la.trail.decisionLevel + 1 := by
    show (la.trail.levels ++ [[_]]).length - 1 = _
    rw [List.length_append, hlen]; rfl
  have hasg : ∀ k ≤ la.trail.decisionLevel, (la.decideBool v b).trail.assigned k = la.trail.assigned k := by
    intro k hk
    show (la.trail.levels ++ [[_]]).getD k [] = _
    unfold Trail.assigned
    rw [List.getD_eq_getElem?_getD, List.getElem?_append_left (by omega), List.getD_eq_getElem?_getD]
  have hlast : (la.decideBool v b).trail.assigned (la.trail.decisionLevel + 1) = [⟨⟨.boolean, v⟩, none⟩] := by
    show (la.trail.levels ++ [[_]]).getD _ [] = _
    rw [← hlen, List.getD_eq_getElem?_getD, List.getElem?_append_right (le_refl _)]
    simp
  have hlev : lev (la.decideBool v b).trail = lev la.trail := by
    funext y
    show Function.update la.trail.level (⟨.boolean, v⟩ : Var) (some la.trail.levels.length) (⟨.rational, y⟩ : Var) = _
    rw [Function.update_of_ne (by simp)]; rfl
  have hcn : (la.decideBool v b).curLevel ≠ some (la.decideBool v b).trail.decisionLevel := by
    intro e
    have := hcur _ e
    omega
  have htodo : (la.decideBool v b).todo = [⟨.boolean, v⟩] := by
    unfold LA.todo LA.skip
    rw [if_neg hcn, hdl, hlast]
    rfl
  have hund : la.trail.bools.defined v = false := by
    by_contra hcon
    rw [Bool.not_eq_false, def_b hk.base.tinv, hu] at hcon
    obtain ⟨l, hl⟩ := hcon
    cases hl
  refine ⟨⟨hB, hk.ok, ?_, ?_⟩, (by rintro ⟨⟩), ?_, ?_, ?_, (by rintro x ⟨⟩)⟩
  · refine Sem.assignBool (t := la.trail) (t' := (la.decideBool v b).trail) hk.base hk.sem hB.tinv
      (o := v) (lvl := la.trail.decisionLevel + 1) (x := b) (by rw [← hlen]; rfl) rfl rfl hu ?_ ?_ ?_ ?_ ?_
    · intro c hcc hco hall
      exfalso
      obtain ⟨e, he, hce⟩ := hcc
      have hF := hk.sem.full la.trail.decisionLevel (le_refl _) v not_fresh e he
        (by rw [← hco]; rcases hce with rfl | rfl
            · rfl
            · exact (Lit.ord_neg _).symm)
        (fun y hy => by
          rw [cut_top hk.base.tinv]
          refine hall y ?_
          rcases hce with rfl | rfl
          · exact hy
          · exact hy)
      rw [cut_top hk.base.tinv] at hF
      have : la.trail.bools.defined v = true := hF
      rw [hund] at this
      cases this
    · intro k hk' hkl _
      exact hk.sem.full k (by omega) v not_fresh
    · intro k hk' hkl hno
      exfalso
      apply hno
      rw [hdl] at hk'
      refine Or.inr (Or.inl ⟨by rw [hdl]; omega, ?_⟩)
      rw [htodo]; simp
    · intro k hk' o' _ hx; exact absurd hx not_fresh
    · intro k hk' o' _ hy
      obtain ⟨h1, a, ha, hao⟩ := hy
      have hkl : k < la.trail.decisionLevel := by omega
      rw [min_eq_left (by omega)] at ha
      refine Or.inl ⟨by rw [hdl]; omega, a, ?_, hao⟩
      rw [hasg _ (by omega)]; exact ha
  · have := hk.wat
    unfold levs at this ⊢
    rw [hlev]; exact this
  · intro l hl
    rw [hdl]
    have := hcur l hl
    omega
  · intro hc'; exact absurd hc' hcn
  · constructor
    · intro hs; cases hs
    · intro hs; cases hs

theorem Good.decideBool (h : Good hv hc la .settled w) (v : Nat) (b : Bool)
    (hv' : v < la.trail.bools.num) (hu : la.trail.level ⟨.boolean, v⟩ = none) :
    Good hv hc (la.decideBool v b) .changed none := by
  have hw := h.normal (by rintro ⟨⟩)
  subst hw
  refine Good.decideBool' (h.keep.mono (fun _ _ _ h => h) ?_) h.cur v b hv' hu
  rintro k _ o (h1 | ⟨_, h2⟩ | h1)
  · exact h1
  · rw [h.settled rfl] at h2; cases h2
  · exact absurd h1 not_fresh

theorem Good.decideRat (h : Good hv hc la .settled w) (x fuel : Nat) (hx : x < la.trail.rats.num)
    (hu : la.level x = none) (hd : la.decide fuel x = some la') : Good hv hc la' .decided (some x) := by
  have hw := h.normal (by rintro ⟨⟩)
  subst hw
  have hP : ∀ k o, Pending la none k o → k < la.trail.decisionLevel ∧ Listed la.trail (k + 1) o := by
    rintro k o (h1 | ⟨_, h2⟩ | h1)
    · exact h1
    · rw [h.settled rfl] at h2; cases h2
    · exact absurd h1 not_fresh
  obtain ⟨k1, e1, e2, e3, q, e4⟩ := Keep.decide (la := la) h.keep
    (fun o hp => by have := (hP _ o hp).1; omega) (fun k o => not_fresh) hx hu hd
  have hlen := dl_succ h.keep.base.tinv
  have hdl : la'.trail.decisionLevel = la.trail.decisionLevel + 1 := by
    rw [e4]
    show (la.trail.levels ++ [[_]]).length - 1 = _
    rw [List.length_append, hlen]; rfl
  have hasg : ∀ k ≤ la.trail.decisionLevel, la'.trail.assigned k = la.trail.assigned k := by
    intro k hk
    rw [e4]
    show (la.trail.levels ++ [[_]]).getD k [] = _
    unfold Trail.assigned
    rw [List.getD_eq_getElem?_getD, List.getElem?_append_left (by omega), List.getD_eq_getElem?_getD]
  have hlast : la'.trail.assigned (la.trail.decisionLevel + 1) = [⟨⟨.rational, x⟩, none⟩] := by
    rw [e4]
    show (la.trail.levels ++ [[_]]).getD _ [] = _
    rw [← hlen, List.getD_eq_getElem?_getD, List.getElem?_append_right (le_refl _)]
    simp
  have hcn : la'.curLevel ≠ some la'.trail.decisionLevel := by
    rw [e2, hdl]
    intro e
    have := h.cur _ e
    omega
  refine ⟨?_, (by rintro ⟨⟩), ?_, fun hc' => absurd hc' hcn, ?_, ?_⟩
  · have hl : levs la' (some x) = fun o => if o ∈ ords (la.watched x) then
        Function.update (lev la'.trail) x none else lev la'.trail := by
      funext o
      unfold levs
      dsimp only
      rw [e1]
    rw [hl]
    refine k1.mono ?_ ?_
    · rintro k _ o ⟨a, b⟩
      exact ⟨x, rfl, by rw [hdl]; exact a, by rw [e1]; exact b⟩
    · rintro k _ o (⟨a, b⟩ | ⟨a, b⟩)
      · obtain ⟨c, d, hd1, hd2⟩ := hP k o b
        exact Or.inl ⟨by rw [hdl]; omega, d, by rw [hasg _ (by omega)]; exact hd1, hd2⟩
      · exact Or.inr (Or.inr ⟨x, rfl, by rw [hdl]; exact a, by rw [e1]; exact b⟩)
  · intro l hl
    rw [e2] at hl
    have := h.cur l hl
    omega
  · exact ⟨fun _ => rfl, fun _ => rfl⟩
  · rintro y hy
    injection hy with hy
    subst hy
    refine ⟨by rw [hdl]; exact hlast, ?_, hcn⟩
    rw [hdl, e4]
    show Function.update la.trail.level _ _ (⟨.rational, _⟩ : Var) = _
    rw [Function.update_self, hlen]

theorem todo_settled (hc : la.curLevel = some la.trail.decisionLevel)
    (hn : la.nextIndex = (la.trail.assigned la.trail.decisionLevel).length) : la.todo = [] := by
  unfold LA.todo LA.skip
  rw [if_pos hc, hn, List.drop_length]
  rfl

theorem Good.propagate (h : Good hv hc la s w) :
    Good hv hc (la.propagate hv hc o).1
      (if (la.propagate hv hc o).2 ≠ [] then .conflict
        else if (la.propagate hv hc o).1.nextIndex =
          ((la.propagate hv hc o).1.trail.assigned (la.propagate hv hc o).1.trail.decisionLevel).length
        then .settled else .changed) none ∧
    Frame la.takeAssigned.1 (la.propagate hv hc o).1 ∧
    ∀ cl ∈ (la.propagate hv hc o).2, Refuted (la.propagate hv hc o).1 cl := by
  have key : ∃ X Y, (∀ k o, ¬ X k o) ∧ (∀ k o, Y k o → k < la.trail.decisionLevel ∧ Listed la.trail (k + 1) o) ∧
      Keep hv hc (la.propagate hv hc o).1 X Y (fun _ => lev (la.propagate hv hc o).1.trail) ∧
      Frame la.takeAssigned.1 (la.propagate hv hc o).1 ∧
      ∀ cl ∈ (la.propagate hv hc o).2, Refuted (la.propagate hv hc o).1 cl := by
    cases w with
    | none =>
      obtain ⟨k1, k2, k3⟩ := Keep.propagate (la := la) o h.keep
      refine ⟨_, _, fun k o => not_fresh, ?_, k1, k2, k3⟩
      rintro k o' ⟨h1 | ⟨h1, h2⟩ | h1, hn⟩
      · exact h1
      · exact absurd ⟨h1, h2⟩ hn
      · exact absurd h1 not_fresh
    | some x =>
      obtain ⟨l1, l2, l3⟩ := h.last x rfl
      have hskip : la.skip = 0 := by unfold LA.skip; rw [if_neg l3]
      obtain ⟨k1, k2, k3⟩ := Keep.propagateDecided (la := la) o l1 hskip l2 h.keep
      refine ⟨_, _, ?_, ?_, k1, k2, k3⟩
      · rintro k o' ⟨⟨y, hy, h1, h2⟩, hn⟩
        injection hy with hy
        subst hy
        exact hn ⟨h1, h2⟩
      · rintro k o' ⟨h1 | ⟨h1, h2⟩ | ⟨y, hy, h1, h2⟩, hn⟩
        · exact h1
        · exfalso
          unfold LA.todo at h2
          rw [l1, hskip] at h2
          simp at h2
        · injection hy with hy
          subst hy
          exact absurd ⟨h1, h2⟩ hn
  obtain ⟨X, Y, hX, hY, k1, k2, k3⟩ := key
  refine ⟨?_, k2, k3⟩
  generalize hr : la.propagate hv hc o = r at *
  have hdl : r.1.trail.decisionLevel = la.trail.decisionLevel := k2.dl
  have hcur : r.1.curLevel = some la.trail.decisionLevel := k2.cur
  have hnxt : r.1.nextIndex = (la.trail.assigned la.trail.decisionLevel).length := k2.nxt
  have hcur' : r.1.curLevel = some r.1.trail.decisionLevel := by rw [hdl]; exact hcur
  have hasg : ∀ k, ∃ ext, r.1.trail.assigned k = la.trail.assigned k ++ ext := k2.asg
  refine ⟨?_, ?_, ?_, ?_, ?_, (by rintro x ⟨⟩)⟩
  · refine k1.mono (fun k _ o h' => absurd h' (hX k o)) ?_
    intro k _ o' hy
    obtain ⟨h1, a, ha, hao⟩ := hY k o' hy
    obtain ⟨ext, he⟩ := hasg (k + 1)
    exact Or.inl ⟨by rw [hdl]; exact h1, a, by rw [he]; exact List.mem_append_left _ ha, hao⟩
  · intro hs
    split at hs
    · cases hs
    · split at hs
      · rename_i hn; exact todo_settled hcur' hn
      · cases hs
  · intro l hl
    rw [hcur'] at hl
    injection hl with hl
    omega
  · intro _
    obtain ⟨ext, he⟩ := hasg la.trail.decisionLevel
    rw [hnxt, hdl, he, List.length_append]
    omega
  · constructor
    · intro hs
      split at hs
      · cases hs
      · split at hs <;> cases hs
    · intro hs; cases hs

theorem Good.backtrackKeep (h : Good hv hc la s w) {k : Nat} (hk : k < la.trail.decisionLevel) :
    Keep hv hc (la.backtrack k) (Fresh (la.backtrack k) none)
      (fun i o => i ≤ k ∧ Listed la.trail (i + 1) o) (levs (la.backtrack k) none) := by
  have hB := h.keep.base.backtrack (le_of_lt hk)
  have hS := h.keep.sem.backtrack h.keep.base (le_of_lt hk)
  have hdl := Trail.decisionLevel_backtrack h.keep.base.tinv k (le_of_lt hk)
  obtain ⟨hlv, hgone, hkept, _⟩ := Trail.backtrack_spec h.keep.base.tinv k (le_of_lt hk)
  refine ⟨hB, h.keep.ok, hS.mono ?_ ?_, ?_⟩
  · rintro i hi o' ⟨x, _, h1, _⟩
    exfalso
    have : i ≤ k := by rw [← hdl]; exact hi
    omega
  · intro i hi o' hy
    have hik : i ≤ k := by rw [← hdl]; exact hi
    rcases hy with ⟨_, h2⟩ | ⟨h1, _⟩ | ⟨x, _, h1, _⟩
    · exact ⟨hik, h2⟩
    · omega
    · omega
  · refine h.keep.wat.congr fun e he => ?_
    refine WI.cut (k := k) ?_ (h.keep.wat.wi e he)
    intro y l
    have hmain : lev (la.backtrack k).trail y = some l ↔ lev la.trail y = some l ∧ l ≤ k := by
      show (la.trail.backtrack k).level ⟨.rational, y⟩ = some l ↔ la.trail.level ⟨.rational, y⟩ = some l ∧ l ≤ k
      cases hly : la.trail.level ⟨.rational, y⟩ with
      | none => rw [(hkept _ (by rw [hly]; rintro l ⟨⟩)).1, hly]; simp
      | some l' =>
        by_cases hle : l' ≤ k
        · rw [(hkept _ (by rw [hly]; rintro l ⟨⟩; exact hle)).1, hly]
          constructor
          · intro e; injection e with e; subst e; exact ⟨rfl, hle⟩
          · rintro ⟨e, _⟩; exact e
        · rw [(hgone _ l' hly (by omega)).1]
          constructor
          · intro e; cases e
          · rintro ⟨e, h2⟩; injection e with e; omega
    refine hmain.trans ?_
    unfold levs
    cases w with
    | none => rfl
    | some x =>
      dsimp only
      split
      · by_cases e : y = x
        · subst e
          rw [Function.update_self, (h.last y rfl).2.1]
          constructor
          · rintro ⟨e, h2⟩; injection e with e; omega
          · rintro ⟨e, _⟩; cases e
        · rw [Function.update_of_ne e]
      · rfl

theorem backtrack_asg (h : Good hv hc la s w) {k : Nat} (hk : k < la.trail.decisionLevel) {i : Nat}
    (hi : i ≤ k) : (la.backtrack k).trail.assigned i = la.trail.assigned i := by
  obtain ⟨hlv, _⟩ := Trail.backtrack_spec h.keep.base.tinv k (le_of_lt hk)
  show (la.trail.backtrack k).levels.getD i [] = la.trail.levels.getD i []
  rw [hlv, List.getD_eq_getElem?_getD, List.getD_eq_getElem?_getD, List.getElem?_take, if_pos (by omega)]

/-- A variable in the list of level `i + 1` is in the list of level `i` or was assigned later. -/
theorem Good.late (h : Good hv hc la s w) {i o' l : Nat} (hi : i < la.trail.decisionLevel)
    (hl : la.trail.level ⟨.boolean, o'⟩ = some l) (hli : l ≤ i) (hL : Listed la.trail (i + 1) o') :
    Listed la.trail i o' := by
  obtain ⟨a, ha, hao⟩ := hL
  have hlen := dl_succ h.keep.base.tinv
  unfold Trail.assigned at ha
  rw [List.getD_eq_getElem?_getD, List.getElem?_eq_getElem (by omega)] at ha
  obtain ⟨c, hc', hco⟩ := h.keep.base.tinv.interval ⟨.boolean, o'⟩ l i (i + 1) _
    (la.trail.levels[i]'(by omega)) hl hli (by omega) (List.getElem?_eq_getElem (by omega)) ⟨a, ha, hao⟩
    (List.getElem?_eq_getElem (by omega))
  refine ⟨c, ?_, hco⟩
  unfold Trail.assigned
  rw [List.getD_eq_getElem?_getD, List.getElem?_eq_getElem (by omega)]
  exact hc'

theorem Good.backtrack (h : Good hv hc la s w) {k : Nat} (hk : k < la.trail.decisionLevel) :
    Good hv hc (la.backtrack k) .changed none := by
  have hK := h.backtrackKeep hk
  have hdl : (la.backtrack k).trail.decisionLevel = k :=
    Trail.decisionLevel_backtrack h.keep.base.tinv k (le_of_lt hk)
  obtain ⟨hlv, hgone, hkept, _⟩ := Trail.backtrack_spec h.keep.base.tinv k (le_of_lt hk)
  have htodo : (la.backtrack k).todo = (la.trail.assigned k).map (·.var) := by
    unfold LA.todo
    have : (la.backtrack k).skip = 0 := by
      unfold LA.skip
      rw [if_neg (by show (none : Option Nat) ≠ _; simp)]
    rw [this, hdl, backtrack_asg h hk (le_refl _)]
    rfl
  refine ⟨⟨hK.base, hK.ok, ⟨hK.sem.vals, hK.sem.full, ?_⟩, hK.wat⟩, (by rintro ⟨⟩), (by rintro l ⟨⟩),
    (by rintro ⟨⟩), ?_, (by rintro x ⟨⟩)⟩
  · intro i hi o' hno
    by_cases hL : i ≤ k ∧ Listed la.trail (i + 1) o'
    · obtain ⟨hik, hL⟩ := hL
      by_cases hie : i = k
      · subst hie
        apply compO_of_undef
        by_contra hcon
        rw [Bool.not_eq_false, cut_b] at hcon
        obtain ⟨l, h1, h2⟩ := hcon
        have hl' : la.trail.level ⟨.boolean, o'⟩ = some l := by
          cases hlo : la.trail.level ⟨.boolean, o'⟩ with
          | none =>
            have := (hkept ⟨.boolean, o'⟩ (by rw [hlo]; rintro l ⟨⟩)).1
            rw [hlo] at this
            exact absurd (h1.symm.trans this) (by simp)
          | some l' =>
            by_cases hle : l' ≤ i
            · have := (hkept ⟨.boolean, o'⟩ (by rw [hlo]; rintro l ⟨⟩; exact hle)).1
              rw [hlo] at this
              exact (h1.symm.trans this).symm
            · exact absurd (h1.symm.trans (hgone _ l' hlo (by omega)).1) (by simp)
        obtain ⟨a, ha, hao⟩ := h.late hk hl' h2 hL
        apply hno
        refine Or.inr (Or.inl ⟨hdl.symm, ?_⟩)
        rw [htodo]
        exact List.mem_map.mpr ⟨a, ha, hao⟩
      · exfalso
        apply hno
        obtain ⟨a, ha, hao⟩ := hL
        exact Or.inl ⟨by rw [hdl]; omega, a, by rw [backtrack_asg h hk (by omega)]; exact ha, hao⟩
    · exact hK.sem.comp i hi o' hL
  · constructor
    · intro hs; cases hs
    · intro hs; cases hs

/-- The level of a variable after backtracking. -/
theorem level_backtrack (ht : la.trail.Inv) {k : Nat} (hk : k < la.trail.decisionLevel) {u : Var} {l : Nat} :
    (la.backtrack k).trail.level u = some l ↔ la.trail.level u = some l ∧ l ≤ k := by
  obtain ⟨hlv, hgone, hkept, _⟩ := Trail.backtrack_spec ht k (le_of_lt hk)
  show (la.trail.backtrack k).level u = some l ↔ _
  cases hlo : la.trail.level u with
  | none =>
    rw [(hkept u (by rw [hlo]; rintro l ⟨⟩)).1, hlo]; simp
  | some l' =>
    by_cases hle : l' ≤ k
    · rw [(hkept u (by rw [hlo]; rintro l ⟨⟩; exact hle)).1, hlo]
      constructor
      · intro e; injection e with e; subst e; exact ⟨rfl, hle⟩
      · rintro ⟨e, _⟩; exact e
    · rw [(hgone _ l' hlo (by omega)).1]
      constructor
      · intro e; cases e
      · rintro ⟨e, h2⟩; injection e with e; omega

theorem Good.split (h : Good hv hc la s w) {k : Nat} (hk : k < la.trail.decisionLevel)
    (hlate : ∀ v, Listed la.trail k v → Listed la.trail (k + 1) v → la.Assigned k v)
    (v : Nat) (b : Bool) (hv' : v < la.trail.bools.num)
    (hu : (la.backtrack k).trail.level ⟨.boolean, v⟩ = none) :
    Good hv hc ((la.backtrack k).decideBool v b) .changed none := by
  have hK := h.backtrackKeep hk
  have hdl : (la.backtrack k).trail.decisionLevel = k :=
    Trail.decisionLevel_backtrack h.keep.base.tinv k (le_of_lt hk)
  have hI : Inv la.store := h.keep.base.inv
  refine Good.decideBool' ⟨hK.base, hK.ok, ⟨hK.sem.vals, hK.sem.full, ?_⟩, hK.wat⟩ (by rintro l ⟨⟩) v b ?_ hu
  · intro i hi o' hno
    by_cases hL : i ≤ k ∧ Listed la.trail (i + 1) o'
    · obtain ⟨hik, hL⟩ := hL
      by_cases hie : i = k
      · subst hie
        by_cases hdef : (cut (la.backtrack i).trail i).bools.defined o' = true
        · rw [cut_b] at hdef
          obtain ⟨l, h1, h2⟩ := hdef
          have hl' := ((level_backtrack h.keep.base.tinv hk).mp h1).1
          have hli := h.late hk hl' h2 hL
          by_cases hcons : ∃ c, IsCons la.store c ∧ c.lit.ord = o'
          · obtain ⟨c, ⟨e, he, hce⟩, hco⟩ := hcons
            have heo : e.lit.ord = o' := by
              rw [← hco]; rcases hce with rfl | rfl
              · rfl
              · exact (Lit.ord_neg _).symm
            have := compO_of_full hI (m := cut (la.backtrack i).trail i) (b := (la.backtrack i).bnd)
              (c0 := e) ⟨e, he, Or.inl rfl⟩ (fun y hy => by
                rw [cut_r]
                have hy' : y ∈ la.store.varsOf (la.store.get o') := by
                  rw [← heo, LinStore.get_of_mem hI he]; exact hy
                obtain ⟨l2, h3, h4⟩ := hlate o' hli hL y hy'
                exact ⟨l2, (level_backtrack h.keep.base.tinv hk).mpr ⟨h4, h3⟩, h3⟩)
            rw [heo] at this
            exact this
          · exact compO_of_none (fun c h1 h2 => hcons ⟨c, h1, h2⟩)
        · exact compO_of_undef (by simpa using hdef)
      · exfalso
        apply hno
        obtain ⟨a, ha, hao⟩ := hL
        exact ⟨by rw [hdl]; omega, a, by rw [backtrack_asg h hk (by omega)]; exact ha, hao⟩
    · exact hK.sem.comp i hi o' hL
  · have : (la.trail.backtrack k).bools.num = la.trail.bools.num := by
      exact congrFun (Trail.backtrack_spec h.keep.base.tinv k (le_of_lt hk)).2.2.2.2 .boolean
    show v < (la.trail.backtrack k).bools.num
    rw [this]; exact hv'

theorem Good.restart (h : Good hv hc la s w) : Good hv hc la.restart .changed none := by
  refine ⟨⟨h.keep.base.clear, h.keep.ok, Sem.clear h.keep.base, ?_⟩, (by rintro ⟨⟩), (by rintro l ⟨⟩),
    (by rintro ⟨⟩), ?_, (by rintro x ⟨⟩)⟩
  · refine h.keep.wat.congr fun e he => WI.none (fun y => rfl) _
  · constructor
    · intro hs; cases hs
    · intro hs; cases hs

theorem effectivelyDecided_eq (la : LA R) (x : Nat) :
    ∃ b, (la.effectivelyDecided x).1 = { la with bnd := b } := by
  unfold LA.effectivelyDecided
  split
  · exact ⟨la.bnd, rfl⟩
  · dsimp only
    split
    · exact ⟨_, rfl⟩
    · split <;> exact ⟨_, rfl⟩

theorem Good.query (hg : Good hv hc la s w) (x : Nat) : Good hv hc (la.effectivelyDecided x).1 s w := by
  have hk := (hg.keep.effectivelyDecided x).1
  obtain ⟨b, e⟩ := effectivelyDecided_eq la x
  rw [e] at hk ⊢
  exact ⟨hk, hg.settled, hg.cur, hg.nxt, hg.dec, hg.last⟩

/-- Every reachable state of the plugin satisfies the invariant. -/
theorem Reach.good {timely : Prop} (h : LA.Reach hv hc o timely la s) : ∃ w, Good hv hc la s w := by
  induction h with
  | init => exact ⟨_, good_init⟩
  | resize _ ty n hn ih => obtain ⟨w, hg⟩ := ih; exact ⟨_, hg.resize ty n hn⟩
  | cons _ ts p r hnd hne hdom hun ih => obtain ⟨w, hg⟩ := ih; exact ⟨_, hg.cons p r hnd hne hdom hun⟩
  | derive _ hs ts p r hnd hne has hsrt ih =>
    obtain ⟨w, hg⟩ := ih; exact ⟨_, hg.derive (by rcases hs with rfl | rfl <;> rintro ⟨⟩) p r hnd hne has hsrt⟩
  | setBool _ hs v b r lvl hv' hu hl _ ih => obtain ⟨w, hg⟩ := ih; exact ⟨_, hg.setBool (by rcases hs with rfl | rfl <;> rintro ⟨⟩) v b r lvl hv' hu hl⟩
  | decideBool _ v b hv' hu ih => obtain ⟨w, hg⟩ := ih; exact ⟨_, hg.decideBool v b hv' hu⟩
  | decideRat _ x fuel hx hu hd ih => obtain ⟨w, hg⟩ := ih; exact ⟨_, hg.decideRat x fuel hx hu hd⟩
  | propagate _ _ ih => obtain ⟨w, hg⟩ := ih; exact ⟨_, hg.propagate.1⟩
  | backtrack _ k hk ih => obtain ⟨w, hg⟩ := ih; exact ⟨_, hg.backtrack hk⟩
  | split _ k hk hlate v b hv' hu ih => obtain ⟨w, hg⟩ := ih; exact ⟨_, hg.split hk hlate v b hv' hu⟩
  | restart _ ih => obtain ⟨w, hg⟩ := ih; exact ⟨_, hg.restart⟩
  | query _ x ih => obtain ⟨w, hg⟩ := ih; exact ⟨_, hg.query x⟩
  | take _ ih =>
    obtain ⟨w, hg⟩ := ih
    exact ⟨w, ⟨⟨hg.keep.base, hg.keep.ok, hg.keep.sem, hg.keep.wat⟩, hg.settled, hg.cur, hg.nxt, hg.dec, hg.last⟩⟩

end LA
end Yaga
