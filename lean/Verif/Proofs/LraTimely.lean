/-
Late propagations in timely histories of the plugin for linear arithmetic.
-/
import Verif.Proofs.LraGood

namespace Yaga
open Spec
open LinStore (delta WfTerms Inv Kept Made)
namespace LA
open Lra
variable {R : Type} {hv : Nat → Nat} {hc : ℚ → Nat} {o : LaOpts} {la la' : LA R} {s : Stage} {w : Option Nat}

/-- A boolean variable that is in the list of a level above its own is not the literal of a constraint
with unassigned variables at its level. -/
def Late (la : LA R) : Prop :=
  ∀ v l j, la.trail.level ⟨.boolean, v⟩ = some l → l < j → Listed la.trail j v → la.Assigned l v

theorem get_kept {s s' : LinStore} (hI : Inv s) (hI' : Inv s') (hK : Kept s s') {v : Nat}
    (hv : v < s.cons.length) : s'.get v = s.get v ∧ ∀ x, x ∈ s'.varsOf (s.get v) ↔ x ∈ s.varsOf (s.get v) := by
  have h1 : s.cons[v]? = some s.cons[v] := List.getElem?_eq_getElem hv
  have hg : s.get v = s.cons[v] := by simp [LinStore.get, h1]
  refine ⟨?_, ?_⟩
  · rw [hg]; simp [LinStore.get, hK.cons _ _ h1]
  · intro x
    rw [hg]
    rcases hI.dflt _ _ h1 with ⟨h2, _⟩ | h2
    · have hc : IsCons s s.cons[v] := ⟨_, h2, Or.inl rfl⟩
      have hc' : IsCons s' s.cons[v] := ⟨_, hK.set _ h2, Or.inl rfl⟩
      rw [hc.varsOf hI, hc'.varsOf hI']
      exact ((hK.terms _ h2).map _).mem_iff
    · rw [h2]; simp [LinStore.varsOf, LinCons.empty, LinStore.slice]

theorem Late.mono (h : Late la) (hB : Base hv hc la.trail la.store la.bnd)
    (hB' : Base hv hc la'.trail la'.store la'.bnd) (hK : Kept la.store la'.store)
    (hnew : ∀ v l, la'.trail.level ⟨.boolean, v⟩ = some l → la.trail.level ⟨.boolean, v⟩ = some l ∨
      la'.Assigned l v ∨ ∀ j, l < j → ¬ Listed la'.trail j v)
    (hlist : ∀ v l j, la.trail.level ⟨.boolean, v⟩ = some l → Listed la'.trail j v → Listed la.trail j v)
    (hlev : ∀ v l x k, la'.trail.level ⟨.boolean, v⟩ = some l → la.level x = some k → k ≤ l →
      la'.level x = some k) : Late la' := by
  intro v l j hl hj hL
  rcases hnew v l hl with h1 | h1 | h1
  · have hA := h v l j h1 hj (hlist v l j h1 hL)
    have hd : la.trail.bools.defined v = true := (def_b hB.tinv).mpr ⟨l, h1⟩
    have hlt : v < la.store.cons.length := by
      have := hB.linv.dom v hd
      have h2 := hB.linv.len
      simp only at this h2
      rw [h2]; exact this
    obtain ⟨e1, e2⟩ := get_kept hB.inv hB'.inv hK hlt
    intro x hx
    rw [e1] at hx
    obtain ⟨k, hk, hxk⟩ := hA x ((e2 x).mp hx)
    exact ⟨k, hk, hlev v l x k hl hxk hk⟩
  · exact h1
  · exact absurd hL (h1 j hj)

theorem Late.frame (h : Late la) (hB : Base hv hc la.trail la.store la.bnd)
    (hB' : Base hv hc la'.trail la'.store la'.bnd) (hf : Frame la la') : Late la' := by
  refine h.mono hB hB' hf.kept ?_ ?_ ?_
  · intro v l hl
    rcases h0 : la.trail.level ⟨.boolean, v⟩ with _ | l0
    · obtain ⟨_, e, he, heo, ht⟩ := hf.late _ _ h0 hl
      refine Or.inr (Or.inl ?_)
      intro x hx
      have heo' : e.lit.ord = v := heo
      rw [← heo', LinStore.get_of_mem hB'.inv he,
        IsCons.varsOf hB'.inv ⟨e, he, Or.inl rfl⟩] at hx
      obtain ⟨p, hp, rfl⟩ := List.mem_map.mp hx
      exact ht p hp
    · have := hf.lvl _ _ h0
      rw [hl] at this
      exact Or.inl this.symm
  · rintro v l j hl ⟨a, ha, hav⟩
    rcases hf.add j a ha with h1 | h1
    · exact ⟨a, h1, hav⟩
    · rw [hav, hl] at h1; cases h1
  · intro v l x k _ hx _
    exact (hf.lev x).trans hx

theorem listed_lt {t : Trail R} {j v : Nat} (h : Listed t j v) : j < t.levels.length := by
  obtain ⟨a, ha, _⟩ := h
  by_contra hc
  unfold Trail.assigned at ha
  rw [List.getD_eq_getElem?_getD, List.getElem?_eq_none (by omega)] at ha
  simp at ha

theorem Good.consFrame (h : Good hv hc la s w) {ts : List (Nat × ℚ)} (p : Pred) (r : ℚ)
    (hnd : (ts.map (·.1)).Nodup) (hne : ∃ q ∈ ts, q.2 ≠ 0) (hdom : ∀ q ∈ ts, q.1 < la.trail.rats.num)
    (hun : ∀ q ∈ ts, la.level q.1 = none) :
    Frame la (la.constraint hv hc ts p r).1 := by
  have hun' : ∀ q ∈ ts, la.trail.rats.defined q.1 = false := fun q hq => h.keep.undefined.mpr (hun q hq)
  obtain ⟨_, hf, _⟩ := h.keep.consNew hnd hne hdom hun' p r (wi_none fun y hy => by
    obtain ⟨q, hq, rfl⟩ := nzVars_mem hy
    have := hun q hq
    unfold levs
    cases w with
    | none => exact this
    | some x =>
      dsimp only
      split
      · by_cases e : q.1 = x
        · rw [e, Function.update_self]
        · rw [Function.update_of_ne e]; exact this
      · exact this)
  exact hf

theorem Late.backtrack (h : Late la) (hg : Good hv hc la s w) {k : Nat} (hk : k < la.trail.decisionLevel) :
    Late (la.backtrack k) := by
  have ht := hg.keep.base.tinv
  refine h.mono hg.keep.base (hg.backtrack hk).keep.base (Kept.refl _) ?_ ?_ ?_
  · intro v l hl
    exact Or.inl ((level_backtrack ht hk).mp hl).1
  · rintro v l j _ ⟨a, ha, hav⟩
    have hj : j ≤ k := by
      have hlt := listed_lt (t := (la.backtrack k).trail) ⟨a, ha, hav⟩
      have : (la.backtrack k).trail.levels = la.trail.levels.take (k + 1) := (Trail.backtrack_spec ht k (le_of_lt hk)).1
      rw [this, List.length_take] at hlt
      omega
    exact ⟨a, by rw [← backtrack_asg hg hk hj]; exact ha, hav⟩
  · intro v l x m hl hx hml
    exact (level_backtrack ht hk).mpr ⟨hx, le_trans hml ((level_backtrack ht hk).mp hl).2⟩

/-- A decision. -/
theorem Late.decide (h : Late la) (hB : Base hv hc la.trail la.store la.bnd)
    (hB' : Base hv hc la'.trail la'.store la'.bnd) {u : Var} {q : Val} (hu : la.trail.level u = none)
    (hs : la'.store = la.store) (ht : la'.trail = (la.trail.decide u).setValue u q) : Late la' := by
  have hlen := dl_succ hB.tinv
  have hlevel : ∀ v, la'.trail.level v = if v = u then some la.trail.levels.length else la.trail.level v := by
    intro v
    rw [ht]
    simp [Trail.decide, Function.update_apply]
  have hlists : la'.trail.levels = la.trail.levels ++ [[⟨u, none⟩]] := by rw [ht]; simp [Trail.decide]
  have hsub : ∀ j v, Listed la'.trail j v → Listed la.trail j v ∨ (⟨.boolean, v⟩ = u ∧ j = la.trail.levels.length) := by
    rintro j v ⟨a, ha, hav⟩
    unfold Trail.assigned at ha
    rw [hlists, List.getD_eq_getElem?_getD] at ha
    rcases Nat.lt_or_ge j la.trail.levels.length with hj | hj
    · rw [List.getElem?_append_left hj] at ha
      exact Or.inl ⟨a, by unfold Trail.assigned; rw [List.getD_eq_getElem?_getD]; exact ha, hav⟩
    · rw [List.getElem?_append_right hj] at ha
      rcases hn : j - la.trail.levels.length with _ | m
      · rw [hn] at ha
        simp at ha
        subst ha
        exact Or.inr ⟨hav.symm, by omega⟩
      · rw [hn] at ha; simp at ha
  refine h.mono hB hB' (by rw [hs]; exact Kept.refl _) ?_ ?_ ?_
  · intro v l hl
    rw [hlevel] at hl
    split at hl
    · rename_i e
      injection hl with hl
      refine Or.inr (Or.inr ?_)
      intro j hj hL
      rcases hsub j v hL with h1 | ⟨_, h2⟩
      · have := listed_lt h1; omega
      · omega
    · exact Or.inl hl
  · intro v l j hl hL
    rcases hsub j v hL with h1 | ⟨h1, _⟩
    · exact h1
    · rw [h1, hu] at hl; cases hl
  · intro v l x k _ hx _
    show la'.trail.level ⟨.rational, x⟩ = some k
    have hx' : la.trail.level ⟨.rational, x⟩ = some k := hx
    rw [hlevel, if_neg (by intro e; rw [e, hu] at hx'; cases hx')]
    exact hx'

theorem Late.setBool (h : Late la) (hB : Base hv hc la.trail la.store la.bnd) {v : Nat} {b : Bool} {r : Option R}
    {lvl : Nat} (hB' : Base hv hc (la.setBool v b r lvl).trail (la.setBool v b r lvl).store (la.setBool v b r lvl).bnd)
    (hu : la.trail.level ⟨.boolean, v⟩ = none)
    (ht : lvl = la.trail.decisionLevel ∨ la.Assigned lvl v) : Late (la.setBool v b r lvl) := by
  have hlen := dl_succ hB.tinv
  have hlevel : ∀ u, (la.setBool v b r lvl).trail.level u =
      if u = ⟨.boolean, v⟩ then some lvl else la.trail.level u := by
    intro u
    simp [LA.setBool, Trail.propagate, Function.update_apply]
  have hll : (la.setBool v b r lvl).trail.levels.length = la.trail.levels.length := by
    simp [LA.setBool, Trail.propagate]
  have hrat : ∀ x, (la.setBool v b r lvl).level x = la.level x := by
    intro x
    show (la.setBool v b r lvl).trail.level ⟨.rational, x⟩ = _
    rw [hlevel, if_neg (by simp)]; rfl
  refine h.mono hB hB' (Kept.refl _) ?_ ?_ ?_
  · intro u l hl
    rw [hlevel] at hl
    split at hl
    · rename_i e
      injection e with _ e
      injection hl with hl
      subst hl e
      rcases ht with h1 | h1
      · refine Or.inr (Or.inr fun j hj hL => ?_)
        have := listed_lt hL
        rw [hll] at this
        omega
      · refine Or.inr (Or.inl fun x hx => ?_)
        obtain ⟨k, h2, h3⟩ := h1 x hx
        exact ⟨k, h2, (hrat x).trans h3⟩
    · exact Or.inl hl
  · rintro u l j hl ⟨a, ha, hav⟩
    have : a ∈ la.trail.assigned j ∨ a = ⟨⟨.boolean, v⟩, r⟩ := by
      simp only [LA.setBool, Trail.assigned, Trail.levels_setValue, Trail.propagate,
        List.getD_eq_getElem?_getD, Trail.getElem?_pushFrom] at ha ⊢
      rcases hx : la.trail.levels[j]? with _ | xs
      · rw [hx] at ha; simp at ha
      · rw [hx] at ha
        simp only [Option.map_some, Option.getD_some] at ha ⊢
        split at ha
        · rcases List.mem_append.1 ha with ha | ha
          · exact Or.inl ha
          · exact Or.inr (List.mem_singleton.1 ha)
        · exact Or.inl ha
    rcases this with h1 | h1
    · exact ⟨a, h1, hav⟩
    · rw [h1] at hav
      simp only at hav
      rw [← hav, hu] at hl
      cases hl
  · intro u l x k _ hx _
    rw [hrat]; exact hx

theorem Late.resize (h : Late la) (hg : Good hv hc la s w) {ty : VType} {n : Nat} (hn : la.trail.numVars ty ≤ n) :
    Late (la.resize ty n) := by
  have hsame := resize_same hg.keep.base.tinv ty hn
  have h1 : (la.resize ty n).trail.level = la.trail.level := by cases ty <;> exact hsame.1
  have h2 : (la.resize ty n).trail.levels = la.trail.levels := by cases ty <;> exact hsame.2.1
  refine h.mono hg.keep.base (hg.resize ty n hn).keep.base ?_ ?_ ?_ ?_
  · cases ty with
    | boolean =>
      have hl := hg.keep.base.linv.len
      have hn' : la.trail.bools.num ≤ n := hn
      simp only [mods] at hl
      exact (LinStore.resize_spec hg.keep.base.inv (by rw [hl]; exact hn')).2
    | rational => exact Kept.refl _
  · intro v l hl; rw [h1] at hl; exact Or.inl hl
  · rintro v l j _ ⟨a, ha, hav⟩
    unfold Trail.assigned at ha
    rw [h2] at ha
    exact ⟨a, ha, hav⟩
  · intro v l x k _ hx _
    show (la.resize ty n).trail.level _ = _
    rw [h1]; exact hx

theorem Late.listed (h : Late la) (ht : la.trail.Inv) {k v : Nat} (h1 : Listed la.trail k v)
    (h2 : Listed la.trail (k + 1) v) : la.Assigned k v := by
  obtain ⟨a, ha, hav⟩ := h1
  have hlt := listed_lt (t := la.trail) ⟨a, ha, hav⟩
  have hx : la.trail.levels[k]? = some la.trail.levels[k] := List.getElem?_eq_getElem hlt
  unfold Trail.assigned at ha
  rw [List.getD_eq_getElem?_getD, hx] at ha
  obtain ⟨l, hl, hlk, _⟩ := ht.listed k _ a hx ha
  rw [hav] at hl
  intro x hxx
  obtain ⟨m, h3, h4⟩ := h v l (k + 1) hl (by omega) h2 x hxx
  exact ⟨m, by omega, h4⟩

/-- In a timely history the variables propagated late have no unassigned variables in their constraints. -/
theorem Reach.late {timely : Prop} (htm : timely) (h : LA.Reach hv hc o timely la s) : Late la := by
  induction h with
  | init => intro v l j hl; cases hl
  | resize hr ty n hn ih => obtain ⟨w, hg⟩ := hr.good; exact ih.resize hg hn
  | cons hr ts p r hnd hne hdom hun ih =>
    obtain ⟨w, hg⟩ := hr.good
    exact ih.frame hg.keep.base (hg.cons p r hnd hne hdom hun).keep.base (hg.consFrame p r hnd hne hdom hun)
  | derive hr hs ts p r hnd hne has hsrt ih =>
    obtain ⟨w, hg⟩ := hr.good
    have hw := hg.normal (by rcases hs with rfl | rfl <;> rintro ⟨⟩)
    subst hw
    obtain ⟨k1, k2⟩ := Keep.derive hg.keep hnd hne
      (fun q hq => hg.keep.defined.mpr (Option.isSome_iff_exists.mp (has q hq))) hsrt p r
    exact ih.frame hg.keep.base k1.base k2
  | setBool hr hs v b r lvl hv' hu hl ht ih =>
    obtain ⟨w, hg⟩ := hr.good
    exact ih.setBool hg.keep.base (hg.keep.base.setBool hv' hu hl) hu (ht htm)
  | decideBool hr v b hv' hu ih =>
    obtain ⟨w, hg⟩ := hr.good
    exact ih.decide (q := .b b) hg.keep.base (hg.keep.base.decideBool hv' hu) hu rfl rfl
  | decideRat hr x fuel hx hu hd ih =>
    obtain ⟨w, hg⟩ := hr.good
    have hg' := hg.decideRat x fuel hx hu hd
    have hw := hg.normal (by rintro ⟨⟩)
    subst hw
    obtain ⟨_, _, _, e3, q, e4⟩ := Keep.decide hg.keep (by
      rintro o (⟨h1, _⟩ | ⟨_, h2⟩ | h1)
      · omega
      · rw [hg.settled rfl] at h2; cases h2
      · exact absurd h1 not_fresh) (fun k o => not_fresh) hx hu hd
    exact ih.decide hg.keep.base hg'.keep.base hu e3 e4
  | propagate hr hs ih =>
    obtain ⟨w, hg⟩ := hr.good
    obtain ⟨h1, h2, _⟩ := hg.propagate (o := o)
    exact Late.frame (la := LA.takeAssigned _ |>.1) ih hg.keep.base h1.keep.base h2
  | backtrack hr k hk ih => obtain ⟨w, hg⟩ := hr.good; exact ih.backtrack hg hk
  | split hr k hk hlate v b hv' hu ih =>
    obtain ⟨w, hg⟩ := hr.good
    exact (ih.backtrack hg hk).decide (q := .b b) (hg.backtrack hk).keep.base (hg.split hk hlate v b hv' hu).keep.base hu rfl rfl
  | restart hr ih => intro v l j hl; cases hl
  | query hr x ih =>
    obtain ⟨w, hg⟩ := hr.good
    obtain ⟨k1, k2⟩ := hg.keep.effectivelyDecided x
    exact ih.frame hg.keep.base k1.base k2
  | take hr ih => exact ih

end LA
end Yaga
