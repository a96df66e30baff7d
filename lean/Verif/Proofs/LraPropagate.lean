/-
Propagation and decisions of the plugin for linear arithmetic.
-/
import Verif.Proofs.LraFinishLoop

set_option linter.unusedSimpArgs false
set_option linter.unusedVariables false

namespace Yaga
open Spec
open LinStore (delta WfTerms Inv Kept Made)

namespace LA
open Lra
variable {R : Type} {hv : Nat → Nat} {hc : ℚ → Nat} {X Y : Nat → Nat → Prop} {la : LA R}
variable {Lf : Nat → Nat → Option Nat}

theorem Keep.mono {X' Y' : Nat → Nat → Prop} (h : Keep hv hc la X Y Lf)
    (hX : ∀ k ≤ la.trail.decisionLevel, ∀ o, X k o → X' k o)
    (hY : ∀ k ≤ la.trail.decisionLevel, ∀ o, Y k o → Y' k o) : Keep hv hc la X' Y' Lf :=
  ⟨h.base, h.ok, h.sem.mono hX hY, h.wat⟩

theorem get_cons {s : LinStore} (hI : Inv s) {o : Nat} (h : (s.get o).isEmpty = false) :
    s.get o ∈ s.set ∧ (s.get o).lit.ord = o := by
  have hsz : 0 < (s.get o).size := by
    unfold LinCons.isEmpty at h
    unfold LinCons.size
    simp at h
    omega
  have hm := LinStore.get_mem hI hsz
  refine ⟨hm, ?_⟩
  unfold LinStore.get at *
  cases e : s.cons[o]? with
  | none => rw [e] at hsz; simp [LinCons.empty, LinCons.size] at hsz
  | some c =>
    rw [e] at hsz
    rcases hI.dflt o c e with h1 | h1
    · show c.lit.ord = o
      rw [h1.2]; rfl
    · subst h1; simp [LinCons.empty, LinCons.size] at hsz

/-- A boolean variable with a constraint is handled. -/
theorem Keep.onBool (h : Keep hv hc la X Y (fun _ => lev la.trail)) {o : Nat}
    (hb : la.trail.bools.defined o = true) (hne : (la.store.get o).isEmpty = false)
    (hlst : Listed la.trail la.trail.decisionLevel o) :
    Keep hv hc (la.onBool o) X (fun k o' => Y k o' ∧ ¬ (k = la.trail.decisionLevel ∧ o' = o))
      (fun _ => lev la.trail) ∧ Frame la (la.onBool o) := by
  obtain ⟨hm, ho⟩ := get_cons h.base.inv hne
  obtain ⟨h1, f1⟩ := h.check (c := !(la.store.get o).isEmpty) (by rw [hne]; rfl)
  have hcc : IsCons la.store (la.store.get o) := ⟨_, hm, Or.inl rfl⟩
  unfold LA.onBool
  dsimp only
  generalize hc0 : la.store.get o = c at *
  generalize hl1 : la.check (!c.isEmpty) = l1 at *
  have es : l1.store = la.store := by rw [← hl1]; rfl
  have et : l1.trail = la.trail := by rw [← hl1]; rfl
  have hcc1 : IsCons l1.store c := by rw [es]; exact hcc
  have hb1 : l1.trail.bools.defined c.lit.ord = true := by rw [et, ho]; exact hb
  have hvne : l1.store.varsOf c ≠ [] := h1.base.vars_ne hcc1
  have hwi : WI (lev la.trail) (l1.store.varsOf c) := by rw [es]; exact h.wat.wi c hm
  have hund : ∀ y, l1.trail.rats.defined y = false ↔ lev la.trail y = none := by
    intro y; rw [et]; exact h.undefined
  have hdef : ∀ y, l1.trail.rats.defined y = true ↔ ∃ l, lev la.trail y = some l := by
    intro y; rw [et]; exact h.defined
  have fin : ∀ {l2 : LA R}, Keep hv hc l2 X Y (fun _ => lev la.trail) → l2.trail = l1.trail →
      l2.store = l1.store → Frame la l2 → CompO l2.store (mods l2.trail) l2.bnd o →
      Keep hv hc l2 X (fun k o' => Y k o' ∧ ¬ (k = la.trail.decisionLevel ∧ o' = o))
        (fun _ => lev la.trail) ∧ Frame la l2 := by
    intro l2 hk e1 e2 hf hC
    have hF : FullO l2.store (mods l2.trail) o := by
      intro e he heo _
      show l2.trail.bools.defined o = true
      rw [e1, et]; exact hb
    have := hk.sem.done hk.base hF hC
    refine ⟨⟨hk.base, hk.ok, this.mono (fun _ _ _ h => h.1) ?_, hk.wat⟩, hf⟩
    rintro k _ o' ⟨a, b⟩
    refine ⟨a, ?_⟩
    rw [e1, et] at b
    exact b
  by_cases hfull : l1.isFull c = true
  · rw [if_pos hfull]
    have hall := (isFull_eq h1.base hcc1).mp hfull
    obtain ⟨h2, f2⟩ := h1.checkValue hcc1 hb1 hall
    refine fin h2 rfl rfl (f1.trans f2) ?_
    have := compO_of_full (b := l1.bnd) h1.base.inv hcc1 (m := mods l1.trail) hall
    rw [ho] at this
    exact this
  · rw [if_neg hfull]
    have hnf : ¬ ∀ y ∈ l1.store.varsOf c, l1.trail.rats.defined y = true := fun hall =>
      hfull ((isFull_eq h1.base hcc1).mpr hall)
    have unitCase : ∀ x vs, l1.store.varsOf c = x :: vs → l1.trail.rats.defined x = false →
        (∀ y ∈ vs, l1.trail.rats.defined y = true) →
        Keep hv hc (l1.unit c) X (fun k o' => Y k o' ∧ ¬ (k = la.trail.decisionLevel ∧ o' = o))
          (fun _ => lev la.trail) ∧ Frame la (l1.unit c) := by
      intro x vs hvs hx hall
      obtain ⟨h2, f2⟩ := h1.unit hcc1 hb1 hvs hx hall (Or.inl (by rw [et, ho]; exact hlst))
      rw [ho, et] at h2
      exact ⟨h2, f1.trans f2⟩
    have hnotall : ∀ y, ¬ (l1.trail.rats.defined y = true) → l1.trail.rats.defined y = false := by
      intro y hy; rwa [Bool.not_eq_true] at hy
    cases hvs : l1.store.varsOf c with
    | nil => exact absurd hvs hvne
    | cons v0 tl =>
      cases tl with
      | nil =>
        have hx : l1.trail.rats.defined v0 = false := by
          apply hnotall
          intro hd
          apply hnf
          rw [hvs]
          intro y hy
          rw [List.mem_singleton.mp hy]; exact hd
        have hu : l1.isUnit c = true := by
          unfold LA.isUnit
          rw [hvs]
          simp [hx]
        rw [if_pos hu]
        exact unitCase v0 [] hvs hx (by simp)
      | cons v1 rest =>
        rw [hvs] at hwi
        obtain ⟨w1, w2⟩ := hwi
        have hx : l1.trail.rats.defined v0 = false := by
          apply hnotall
          intro hd
          apply hnf
          obtain ⟨n, hn⟩ := (hdef v0).mp hd
          obtain ⟨m, hm', _⟩ := w1 n hn
          rw [hvs]
          intro y hy
          rcases List.mem_cons.mp hy with rfl | hy
          · exact hd
          · rcases List.mem_cons.mp hy with rfl | hy
            · exact (hdef y).mpr ⟨m, hm'⟩
            · obtain ⟨p, hp, _⟩ := w2 y hy m hm'
              exact (hdef y).mpr ⟨p, hp⟩
        by_cases hy1 : l1.trail.rats.defined v1 = true
        · have hu : l1.isUnit c = true := by
            unfold LA.isUnit
            rw [hvs]
            simp [hx, hy1]
          rw [if_pos hu]
          refine unitCase v0 (v1 :: rest) hvs hx ?_
          intro y hy
          rcases List.mem_cons.mp hy with rfl | hy
          · exact hy1
          · obtain ⟨m, hm'⟩ := (hdef v1).mp hy1
            obtain ⟨p, hp, _⟩ := w2 y hy m hm'
            exact (hdef y).mpr ⟨p, hp⟩
        · have hu : ¬ (l1.isUnit c = true) := by
            unfold LA.isUnit
            rw [hvs]
            simp [hx, hy1]
          rw [if_neg hu]
          refine fin h1 rfl rfl f1 ?_
          have hnd : (l1.store.varsOf c).Nodup := by
            rw [es]; exact varsOf_nodup h.base.inv hm
          rw [hvs] at hnd
          have := compO_of_two (b := l1.bnd) h1.base.inv hcc1 (m := mods l1.trail) (y := v0) (z := v1)
            (by rw [hvs]; simp) (by rw [hvs]; simp) (fun e => by simp [e] at hnd) hx (hnotall _ hy1)
          rw [ho] at this
          exact this

theorem Kept.get {s s' : LinStore} (hI : Inv s) (hI' : Inv s') (h : Kept s s') {o : Nat}
    (hne : (s.get o).isEmpty = false) : s'.get o = s.get o := by
  obtain ⟨hm, ho⟩ := get_cons hI hne
  have := LinStore.get_of_mem hI' (h.set _ hm)
  rw [ho] at this
  exact this

/-- The loop over the assigned variables. -/
theorem Keep.foldAssigned : ∀ (vs : List Var) {la : LA R} {Y : Nat → Nat → Prop},
    Keep hv hc la X Y (fun _ => lev la.trail) →
    (∀ v ∈ vs, (v.type = .boolean → la.trail.bools.defined v.ord = true ∧
        (la.store.get v.ord).isEmpty = false ∧ Listed la.trail la.trail.decisionLevel v.ord) ∧
      (v.type = .rational → lev la.trail v.ord = some la.trail.decisionLevel)) →
    Keep hv hc (vs.foldl onAssigned la) X
      (fun k o => Y k o ∧ ¬ (k = la.trail.decisionLevel ∧ ⟨.boolean, o⟩ ∈ vs)) (fun _ => lev la.trail) ∧
      Frame la (vs.foldl onAssigned la) := by
  intro vs
  induction vs with
  | nil => intro la Y h _; exact ⟨h.mono (fun _ _ _ h => h) (fun _ _ _ h => ⟨h, by simp⟩), Frame.refl la⟩
  | cons v vs ih =>
    intro la Y h hvs
    rw [List.foldl_cons]
    have step : ∃ Y', Keep hv hc (la.onAssigned v) X Y' (fun _ => lev la.trail) ∧
        Frame la (la.onAssigned v) ∧ ∀ k o, Y' k o → Y k o ∧
          ¬ (k = la.trail.decisionLevel ∧ (⟨.boolean, o⟩ : Var) = v) := by
      obtain ⟨v1, v2⟩ := hvs v List.mem_cons_self
      obtain ⟨ty, ord⟩ := v
      cases ty with
      | boolean =>
        obtain ⟨b1, b2, b3⟩ := v1 rfl
        obtain ⟨k1, k2⟩ := h.onBool b1 b2 b3
        refine ⟨_, k1, k2, ?_⟩
        rintro k o ⟨a, b⟩
        refine ⟨a, fun ⟨e1, e2⟩ => b ⟨e1, ?_⟩⟩
        exact congrArg Var.ord e2
      | rational =>
        obtain ⟨k1, k2⟩ := h.replaceWatch_again (v2 rfl)
        refine ⟨_, k1, k2, ?_⟩
        intro k o hy
        refine ⟨hy, fun ⟨_, e2⟩ => ?_⟩
        cases congrArg Var.type e2
    obtain ⟨Y', k1, k2, k3⟩ := step
    have k1' : Keep hv hc (la.onAssigned v) X Y' (fun _ => lev (la.onAssigned v).trail) := by
      rw [k2.lev_eq]; exact k1
    obtain ⟨l1, l2⟩ := ih k1' (fun w hw => by
      obtain ⟨w1, w2⟩ := hvs w (List.mem_cons_of_mem _ hw)
      refine ⟨fun ht => ?_, fun ht => ?_⟩
      · obtain ⟨b1, b2, b3⟩ := w1 ht
        refine ⟨?_, ?_, ?_⟩
        · obtain ⟨l, hl⟩ := (h.base.tinv.defined ⟨.boolean, w.ord⟩).mp b1
          exact (k1.base.tinv.defined ⟨.boolean, w.ord⟩).mpr ⟨l, k2.lvl _ _ hl⟩
        · rw [Kept.get h.base.inv k1.base.inv k2.kept b2]; exact b2
        · obtain ⟨a, ha, hav⟩ := b3
          obtain ⟨ext, hext⟩ := k2.asg la.trail.decisionLevel
          exact ⟨a, by rw [k2.dl, hext]; exact List.mem_append_left _ ha, hav⟩
      · rw [k2.lev, k2.dl]; exact w2 ht)
    rw [k2.lev_eq] at l1
    refine ⟨l1.mono (fun _ _ _ h => h) ?_, k2.trans l2⟩
    rintro k _ o ⟨a, b⟩
    obtain ⟨a1, a2⟩ := k3 k o a
    refine ⟨a1, ?_⟩
    rintro ⟨e1, e2⟩
    rcases List.mem_cons.mp e2 with e2 | e2
    · exact a2 ⟨e1, e2⟩
    · exact b ⟨by rw [k2.dl]; exact e1, e2⟩

/-- Bounds deduced from the literals of the current level. -/
theorem Keep.deduceAll : ∀ (as : List (Asg R)) {la : LA R}, Keep hv hc la X Y Lf →
    (∀ a ∈ as, a.var.type = .boolean → la.trail.bools.defined a.var.ord = true ∧
      Listed la.trail la.trail.decisionLevel a.var.ord) →
    Keep hv hc (as.foldl deduceOne la) X Y Lf ∧ Frame la (as.foldl deduceOne la) := by
  intro as
  induction as with
  | nil => intro la h _; exact ⟨h, Frame.refl la⟩
  | cons a as ih =>
    intro la h has
    rw [List.foldl_cons]
    have step : Keep hv hc (la.deduceOne a) X Y Lf ∧ Frame la (la.deduceOne a) ∧
        (la.deduceOne a).trail = la.trail := by
      obtain ⟨⟨ty, o⟩, rs⟩ := a
      cases ty with
      | rational => exact ⟨h, Frame.refl la, rfl⟩
      | boolean =>
        obtain ⟨hd, hlst⟩ := has _ List.mem_cons_self rfl
        unfold LA.deduceOne
        dsimp only at hd hlst ⊢
        by_cases hemp : (la.store.get o).isEmpty = true
        · rw [if_pos hemp]; exact ⟨h, Frame.refl la, rfl⟩
        · rw [if_neg hemp]
          rw [Bool.not_eq_true] at hemp
          obtain ⟨hm, ho⟩ := get_cons h.base.inv hemp
          obtain ⟨p, hp, _⟩ := h.base.inv.idx _ hm
          generalize hc0 : la.store.get o = c at *
          have hneg : c.lit.isNeg = false := by rw [hp]; rfl
          have hcc : IsCons la.store (if la.trail.bools.value o = true then c else c.neg) := by
            split
            · exact ⟨c, hm, Or.inl rfl⟩
            · exact ⟨c, hm, Or.inr rfl⟩
          have hlit : (if la.trail.bools.value o = true then c else c.neg).lit.ord = o ∧
              (la.trail.bools.value o == !(if la.trail.bools.value o = true then c else c.neg).lit.isNeg)
                = true := by
            split
            · rename_i hv'; rw [hv', hneg]; exact ⟨ho, rfl⟩
            · rename_i hv'
              rw [Bool.not_eq_true] at hv'
              have : c.neg.lit = c.lit.neg := rfl
              rw [hv', this]
              rw [Lit.ord_neg, Lit.isNeg_neg, hneg]
              exact ⟨ho, rfl⟩
          generalize hd' : (if la.trail.bools.value o = true then c else c.neg) = d at *
          obtain ⟨k1, k2⟩ := h.check (c := la.trail.bools.value d.lit.ord == !d.lit.isNeg)
            (by rw [hlit.1]; exact hlit.2)
          have hs : Steps hv hc (la.check (la.trail.bools.value d.lit.ord == !d.lit.isNeg)).core
              { (la.check (la.trail.bools.value d.lit.ord == !d.lit.isNeg)).core with
                bnd := la.bnd.deduce la.store la.models d } :=
            Steps.step (.deduce d) (Steps.refl _) ⟨hcc, by
              show evalLit la.trail.bools d.lit = some true
              unfold evalLit
              rw [hlit.1, if_pos hd, hlit.2]⟩
          have k3 := k1.bnd hs (keepsAll_deduce la.store la.models la.bnd d)
          refine ⟨k3, k2.trans (Frame.bnd _ _ fun k y e he => ?_), rfl⟩
          rcases (newIn_deduce la.store la.models la.bnd d).2 k y e he with h' | ⟨-, hre, p, hp1, hp2⟩
          · exact Or.inl h'
          · right
            rw [NewB, hre]
            exact ⟨hcc, Or.inl ⟨by rw [hlit.1]; exact hlst, p, hp1, h.undefined.mp hp2⟩⟩
    obtain ⟨s1, s2, s3⟩ := step
    obtain ⟨l1, l2⟩ := ih s1 (fun b hb ht => by rw [s3]; exact has b (List.mem_cons_of_mem _ hb) ht)
    exact ⟨l1, s2.trans l2⟩

theorem Keep.listed_defined (h : Keep hv hc la X Y Lf) {k : Nat} {a : Asg R}
    (ha : a ∈ la.trail.assigned k) : ∃ l ≤ k, la.trail.level a.var = some l := by
  unfold Trail.assigned at ha
  rw [List.getD_eq_getElem?_getD] at ha
  cases hk : la.trail.levels[k]? with
  | none => rw [hk] at ha; simp at ha
  | some xs =>
    rw [hk] at ha
    obtain ⟨l, h1, h2, _⟩ := h.base.tinv.listed k xs a hk ha
    exact ⟨l, h2, h1⟩

theorem Keep.propagateBounds (h : Keep hv hc la X Y Lf) :
    Keep hv hc la.propagateBounds X Y Lf ∧ Frame la la.propagateBounds := by
  refine Keep.deduceAll _ h (fun a ha ht => ?_)
  obtain ⟨l, _, hl⟩ := h.listed_defined ha
  obtain ⟨⟨ty, o⟩, rs⟩ := a
  dsimp only at ht
  subst ht
  exact ⟨(h.base.tinv.defined ⟨.boolean, o⟩).mpr ⟨l, hl⟩, _, ha, rfl⟩

/-- The variables `propagate` looks at. -/
def todo (la : LA R) : List Var :=
  ((la.trail.assigned la.trail.decisionLevel).drop la.skip).map (·.var)

/-- `propagate` after the loop over the assigned variables. -/
theorem Keep.propagateTail (o : LaOpts) (h : Keep hv hc la X Y (fun _ => lev la.trail)) :
    let r := (if o.propBounds then la.propagateBounds else la).finish hv hc o
    Keep hv hc r.1 X Y (fun _ => lev r.1.trail) ∧ Frame la r.1 ∧ ∀ cl ∈ r.2, Refuted r.1 cl := by
  intro r
  have key : Keep hv hc (if o.propBounds then la.propagateBounds else la) X Y
      (fun _ => lev (if o.propBounds then la.propagateBounds else la).trail) ∧
      Frame la (if o.propBounds then la.propagateBounds else la) := by
    split
    · obtain ⟨k1, k2⟩ := h.propagateBounds
      exact ⟨by rw [k2.lev_eq]; exact k1, k2⟩
    · exact ⟨h, Frame.refl la⟩
  obtain ⟨l1, l2, l3⟩ := key.1.finish o
  exact ⟨l1, key.2.trans l2, l3⟩

theorem Keep.take (h : Keep hv hc la X Y Lf) : Keep hv hc la.takeAssigned.1 X Y Lf :=
  ⟨h.base, h.ok, h.sem, h.wat⟩

/-- The loop of `propagate` when the watch lists are up to date. -/
theorem Keep.handled (h : Keep hv hc la X Y (fun _ => lev la.trail)) :
    Keep hv hc ((la.todo.filter la.relevant).foldl onAssigned la.takeAssigned.1) X
      (fun k o => Y k o ∧ ¬ (k = la.trail.decisionLevel ∧ ⟨.boolean, o⟩ ∈ la.todo))
      (fun _ => lev ((la.todo.filter la.relevant).foldl onAssigned la.takeAssigned.1).trail) ∧
    Frame la.takeAssigned.1 ((la.todo.filter la.relevant).foldl onAssigned la.takeAssigned.1) := by
  have h0 : Keep hv hc la.takeAssigned.1 X (fun k o => Y k o ∧
      ¬ (k = la.trail.decisionLevel ∧ la.relevant ⟨.boolean, o⟩ = false))
      (fun _ => lev la.takeAssigned.1.trail) := by
    refine ⟨h.base, h.ok, ⟨h.sem.vals, h.sem.full, ?_⟩, h.wat⟩
    intro k hk o' hy
    by_cases hin : k = la.trail.decisionLevel ∧ la.relevant ⟨.boolean, o'⟩ = false
    · apply compO_of_none
      intro c hcc ho
      have hne := h.base.vars_ne hcc
      obtain ⟨e, he, hce⟩ := hcc
      have heo : e.lit.ord = o' := by
        rw [← ho]
        rcases hce with rfl | rfl
        · rfl
        · exact (Lit.ord_neg _).symm
      have hge := LinStore.get_of_mem h.base.inv he
      have h3 := hin.2
      unfold LA.relevant at h3
      dsimp only at h3
      rw [← heo, hge] at h3
      have hev : la.store.varsOf e ≠ [] := h.base.vars_ne ⟨e, he, Or.inl rfl⟩
      apply hev
      apply List.eq_nil_of_length_eq_zero
      rw [varsOf_length h.base.inv he]
      unfold LinCons.isEmpty at h3
      unfold LinCons.size
      simp at h3
      omega
    · exact h.sem.comp k hk o' (fun a => hy ⟨a, hin⟩)
  have hlist : ∀ v ∈ la.todo, ∃ a ∈ la.trail.assigned la.trail.decisionLevel, a.var = v := by
    intro v hv
    obtain ⟨a, ha, rfl⟩ := List.mem_map.mp hv
    exact ⟨a, List.mem_of_mem_drop ha, rfl⟩
  obtain ⟨k1, k2⟩ := Keep.foldAssigned (la.todo.filter la.relevant) h0 (fun v hv => by
    obtain ⟨hv1, hv2⟩ := List.mem_filter.mp hv
    obtain ⟨a, ha, hav⟩ := hlist v hv1
    refine ⟨fun ht => ?_, fun ht => ?_⟩
    · obtain ⟨l, _, hl⟩ := h.listed_defined ha
      rw [hav] at hl
      obtain ⟨ty, ord⟩ := v
      dsimp only at ht
      subst ht
      refine ⟨(h.base.tinv.defined ⟨.boolean, ord⟩).mpr ⟨l, hl⟩, ?_, a, ha, hav⟩
      unfold LA.relevant at hv2
      show (la.store.get ord).isEmpty = false
      simpa using hv2
    · unfold Trail.assigned at ha
      rw [List.getD_eq_getElem?_getD] at ha
      cases hk : la.trail.levels[la.trail.decisionLevel]? with
      | none => rw [hk] at ha; simp at ha
      | some xs =>
        rw [hk] at ha
        have := (h.base.rat _ xs a hk ha (by rw [hav]; exact ht)).1
        rw [hav] at this
        obtain ⟨ty, ord⟩ := v
        dsimp only at ht
        subst ht
        exact this)
  rw [← k2.lev_eq] at k1
  have k1' : Keep hv hc ((la.todo.filter la.relevant).foldl onAssigned la.takeAssigned.1) X
      (fun k o => Y k o ∧ ¬ (k = la.trail.decisionLevel ∧ ⟨.boolean, o⟩ ∈ la.todo))
      (fun _ => lev ((la.todo.filter la.relevant).foldl onAssigned la.takeAssigned.1).trail) := by
    refine k1.mono (fun _ _ _ h => h) ?_
    rintro k _ o' ⟨⟨a1, a2⟩, b⟩
    refine ⟨a1, fun ⟨e1, e2⟩ => ?_⟩
    by_cases hre : la.relevant ⟨.boolean, o'⟩ = true
    · exact b ⟨e1, List.mem_filter.mpr ⟨e2, hre⟩⟩
    · rw [Bool.not_eq_true] at hre
      exact a2 ⟨e1, hre⟩
  exact ⟨k1', k2⟩

/-- `propagate` when the watch lists are up to date. -/
theorem Keep.propagate (o : LaOpts) (h : Keep hv hc la X Y (fun _ => lev la.trail)) :
    let r := la.propagate hv hc o
    Keep hv hc r.1 X (fun k o => Y k o ∧ ¬ (k = la.trail.decisionLevel ∧ ⟨.boolean, o⟩ ∈ la.todo))
      (fun _ => lev r.1.trail) ∧
    Frame la.takeAssigned.1 r.1 ∧ ∀ cl ∈ r.2, Refuted r.1 cl := by
  intro r
  obtain ⟨k1', k2⟩ := h.handled
  obtain ⟨l1, l2, l3⟩ := k1'.propagateTail o
  exact ⟨l1, k2.trans l2, l3⟩

/-- `propagate` after the decision of a rational variable. -/
theorem Keep.propagateDecided (o : LaOpts) {w : Nat} {rs : Option R}
    (hasg : la.trail.assigned la.trail.decisionLevel = [⟨⟨.rational, w⟩, rs⟩]) (hskip : la.skip = 0)
    (hw : lev la.trail w = some la.trail.decisionLevel)
    (h : Keep hv hc la X Y (fun o => if o ∈ ords (la.watched w) then Function.update (lev la.trail) w none
      else lev la.trail)) :
    let r := la.propagate hv hc o
    Keep hv hc r.1 (fun k o => X k o ∧ ¬ (k = la.trail.decisionLevel ∧ o ∈ ords (la.watched w)))
      (fun k o => Y k o ∧ ¬ (k = la.trail.decisionLevel ∧ o ∈ ords (la.watched w)))
      (fun _ => lev r.1.trail) ∧
    Frame la.takeAssigned.1 r.1 ∧ ∀ cl ∈ r.2, Refuted r.1 cl := by
  intro r
  have h0 := h.take
  obtain ⟨k1, k2⟩ := Keep.replaceWatch (la := la.takeAssigned.1) hw h0
  have k1' := k1
  rw [← k2.lev_eq] at k1'
  obtain ⟨l1, l2, l3⟩ := k1'.propagateTail o
  have hr : r = (if o.propBounds then (la.takeAssigned.1.replaceWatch w).propagateBounds
      else la.takeAssigned.1.replaceWatch w).finish hv hc o := by
    show la.propagate hv hc o = _
    unfold LA.propagate
    have e : la.takeAssigned.2 = [⟨.rational, w⟩] := by
      unfold LA.takeAssigned
      dsimp only
      rw [hasg, hskip]
      rfl
    dsimp only
    rw [e]
    rfl
  rw [hr]
  exact ⟨l1, k2.trans l2, l3⟩

theorem permits_of_allowed {st : St} (h : LInv st) {x : Nat} {q : ℚ}
    (ha : ((st.bnd.vb x).isAllowed st.store st.models q).2 = true) :
    Permits st.store st.models st.bnd x q := by
  obtain ⟨hs, hr⟩ := allowed_spec st.store st.models st.bnd x q
  obtain ⟨hd, hb⟩ := hr ha
  refine ⟨?_, ?_⟩
  · intro up b hm hl
    obtain ⟨t, ht, hor⟩ := query_best h hm hl
    have := hb up t ht
    rcases hor with e | hbet
    · rw [← e]; exact this
    · exact resp_of_better hbet this
  · intro b hm hl
    exact fun e => hd b hm hl e.symm

theorem WI.front {L : Nat → Option Nat} {vs : List Nat} (hw : WI L vs) (hnd : vs.Nodup) {x : Nat}
    (hx : x ∈ vs) (hL : L x = .none) (hn : x ∉ vs.take 2) :
    ∃ y ∈ vs, ∃ z ∈ vs, y ≠ z ∧ y ≠ x ∧ z ≠ x ∧ L y = .none ∧ L z = .none := by
  match vs, hw, hnd, hx, hn with
  | [a], _, _, hx, hn => exact absurd hx (by simpa using hn)
  | v0 :: v1 :: rest, hw, hnd, hx, hn =>
    simp only [List.take_succ_cons, List.take_zero, List.mem_cons, List.not_mem_nil, or_false, not_or] at hn
    have hr : x ∈ rest := by
      rcases List.mem_cons.mp hx with e | hx
      · exact absurd e hn.1
      · rcases List.mem_cons.mp hx with e | hx
        · exact absurd e hn.2
        · exact hx
    have h1 : L v1 = .none := by
      have := hw.2 x hr
      rw [hL] at this
      exact this.eq_none
    have h0 : L v0 = .none := by
      have := hw.1
      rw [h1] at this
      exact this.eq_none
    refine ⟨v0, by simp, v1, by simp, ?_, fun e => hn.1 e.symm, fun e => hn.2 e.symm, h0, h1⟩
    rintro rfl
    simp at hnd

/-- `decide` of a rational variable. -/
theorem Keep.decide {la' : LA R} {fuel x : Nat} (h : Keep hv hc la X Y (fun _ => lev la.trail))
    (hY0 : ∀ o, ¬ Y la.trail.decisionLevel o) (hX0 : ∀ k o, ¬ X k o) (hx : x < la.trail.rats.num)
    (hu : la.level x = none) (hd : la.decide fuel x = some la') :
    Keep hv hc la' (fun k o => k = la.trail.decisionLevel + 1 ∧ o ∈ ords (la.watched x))
      (fun k o => (k ≤ la.trail.decisionLevel ∧ Y k o) ∨
        (k = la.trail.decisionLevel + 1 ∧ o ∈ ords (la.watched x)))
      (fun o => if o ∈ ords (la.watched x) then Function.update (lev la'.trail) x none
        else lev la'.trail) ∧
    la'.watched = la.watched ∧ la'.curLevel = la.curLevel ∧ la'.store = la.store ∧
    ∃ q, la'.trail = (la.trail.decide ⟨.rational, x⟩).setValue ⟨.rational, x⟩ (.q q) := by
  unfold LA.decide at hd
  dsimp only at hd
  cases hr : ((la.bnd.vb x).chooseValue la.store la.models fuel (la.cached x)).2 with
  | none => rw [hr] at hd; cases hd
  | some q =>
    rw [hr] at hd
    dsimp only at hd
    injection hd with hd
    rw [setValue_decide] at hd
    obtain ⟨hE, hA⟩ := VBounds.chooseValue_sound (s := la.store) (m := la.models) (la.bnd.vb x) fuel
      (la.cached x)
    have hal := hA q hr
    obtain ⟨b1, hb1⟩ : ∃ b1, b1 = la.bnd.put x
        ((la.bnd.vb x).chooseValue la.store la.models fuel (la.cached x)).1 := ⟨_, rfl⟩
    have hst : Steps hv hc la.core { la.core with bnd := b1 } := by
      rw [hb1]
      exact vsteps_chooseValue (hv := hv) (hc := hc) (x := x) fuel (la.cached x) (la.bnd.vb x) la.bnd rfl
    have hk1 : KeepsAll la.store la.models la.bnd b1 := by rw [hb1]; exact keepsAll_eqv hE
    have h1 := h.bnd hst hk1
    have hvb : b1.vb x = ((la.bnd.vb x).chooseValue la.store la.models fuel (la.cached x)).1 := by
      rw [hb1, vb_put, if_pos rfl]
    have hallowed : ((b1.vb x).isAllowed la.store la.models q).2 = true := by
      rw [VBounds.isAllowed_iff, hvb, hE.allows]; exact hal
    have e1 : la'.trail = (la.trail.decide ⟨.rational, x⟩).setValue ⟨.rational, x⟩ (.q q) := by
      rw [← hd]; rfl
    have e2 : la'.store = la.store := by rw [← hd]; rfl
    have e3 : la'.bnd = b1.put x ((b1.vb x).isAllowed la.store la.models q).1 := by
      rw [← hd, hb1]; rfl
    have e4 : la'.watched = la.watched := by rw [← hd]; rfl
    have e5 : la'.curLevel = la.curLevel := by rw [← hd]; rfl
    have e6 : la'.ok = (la.ok && ((b1.vb x).isAllowed la.store la.models q).2) := by
      rw [← hd, hb1]; rfl
    have hp : Permits la.store la.models b1 x q :=
      permits_of_allowed (st := ⟨la.store, la.models, b1⟩) h1.base.linv hallowed
    have hB := h1.base.decideRat hx hu hallowed
    have htin := Trail.decide_inv h.base.tinv ⟨.rational, x⟩ (.q q) hx hu rfl
    have hdl := dl_succ h.base.tinv
    have hlevel : la'.trail.level =
        Function.update la.trail.level ⟨.rational, x⟩ (some (la.trail.decisionLevel + 1)) := by
      rw [e1, ← hdl]; rfl
    have hlev : lev la'.trail = Function.update (lev la.trail) x (some (la.trail.decisionLevel + 1)) := by
      funext y
      unfold lev
      rw [hlevel]
      by_cases hy : y = x
      · subst hy; rw [Function.update_self, Function.update_self]
      · rw [Function.update_of_ne hy, Function.update_of_ne (by simpa using hy)]
    have hlx : lev la.trail x = none := hu
    have hdl' : la'.trail.decisionLevel = la.trail.decisionLevel + 1 := by
      rw [e1]
      show (la.trail.levels ++ [[_]]).length - 1 = _
      rw [List.length_append, hdl]; rfl
    have hwatch : ∀ e ∈ la.store.set, x ∈ (la.store.varsOf e).take 2 → e.lit.ord ∈ ords (la.watched x) := by
      intro e he hx2
      obtain ⟨c, i, hci, hco⟩ := h.wat.cov e he x hx2
      exact List.mem_map.mpr ⟨(c, i), hci, hco⟩
    have hfront : ∀ e ∈ la.store.set, x ∈ la.store.varsOf e → e.lit.ord ∉ ords (la.watched x) →
        ∃ y ∈ la.store.varsOf e, ∃ z ∈ la.store.varsOf e, y ≠ z ∧ y ≠ x ∧ z ≠ x ∧
          la.trail.rats.defined y = false ∧ la.trail.rats.defined z = false := by
      intro e he hxe hno
      obtain ⟨y, hy, z, hz, a1, a2, a3, a4, a5⟩ := (h.wat.wi e he).front (varsOf_nodup h.base.inv he) hxe hlx
        (fun h2 => hno (hwatch e he h2))
      exact ⟨y, hy, z, hz, a1, a2, a3, h.undefined.mpr a4, h.undefined.mpr a5⟩
    refine ⟨⟨?_, ?_, ?_, ?_⟩, e4, e5, e2, q, e1⟩
    · rw [e1, e2, e3]; exact hB
    · rw [e6, h.ok, hallowed]; rfl
    · rw [e2, e3]
      refine Sem.assignRat (t := la.trail) (b := b1) h1.base h1.sem (x := x) (q := q) ?_ hlevel ?_ ?_ hdl' hu hp
        (keepsAll_eqv (VBounds.eqv_isAllowed _ _)) hY0 ?_ ?_ ?_ ?_ ?_
      · rw [e1]; exact htin
      · rw [e1]; rfl
      · rw [e1]; rfl
      · intro k _ o hX; exact absurd hX (hX0 k o)
      · intro k hk o hY; exact Or.inl ⟨hk, hY⟩
      · intro o hX; exact absurd hX (hX0 _ o)
      · intro e he hxe hall
        refine ⟨rfl, ?_⟩
        by_contra hno
        obtain ⟨y, hy, z, hz, a1, a2, a3, a4, a5⟩ := hfront e he hxe hno
        rw [hall y hy a2] at a4
        cases a4
      · rintro e he hxe ⟨z', hz', b1, b2, b3⟩
        refine Or.inr ⟨rfl, ?_⟩
        by_contra hno
        obtain ⟨y, hy, z, hz, a1, a2, a3, a4, a5⟩ := hfront e he hxe hno
        by_cases hyz : y = z'
        · rw [b3 z hz a3 (fun e => a1 (by rw [hyz, e]))] at a5
          cases a5
        · rw [b3 y hy a2 hyz] at a4
          cases a4
    · rw [e2, e4]
      refine h.wat.congr fun e he => ?_
      have hwi := h.wat.wi e he
      split
      · rw [hlev, Function.update_idem, ← hlx, Function.update_eq_self]
        exact hwi
      · rename_i hno
        rw [hlev]
        exact hwi.assign hlx (fun h2 => hno (hwatch e he h2))

end LA
end Yaga
