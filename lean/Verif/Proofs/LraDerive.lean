/-
Creating constraints and propagating their literals.
-/
import Verif.Proofs.LraReplace

set_option linter.unusedSimpArgs false
set_option linter.unusedVariables false

namespace Yaga
open Spec
open LinStore (delta WfTerms Inv Kept Made)

namespace LA
open Lra
variable {R : Type} {hv : Nat → Nat} {hc : ℚ → Nat} {t t' : Trail R} {s s' : LinStore} {b b' : BState}
variable {X Y X' Y' : Nat → Nat → Prop} {la : LA R} {Lf : Nat → Nat → Option Nat}

/-- Literals of constraints are variables of the trail. -/
theorem Base.ord_lt (hB : Base hv hc t s b) {c : LinCons} (hcc : IsCons s c) : c.lit.ord < t.bools.num := by
  have := hB.linv.len
  have h2 : s.cons.length = t.bools.num := this
  obtain ⟨e, he, hce⟩ := hcc
  have : c.lit.ord = e.lit.ord := by rcases hce with r | r <;> rw [r]; exact LinStore.Lit.neg_ord _
  obtain ⟨k, h3, h4⟩ := hB.inv.idx e he
  rw [this, h3, LinStore.Lit.pos_ord, ← h2]
  exact (List.getElem?_eq_some_iff.mp h4).1

/-- The variables of the terms with a nonzero coefficient. -/
def nzVars (ts : List (Nat × ℚ)) : List Nat := (ts.filter fun p => Decidable.decide (p.2 ≠ 0)).map (·.1)

theorem nzVars_ne {ts : List (Nat × ℚ)} (h : ∃ q ∈ ts, q.2 ≠ 0) : nzVars ts ≠ [] := by
  obtain ⟨q, hq, hq0⟩ := h
  intro e
  have : q.1 ∈ nzVars ts := List.mem_map.mpr ⟨q, List.mem_filter.mpr ⟨hq, by simpa using hq0⟩, rfl⟩
  rw [e] at this; cases this

theorem nzVars_mem {ts : List (Nat × ℚ)} {y : Nat} (h : y ∈ nzVars ts) : ∃ q ∈ ts, q.1 = y := by
  obtain ⟨q, hq, rfl⟩ := List.mem_map.mp h
  exact ⟨q, (List.mem_filter.mp hq).1, rfl⟩

theorem nzVars_nodup {ts : List (Nat × ℚ)} (h : (ts.map (·.1)).Nodup) : (nzVars ts).Nodup := by
  unfold nzVars
  exact h.sublist (List.filter_sublist.map _)

/-- The watch lists with a new constraint. -/
theorem Wat.add {w : Nat → List (LinCons × Nat)} (hI' : Inv s') (hW : Wat Lf s w) {e c : LinCons}
    {vs : List Nat} {n : Nat} (hset : s'.set = s.set ++ [e]) (hold : ∀ d ∈ s.set, s'.varsOf d = s.varsOf d)
    (hlt : ∀ c, IsCons s c → c.lit.ord < n) (heo : e.lit.ord = n) (hce : c = e ∨ c = e.neg)
    (hvs : s'.varsOf e = vs) (hne : vs ≠ []) (hnd : vs.Nodup) (hwi : WI (Lf n) vs) :
    Wat Lf s' (addWatch w s' c) := by
  have he : e ∈ s'.set := by rw [hset]; simp
  have hvc : s'.varsOf c = vs := by rw [← hvs]; rcases hce with r | r <;> rw [r]; rfl
  have hoc : c.lit.ord = n := by rw [← heo]; rcases hce with r | r <;> rw [r]; exact LinStore.Lit.neg_ord _
  have hsz : c.size = vs.length := by
    rw [← hvs, varsOf_length hI' he]; rcases hce with r | r <;> rw [r]; rfl
  set k := min 2 (c.size - 1) with hk
  have hspec : ∀ u, addWatch w s' c u = if u ∈ vs.take 2 then w u ++ [(c, k)] else w u := by
    intro u
    unfold addWatch
    rw [hvc]
    match vs, hne, hnd with
    | [x], _, _ =>
      simp only [List.take_succ_cons, List.take_nil, List.mem_singleton]
      unfold pushWatch
      by_cases hu : u = x
      · subst hu; rw [if_pos rfl, Function.update_self]
      · rw [if_neg hu, Function.update_of_ne hu]
    | x :: y :: r, _, hnd =>
      simp only [List.take_succ_cons, List.take_zero, List.mem_cons, List.not_mem_nil, or_false]
      unfold pushWatch
      have hxy : x ≠ y := by
        intro e'; subst e'
        exact (List.nodup_cons.mp hnd).1 (by simp)
      by_cases hu : u = y
      · subst hu
        rw [if_pos (Or.inr rfl), Function.update_self, Function.update_of_ne (Ne.symm hxy)]
      · rw [Function.update_of_ne hu]
        by_cases hux : u = x
        · subst hux; rw [if_pos (Or.inl rfl), Function.update_self]
        · rw [if_neg (by rintro (h | h); exacts [hux h, hu h]), Function.update_of_ne hux]
  have hno : ∀ u p, p ∈ w u → p.1.lit.ord ≠ n := fun u p hp =>
    ne_of_lt (hlt _ (hW.mem u p.1 p.2 hp).1)
  have hmem : ∀ u p, p ∈ addWatch w s' c u → p ∈ w u ∨ (p = (c, k) ∧ u ∈ vs.take 2) := by
    intro u p hp
    rw [hspec] at hp
    split at hp
    · rename_i hu
      rcases List.mem_append.mp hp with h | h
      · exact Or.inl h
      · exact Or.inr ⟨by simpa using h, hu⟩
    · exact Or.inl hp
  have hsub : ∀ u p, p ∈ w u → p ∈ addWatch w s' c u := by
    intro u p hp
    rw [hspec]
    split
    · exact List.mem_append_left _ hp
    · exact hp
  refine ⟨fun d hd => ?_, fun u d i hm => ?_, fun d hd u hu => ?_, fun u => ?_⟩
  · rw [hset] at hd
    rcases List.mem_append.mp hd with hd | hd
    · rw [hold d hd]; exact hW.wi d hd
    · have : d = e := by simpa using hd
      rw [this, hvs, heo]; exact hwi
  · rcases hmem u (d, i) hm with h | ⟨h, hu⟩
    · obtain ⟨f, hf, hdf, _, hvf, _⟩ := hW.isCons h
      obtain ⟨h1, h2, h3⟩ := hW.mem u d i h
      refine ⟨⟨f, by rw [hset]; simp [hf], hdf⟩, ?_, h3⟩
      have : s'.varsOf d = s.varsOf d := by
        rw [hvf, ← hold f hf]; rcases hdf with r | r <;> rw [r]; rfl
      rw [this]; exact h2
    · cases h
      refine ⟨⟨e, he, hce⟩, by rw [hvc]; exact hu, fun _ => by omega⟩
  · rw [hset] at hd
    rcases List.mem_append.mp hd with hd | hd
    · rw [hold d hd] at hu
      obtain ⟨f, i, hf, hfo⟩ := hW.cov d hd u hu
      exact ⟨f, i, hsub u _ hf, hfo⟩
    · have : d = e := by simpa using hd
      subst this
      rw [hvs] at hu
      refine ⟨c, k, ?_, by rw [hoc, heo]⟩
      rw [hspec, if_pos hu]; simp
  · rw [hspec]
    split
    · rw [List.map_append, List.map_singleton]
      refine List.nodup_append.mpr ⟨hW.uniq u, by simp, ?_⟩
      intro a ha b' hb' hab
      simp at hb'
      obtain ⟨p, hp, hpa⟩ := List.mem_map.mp ha
      exact hno u p hp (by rw [hpa, hab, hb', hoc])
    · exact hW.uniq u

/-- Creating a constraint whose variables are all assigned or all unassigned. -/
theorem Keep.constraint (h : Keep hv hc la X Y Lf) {ts : List (Nat × ℚ)} (hts : (ts.map (·.1)).Nodup)
    (hne : ∃ q ∈ ts, q.2 ≠ 0) (hdom : ∀ q ∈ ts, q.1 < la.trail.rats.num)
    (hm : (∀ q ∈ ts, la.trail.rats.defined q.1 = true) ∨ (∀ q ∈ ts, la.trail.rats.defined q.1 = false))
    (pred : Pred) (rhs : ℚ) (hwi : WI (Lf la.trail.bools.num) (nzVars ts)) :
    let r := la.constraint hv hc ts pred rhs
    Frame la r.1 ∧ IsCons r.1.store r.2 ∧ (r.1.store.varsOf r.2).Perm (nzVars ts) ∧ r.1.bnd = la.bnd ∧
    r.1.core = ⟨(Lra.constraint hv hc la.store la.models ts pred rhs).1,
      (Lra.constraint hv hc la.store la.models ts pred rhs).2.1, la.bnd⟩ ∧
    r.2 = (Lra.constraint hv hc la.store la.models ts pred rhs).2.2 ∧
    ((Keep hv hc r.1 X Y Lf ∧ r.1 = la) ∨
     (r.2.lit.ord = la.trail.bools.num ∧ r.1.trail.bools.defined r.2.lit.ord = false ∧
      (∀ u, u ∉ nzVars ts → r.1.watched u = la.watched u) ∧
      Keep hv hc r.1 (fun k o => X k o ∨ o = la.trail.bools.num) Y Lf)) := by
  intro r
  have hl : la.store.cons.length = la.models.bools.num := h.base.linv.len
  obtain ⟨hI', hK, hterms, hlen, _, e0, hM⟩ :=
    constraint_spec hv hc (m := la.models) h.base.inv hl hts pred rhs
  obtain ⟨hperm, hcases⟩ := constraint_cases hv hc (m := la.models) h.base.inv hl hts hne hm pred rhs
  have hr : r = la.constraint hv hc ts pred rhs := rfl
  unfold LA.constraint at hr
  simp only at hr
  rcases hcases with ⟨h1, h2, h3⟩ | ⟨h1, h3, e, he1, he2, he3, he4⟩
  · have h1' : ¬ (Lra.constraint hv hc la.store la.models ts pred rhs).2.2.lit.ord ≥ la.trail.bools.num := by
      have : la.models.bools.num = la.trail.bools.num := rfl
      omega
    rw [if_neg h1', h2] at hr
    have e1 : r.1 = la := by rw [hr]
    have e2 : r.2 = (Lra.constraint hv hc la.store la.models ts pred rhs).2.2 := by rw [hr]
    rw [e1, e2]
    rw [h2] at hperm
    refine ⟨Frame.refl la, ?_, hperm, rfl, ?_, rfl, Or.inl ⟨h, rfl⟩⟩
    · have := hM.mem
      rw [h2] at this
      exact ⟨e0, this, hM.eq⟩
    · rw [h2, h3]; rfl
  · have hnum : la.models.bools.num = la.trail.bools.num := rfl
    rw [if_pos (by omega), h1, hnum] at hr
    set q := Lra.constraint hv hc la.store la.models ts pred rhs with hq
    have e1 : r.1 =
        { la with
          trail := la.trail.resize .boolean (la.trail.bools.num + 1)
          store := q.1
          watched := addWatch la.watched q.1 q.2.2 } := by rw [hr]
    have e2 : r.2 = q.2.2 := by rw [hr]
    obtain ⟨t1, t2, t3⟩ := resize_same h.base.tinv .boolean (n := la.trail.bools.num + 1) (by
      show la.trail.bools.num ≤ _; omega)
    have hdl := dl_resize h.base.tinv .boolean (n := la.trail.bools.num + 1) (by
      show la.trail.bools.num ≤ _; omega)
    have hbase : Base hv hc (la.trail.resize .boolean (la.trail.bools.num + 1)) q.1 la.bnd := by
      refine ⟨?_, t3, ?_, fun d hd => ?_⟩
      · have := Steps.step (hv := hv) (hc := hc) (.constraint ts pred rhs) h.base.reach hts
        simp only [Op.run] at this
        have e : (⟨q.1, mods (la.trail.resize .boolean (la.trail.bools.num + 1)), la.bnd⟩ : St) =
            ⟨q.1, q.2.1, la.bnd⟩ := by
          rw [h3]; rfl
        rw [e]; exact this
      · rw [t1, t2]; exact h.base.rat
      · rw [he2] at hd
        rcases List.mem_append.mp hd with hd | hd
        · rw [hterms d hd]; exact h.base.ne d hd
        · have : d = e := by simpa using hd
          subst this
          have hmem : d ∈ q.1.set := by rw [he2]; simp
          intro hnil
          rw [LinStore.varsOf_eq hI'.len (hI'.rng d hmem).2, hnil] at he4
          exact nzVars_ne hne he4.symm
    have hnew : la.trail.level ⟨.boolean, la.trail.bools.num⟩ = none := by
      by_contra hcon
      obtain ⟨l, hl⟩ := Option.ne_none_iff_exists'.mp hcon
      have := h.base.tinv.range _ _ hl
      have h5 : la.trail.bools.num < la.trail.bools.num := this
      exact lt_irrefl _ h5
    have heo : e.lit.ord = la.trail.bools.num := by rw [he1]; exact LinStore.Lit.pos_ord _
    have hsem : Sem (la.trail.resize .boolean (la.trail.bools.num + 1)) q.1 la.bnd
        (fun k o => X k o ∨ o = la.trail.bools.num) Y := by
      refine Sem.env h.base t3 (le_of_eq hdl) hI' hK (fun k _ => resize_ext h.base.tinv .boolean (by
        show la.trail.bools.num ≤ _; omega) k) (fun d hd => ?_) (fun _ _ _ h => Or.inl h)
        (fun _ _ _ h => h) h.sem
      rw [he2] at hd
      rcases List.mem_append.mp hd with hd | hd
      · exact Or.inl hd
      · have : d = e := by simpa using hd
        subst this
        exact Or.inr fun k _ => ⟨Or.inr heo, by rw [t1, heo]; exact hnew⟩
    have hwat : Wat Lf q.1 (addWatch la.watched q.1 q.2.2) := by
      refine Wat.add hI' h.wat he2 (fun d hd => ?_) (fun c hcc => h.base.ord_lt hcc) heo he3 he4
        (nzVars_ne hne) (nzVars_nodup hts) hwi
      rw [LinStore.varsOf_eq hI'.len (hI'.rng d (hK.set d hd)).2, hterms d hd,
        LinStore.varsOf_eq h.base.inv.len (h.base.inv.rng d hd).2]
    rw [e1, e2]
    refine ⟨⟨hdl, rfl, fun x => congrFun t1 _, fun k => ⟨[], by
      show (la.trail.resize _ _).assigned k = _
      unfold Trail.assigned; rw [t2]; simp⟩, fun v l hl =>
      (congrFun t1 v).trans hl, hK, rfl, rfl, fun o l hl => by
      have : o < la.trail.bools.num := h.base.tinv.range _ _ hl
      show (if o < la.trail.bools.num ∧ o < la.trail.bools.num + 1 then _ else _) = _
      rw [if_pos ⟨this, by omega⟩], by
      show la.trail.bools.num ≤ la.trail.bools.num + 1
      omega, fun v => ?_, fun v l h1 h2 => ?_, fun k a ha => ?_, fun v l h1 h2 => ?_, fun v l h1 h2 => ?_,
      fun _ _ _ h => Or.inl h, ⟨PStep.resize _ _ _, PStep.refl _⟩, fun d hd => ?_⟩, ⟨e, by rw [he2]; simp, he3⟩,
      hperm, rfl, ?_, rfl, Or.inr ⟨h1, ?_, fun u hu => ?_, ⟨hbase, h.ok, hsem, hwat⟩⟩⟩
    · have := (Trail.level_resize la.trail h.base.tinv .boolean (la.trail.bools.num + 1)
        (fun v l hv hl => by
          have := h.base.tinv.range v l hl
          rw [hv] at this
          have : v.ord < la.trail.bools.num := this
          omega)).2.1
      exact congrFun this v
    · rw [show (la.trail.resize .boolean (la.trail.bools.num + 1)).level v = la.trail.level v from
        congrFun t1 v, h1] at h2
      cases h2
    · left
      have ha' : a ∈ (la.trail.resize .boolean (la.trail.bools.num + 1)).assigned k := ha
      unfold Trail.assigned at ha' ⊢
      rw [t2] at ha'
      exact ha'
    · rw [show (la.trail.resize .boolean (la.trail.bools.num + 1)).level v = la.trail.level v from
        congrFun t1 v, h1] at h2
      cases h2
    · rw [show (la.trail.resize .boolean (la.trail.bools.num + 1)).level v = la.trail.level v from
        congrFun t1 v, h1] at h2
      cases h2
    · rw [he2] at hd
      rcases List.mem_append.mp hd with hd | hd
      · exact Or.inl hd
      · have hde : d = e := by simpa using hd
        refine Or.inr fun p hp => ?_
        have hmem : d ∈ q.1.set := by rw [he2, hde]; simp
        have hp' : p.1 ∈ nzVars ts := by
          rw [show nzVars ts = q.1.varsOf e from he4.symm, ← hde, LinStore.varsOf_eq hI'.len (hI'.rng d hmem).2]
          exact List.mem_map.mpr ⟨p, hp, rfl⟩
        obtain ⟨q', hq', e'⟩ := nzVars_mem hp'
        rw [← e']; exact hdom q' hq'
    · unfold LA.core
      rw [h3]; rfl
    · rw [h1, hnum]
      by_contra hcon
      rw [Bool.not_eq_false] at hcon
      obtain ⟨l, hl⟩ := (def_b t3).mp hcon
      rw [t1, hnew] at hl; cases hl
    · show addWatch la.watched q.1 q.2.2 u = la.watched u
      have hvc : q.1.varsOf q.2.2 = nzVars ts := by
        have : q.1.varsOf e = nzVars ts := he4
        rw [← this]
        rcases he3 with r | r <;> rw [r]; rfl
      unfold addWatch
      rw [hvc]
      match hnz : nzVars ts with
      | [] => rfl
      | [x] =>
        rw [hnz] at hu
        simp at hu
        simp only [pushWatch]
        rw [Function.update_of_ne hu]
      | x :: y :: _ =>
        rw [hnz] at hu
        simp at hu
        simp only [pushWatch]
        rw [Function.update_of_ne hu.2.1, Function.update_of_ne hu.1]

/-- A constraint with unassigned variables. -/
theorem Keep.consNew (h : Keep hv hc la X Y Lf) {ts : List (Nat × ℚ)} (hts : (ts.map (·.1)).Nodup)
    (hne : ∃ q ∈ ts, q.2 ≠ 0) (hdom : ∀ q ∈ ts, q.1 < la.trail.rats.num) (hun : ∀ q ∈ ts, la.trail.rats.defined q.1 = false)
    (pred : Pred) (rhs : ℚ) (hwi : WI (Lf la.trail.bools.num) (nzVars ts)) :
    Keep hv hc (la.constraint hv hc ts pred rhs).1 X Y Lf ∧ Frame la (la.constraint hv hc ts pred rhs).1 ∧
      (∀ u, la.trail.rats.defined u = true →
        (la.constraint hv hc ts pred rhs).1.watched u = la.watched u) := by
  obtain ⟨hf, hcc, hp, _, _, _, hcase⟩ := h.constraint hts hne hdom (Or.inr hun) pred rhs hwi
  rcases hcase with ⟨hk, e⟩ | ⟨ho, hu, hw, hk⟩
  · refine ⟨hk, hf, fun u _ => by rw [e]⟩
  · refine ⟨⟨hk.base, hk.ok, ⟨hk.sem.vals, fun k hkl o hx => ?_, hk.sem.comp⟩, hk.wat⟩, hf, fun u hu => ?_⟩
    · by_cases hon : o = la.trail.bools.num
      · intro e he heo hall
        exfalso
        have hve : (la.constraint hv hc ts pred rhs).1.store.varsOf (la.constraint hv hc ts pred rhs).2 =
            (la.constraint hv hc ts pred rhs).1.store.varsOf e := by
          rcases IsCons.of_ord hk.base.inv he hcc (by rw [ho, heo, hon]) with r | r <;> rw [r]; rfl
        obtain ⟨y, hy⟩ := List.exists_mem_of_ne_nil _ (hk.base.vars_ne ⟨e, he, Or.inl rfl⟩)
        have h1 := hall y hy
        rw [← hve, hp.mem_iff] at hy
        obtain ⟨q, hq, rfl⟩ := nzVars_mem hy
        have h2 := hun q hq
        obtain ⟨l, hl, _⟩ := cut_r.mp h1
        have h3 : lev (la.constraint hv hc ts pred rhs).1.trail q.1 = some l := hl
        rw [hf.lev, h.undefined.mp h2] at h3
        cases h3
      · exact hk.sem.full k hkl o (by rintro (h | h); exacts [hx h, hon h])
    · refine hw u fun hmem => ?_
      obtain ⟨q, hq, rfl⟩ := nzVars_mem hmem
      rw [hun q hq] at hu; cases hu

theorem wi_sorted {L : Nat → Option Nat} {vs : List Nat} (h : ∀ y ∈ vs, ∃ l, L y = some l)
    (hs : vs.Pairwise fun a b => (L b).getD 0 ≤ (L a).getD 0) : WI L vs := by
  have key : ∀ a c, (∃ l, L c = some l) → (L c).getD 0 ≤ (L a).getD 0 → Ge (L a) (L c) := by
    intro a c ⟨l, hl⟩ hle n hn
    rw [hl, hn] at hle
    exact ⟨l, hl, hle⟩
  match vs, h, hs with
  | [], _, _ => trivial
  | [_], _, _ => trivial
  | v0 :: v1 :: rest, h, hs =>
    obtain ⟨h1, h2⟩ := List.pairwise_cons.mp hs
    obtain ⟨h3, _⟩ := List.pairwise_cons.mp h2
    exact ⟨key v0 v1 (h v1 (by simp)) (h1 v1 (by simp)), fun y hy => key v1 y (h y (by simp [hy])) (h3 y hy)⟩

/-- A constraint with assigned variables, sorted by level. -/
theorem Keep.derive (h : Keep hv hc la X Y (fun _ => lev la.trail)) {ts : List (Nat × ℚ)}
    (hts : (ts.map (·.1)).Nodup) (hne : ∃ q ∈ ts, q.2 ≠ 0)
    (has : ∀ q ∈ ts, la.trail.rats.defined q.1 = true)
    (hsrt : ts.Pairwise fun a b => la.sortLevel b.1 ≤ la.sortLevel a.1) (pred : Pred) (rhs : ℚ) :
    Keep hv hc (la.derive hv hc ts pred rhs) X Y (fun _ => lev la.trail) ∧
      Frame la (la.derive hv hc ts pred rhs) := by
  have hwi : WI (lev la.trail) (nzVars ts) := by
    refine wi_sorted (fun y hy => ?_) ?_
    · obtain ⟨q, hq, rfl⟩ := nzVars_mem hy
      exact h.defined.mp (has q hq)
    · unfold nzVars
      rw [List.pairwise_map]
      exact hsrt.sublist List.filter_sublist
  obtain ⟨hf, hcc, hp, _, _, _, hcase⟩ := h.constraint hts hne (fun q hq => by
    obtain ⟨l, hl⟩ := h.defined.mp (has q hq)
    exact h.base.tinv.range _ _ hl) (Or.inl has) pred rhs hwi
  unfold LA.derive
  simp only
  have hall : ∀ y ∈ (la.constraint hv hc ts pred rhs).1.store.varsOf (la.constraint hv hc ts pred rhs).2,
      (la.constraint hv hc ts pred rhs).1.trail.rats.defined y = true := by
    intro y hy
    rw [hp.mem_iff] at hy
    obtain ⟨q, hq, rfl⟩ := nzVars_mem hy
    rw [hf.rats]; exact has q hq
  by_cases hd : (la.constraint hv hc ts pred rhs).1.trail.bools.defined
      (la.constraint hv hc ts pred rhs).2.lit.ord = true
  · rw [if_pos hd]
    rcases hcase with ⟨hk, _⟩ | ⟨_, hu, _⟩
    · exact ⟨hk, hf⟩
    · rw [hd] at hu; cases hu
  · rw [if_neg hd]
    rw [Bool.not_eq_true] at hd
    have key : ∀ X', Keep hv hc (la.constraint hv hc ts pred rhs).1 X' Y (fun _ => lev la.trail) →
        (∀ k o, X' k o → X k o ∨ o = (la.constraint hv hc ts pred rhs).2.lit.ord) →
        Keep hv hc ((la.constraint hv hc ts pred rhs).1.propagateCons (la.constraint hv hc ts pred rhs).2)
          X Y (fun _ => lev la.trail) ∧
        Frame la ((la.constraint hv hc ts pred rhs).1.propagateCons
          (la.constraint hv hc ts pred rhs).2) := by
      intro X' hk hx
      obtain ⟨hk2, hf2, _⟩ := Keep.propagateCons hk.base hk.ok hk.sem hk.wat hcc hd hall
      refine ⟨⟨hk2.base, hk2.ok, hk2.sem.mono ?_ (fun _ _ _ h => h.1), hk2.wat⟩, hf.trans hf2⟩
      rintro k _ o ⟨h1, h2⟩
      exact (hx k o h1).resolve_right h2
    rcases hcase with ⟨hk, _⟩ | ⟨ho, _, _, hk⟩
    · exact key X hk (fun _ _ h => Or.inl h)
    · exact key _ hk (fun k o h => by rw [ho]; exact h)

end LA
end Yaga
