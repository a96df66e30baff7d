import Verif.Proofs.VarOrder
import Mathlib.Tactic.Linarith
import Mathlib.Tactic.NormNum

/-!
# C12: branching picks an unassigned variable iff there is one
-/

namespace Yaga
open ScoreOps

namespace Spec

/-- A correct answer of a branching heuristic responsible for the variables in `D`: an unassigned
variable of `D`, or nothing if all variables of `D` are assigned. -/
def PickOk {R : Type} (t : Trail R) (D : Var → Prop) : Option Var → Prop
  | some v => D v ∧ t.level v = none
  | none => ∀ v, D v → t.level v ≠ none

/-- The variables of the trail. -/
def inRange {R : Type} (t : Trail R) (v : Var) : Prop := v.ord < t.numVars v.type

end Spec
open Spec

variable {R : Type}

theorem level_none_iff {t : Trail R} (h : t.Inv) (v : Var) : t.level v = none ↔ t.isDefined v = false := by
  rw [← Bool.not_eq_true, h.defined]
  constructor
  · rintro h1 ⟨l, h2⟩; rw [h1] at h2; cases h2
  · intro h1
    rcases hl : t.level v with _ | l
    · rfl
    · exact absurd ⟨l, hl⟩ h1

/-! ### EVSIDS -/

section
variable {S : Type} [LinearOrder S] [ScoreOps S]

/-- Number of Boolean variables announced last. -/
def Spec.lastResize : List EvOp → Nat → Nat
  | [], n => n
  | .resize k :: ops, _ => lastResize ops k
  | _ :: ops, n => lastResize ops n

theorem evsids_length (ops : List EvOp) (e : Evsids S) :
    (ops.foldl Evsids.step e).vsids.length = lastResize ops e.vsids.length := by
  induction ops generalizing e with
  | nil => rfl
  | cons op ops ih =>
    simp only [List.foldl_cons]
    rw [ih, Evsids.step_length]
    cases op <;> rfl

/-- **C12 (EVSIDS).** After every history of events, on every consistent trail, `pick` returns an
unassigned Boolean variable of maximal score among the unassigned ones, and returns nothing only
if all Boolean variables are assigned. -/
theorem C12_evsids (ops : List EvOp) (t : Trail R) (ht : t.Inv)
    (hn : lastResize ops 0 = t.bools.num) :
    let e : Evsids S := ops.foldl Evsids.step .new
    PickOk t (fun v => v.type = .boolean ∧ inRange t v) (e.pick t.bools) ∧
    ∀ v, e.pick t.bools = some v →
      ∀ w, w.type = .boolean → inRange t w → t.level w = none → e.score w.ord ≤ e.score v.ord := by
  intro e
  have hlen : e.vsids.length = t.bools.num := by
    rw [← hn]; exact evsids_length ops (Evsids.new : Evsids S)
  have hp := Evsids.pick_spec e (Evsids.run_nonneg ops Evsids.new_nonneg) t.bools
  rcases hr : e.pick t.bools with _ | v
  · rw [hr] at hp
    refine ⟨?_, by simp⟩
    rintro ⟨ty, o⟩ ⟨rfl, hv⟩ hl
    have := hp o (by rw [hlen]; exact hv)
    rw [level_none_iff ht] at hl
    have hl' : t.bools.defined o = false := hl
    rw [this] at hl'; cases hl'
  · rw [hr] at hp
    obtain ⟨i, rfl, h1, h2, h3⟩ := hp
    refine ⟨⟨⟨rfl, ?_⟩, ?_⟩, ?_⟩
    · show i < t.bools.num
      rw [← hlen]; exact h1
    · rw [level_none_iff ht]; exact h2
    · rintro v hv ⟨ty, o⟩ rfl hw hl
      cases hv
      refine h3 o (by rw [hlen]; exact hw) ?_
      rw [level_none_iff ht] at hl
      exact hl

end

/-- Scores as rational numbers, with the constants of Evsids.h. -/
instance : ScoreOps ℚ where
  zero := 0
  one := 1
  negOne := -1
  thr := 10 ^ 35
  add := (· + ·)
  scale := (· / 10 ^ 35)
  grow := (· * (21 / 20))
  negOne_lt := by norm_num
  one_nonneg := by norm_num
  add_nonneg := fun _ _ => _root_.add_nonneg
  scale_nonneg := fun a h => div_nonneg h (by positivity)
  grow_nonneg := fun a h => mul_nonneg h (by norm_num)

/-! ### First unassigned -/

/-- **C12 (first unassigned).** `First_unassigned` (for one type, or for all types) returns an
unassigned variable of its types iff there is one. -/
theorem C12_first_unassigned (t : Trail R) (ht : t.Inv) (ty : Option VType) :
    PickOk t (fun v => inRange t v ∧ (ty = none ∨ ty = some v.type)) (firstUnassigned ty t) := by
  unfold firstUnassigned
  set b := (if ty = none ∨ ty = some .boolean then
    (firstUndef t.bools.defined t.bools.num).map Var.bool else none) with hb
  set r := (if ty = none ∨ ty = some .rational then
    (firstUndef t.rats.defined t.rats.num).map Var.rat else none) with hr
  have hbs : ∀ v, b = some v → (inRange t v ∧ (ty = none ∨ ty = some v.type)) ∧ t.level v = none := by
    intro v hv
    rw [hb] at hv
    split at hv
    · rename_i hty
      obtain ⟨i, hi, rfl⟩ := Option.map_eq_some_iff.1 hv
      obtain ⟨h1, h2, -⟩ := firstUndef_some hi
      exact ⟨⟨h1, hty⟩, (level_none_iff ht _).2 h2⟩
    · cases hv
  have hrs : ∀ v, r = some v → (inRange t v ∧ (ty = none ∨ ty = some v.type)) ∧ t.level v = none := by
    intro v hv
    rw [hr] at hv
    split at hv
    · rename_i hty
      obtain ⟨i, hi, rfl⟩ := Option.map_eq_some_iff.1 hv
      obtain ⟨h1, h2, -⟩ := firstUndef_some hi
      exact ⟨⟨h1, hty⟩, (level_none_iff ht _).2 h2⟩
    · cases hv
  rcases hb1 : b with _ | v
  · simp only
    rcases hr1 : r with _ | v
    · rintro ⟨vt, o⟩ ⟨h1, h2⟩ hl
      rw [level_none_iff ht] at hl
      cases vt
      · rw [hb, if_pos h2, Option.map_eq_none_iff] at hb1
        have := firstUndef_none hb1 o h1
        have hl' : t.bools.defined o = false := hl
        rw [this] at hl'; cases hl'
      · rw [hr, if_pos h2, Option.map_eq_none_iff] at hr1
        have := firstUndef_none hr1 o h1
        have hl' : t.rats.defined o = false := hl
        rw [this] at hl'; cases hl'
    · exact hrs v hr1
  · exact hbs v hb1

/-! ### Combined order -/

/-- **C12 (combination).** If every member heuristic is right on the variables it is responsible
for, the combination is right on the union. -/
theorem C12_combined (t : Trail R) (hs : List ((Trail R → Option Var) × (Var → Prop)))
    (h : ∀ p ∈ hs, PickOk t p.2 (p.1 t)) :
    PickOk t (fun v => ∃ p ∈ hs, p.2 v) (combinedPick (hs.map Prod.fst) t) := by
  induction hs with
  | nil => rintro v ⟨p, hp, -⟩; cases hp
  | cons p hs ih =>
    simp only [List.map_cons, combinedPick]
    have hp := h p List.mem_cons_self
    rcases e : p.1 t with _ | v
    · rw [e] at hp
      simp only
      have ih' := ih (fun q hq => h q (List.mem_cons_of_mem _ hq))
      rcases e2 : combinedPick (hs.map Prod.fst) t with _ | w
      · rw [e2] at ih'
        rintro w ⟨q, hq, hw⟩
        rcases List.mem_cons.1 hq with rfl | hq
        · exact hp w hw
        · exact ih' w ⟨q, hq, hw⟩
      · rw [e2] at ih'
        obtain ⟨⟨q, hq, hw⟩, hl⟩ := ih'
        exact ⟨⟨q, List.mem_cons_of_mem _ hq, hw⟩, hl⟩
    · rw [e] at hp
      exact ⟨⟨p, List.mem_cons_self, hp.1⟩, hp.2⟩

/-! ### Generalized VSIDS -/

section
variable {S : Type} [LinearOrder S] [ScoreOps S]

/-- Reachable states of `Generalized_vsids` together with the trail it observes. The third index
collects the variables that were assigned at level 0 when the solver restarted: they are
unassigned by the restart, but `on_before_backtrack` does not put them back. -/
inductive GReach (cvars : Nat → List Nat) : GVsids S → Trail R → (Var → Prop) → Prop where
  | new : GReach cvars .new .init (fun _ => False)
  /-- `Trail::resize` notifies the heuristic, src/Trail.cpp:17 -/
  | resize {g t L} (ty n) : GReach cvars g t L → t.Pre (.resize ty n) → t.numVars ty ≤ n →
      GReach cvars (g.resize ty n) (t.resize ty n) L
  /-- repeated notification in `Solver::init`, src/Solver.cpp:162-169 -/
  | notify {g t L} (ty) : GReach cvars g t L → GReach cvars (g.resize ty (t.numVars ty)) t L
  | init {g t L} (cs) : GReach cvars g t L → GReach cvars (g.onInit cvars cs) t L
  | learned {g t L} (c) : GReach cvars g t L → GReach cvars (g.onLearned cvars c) t L
  | resolved {g t L} (c) : GReach cvars g t L → GReach cvars (g.onResolved cvars c) t L
  | decide {g t L} (v x) : GReach cvars g t L → t.Pre (.decide v x) →
      GReach cvars g (t.step (.decide v x)) L
  | propagate {g t L} (v r l x) : GReach cvars g t L → t.Pre (.propagate v r l x) →
      GReach cvars g (t.step (.propagate v r l x)) L
  /-- `backtrack_with`, src/Solver.cpp:97-148: event, then the trail -/
  | backtrack {g t L} (l) : GReach cvars g t L → t.Pre (.backtrack l) →
      GReach cvars (g.onBeforeBacktrack t l) (t.backtrack l) L
  /-- `restart`, src/Solver.cpp:178-186: event for level 0, then the trail is cleared -/
  | restart {g t L} : GReach cvars g t L →
      GReach cvars (g.onBeforeBacktrack t 0) t.clear (fun v => L v ∨ t.level v = some 0)
  | pick {g t L} {g' : GVsids S} {r} (newEff isEff) : GReach cvars g t L →
      (∀ i ∈ newEff, i < t.rats.num) → g.pick t newEff isEff = some (g', r) → GReach cvars g' t L

/-- Invariant of reachable states. -/
structure GInv (g : GVsids S) (t : Trail R) (L : Var → Prop) : Prop where
  trail : t.Inv
  q : g.QInv
  num : g.num = t.numVars
  cover : ∀ v, inRange t v → t.level v ≠ none ∨ g.vars.contains v = true ∨ L v

theorem GVsids.pick_ok {g : GVsids S} {t : Trail R} {L : Var → Prop} (h : GInv g t L)
    {newEff : List Nat} {isEff : Nat → Bool} (hE : ∀ i ∈ newEff, i < t.rats.num)
    {g' : GVsids S} {r : Option Var} (hp : g.pick t newEff isEff = some (g', r)) :
    GInv g' t L ∧ (∀ v, r = some v → inRange t v ∧ t.level v = none) ∧
      (r = none → ∀ v, inRange t v → t.level v ≠ none ∨ L v) := by
  unfold GVsids.pick at hp
  rw [Option.map_eq_some_iff] at hp
  obtain ⟨g1, hg1, hp⟩ := hp
  obtain ⟨q1, n1, v1⟩ := pushEff_ok newEff h.q (by rw [h.num]; exact hE) hg1
  obtain ⟨e1, e2, e3, e4⟩ := popWhile_ok (fun v => (t.level v).isSome || !isEff v.ord) g1.eff.size
    g1.eff q1.eff (le_refl _)
  obtain ⟨p1, p2, p3, p4⟩ := popWhile_ok (fun v => (t.level v).isSome) g1.vars.size
    g1.vars q1.vars (le_refl _)
  simp only at hp
  set eff := GVsids.popWhile (fun v => (t.level v).isSome || !isEff v.ord) g1.eff.size g1.eff with heff
  set vars := GVsids.popWhile (fun v => (t.level v).isSome) g1.vars.size g1.vars with hvars
  have n2 : g1.num = t.numVars := n1.trans h.num
  split at hp
  · rename_i hs
    simp only [Prod.mk.injEq] at hp
    obtain ⟨rfl, rfl⟩ := hp
    refine ⟨⟨h.trail, ⟨q1.vars, e1, q1.varsRange, fun v hv => q1.effRange v (e2 v hv)⟩, n2, ?_⟩, ?_, ?_⟩
    · intro v hv
      show _ ∨ g1.vars.contains v = true ∨ _
      rw [v1]; exact h.cover v hv
    · rintro v hv
      cases hv
      refine ⟨?_, ?_⟩
      · have := q1.effRange _ (e2 _ (PQ.contains_top e1 hs))
        rw [n2] at this; exact this
      · have := e4 hs
        simp only [Bool.or_eq_false_iff] at this
        exact Option.not_isSome_iff_eq_none.1 (by simp [this.1])
    · intro h; cases h
  · simp only [Prod.mk.injEq] at hp
    obtain ⟨rfl, rfl⟩ := hp
    refine ⟨⟨h.trail, ⟨p1, e1, fun v hv => q1.varsRange v (p2 v hv),
      fun v hv => q1.effRange v (e2 v hv)⟩, n2, ?_⟩, ?_, ?_⟩
    · intro v hv
      rcases h.cover v hv with hc | hc | hc
      · exact Or.inl hc
      · rw [← v1] at hc
        rcases p3 v hc with hc | hc
        · exact Or.inr (Or.inl hc)
        · left
          simpa [Option.isSome_iff_ne_none] using hc
      · exact Or.inr (Or.inr hc)
    · intro v hv
      split at hv
      · rename_i hs
        cases hv
        refine ⟨?_, ?_⟩
        · have := q1.varsRange _ (p2 _ (PQ.contains_top p1 hs))
          rw [n2] at this; exact this
        · have := p4 hs
          exact Option.not_isSome_iff_eq_none.1 (by simp [this])
      · cases hv
    · intro hr v hv
      split at hr
      · cases hr
      · rename_i hs
        rcases h.cover v hv with hc | hc | hc
        · exact Or.inl hc
        · rw [← v1] at hc
          rcases p3 v hc with hc | hc
          · exact absurd (PQ.contains_size p1 hc) hs
          · left
            simpa [Option.isSome_iff_ne_none] using hc
        · exact Or.inr hc

theorem GReach.inv {cvars : Nat → List Nat} {g : GVsids S} {t : Trail R} {L : Var → Prop}
    (h : GReach cvars g t L) : GInv g t L := by
  induction h with
  | new =>
    refine ⟨Trail.init_inv, ⟨PQ.empty_ok _, PQ.empty_ok _, ?_, ?_⟩, ?_, ?_⟩
    · intro v hv; cases hv
    · intro v hv; cases hv
    · funext ty; cases ty <;> rfl
    · rintro ⟨ty, o⟩ hv
      cases ty <;> exact absurd hv (Nat.not_lt_zero _)
  | @resize g t L ty n _ hpre hn ih =>
    have hnum : (g.resize ty n).num = (t.resize ty n).numVars := by
      funext ty'
      cases ty <;> cases ty' <;>
        simp [GVsids.resize, Trail.resize, Trail.numVars, PModel.resize, ih.num]
    obtain ⟨k1, k2⟩ := GVsids.resize_ok ih.q ty n (by rw [ih.num]; exact hn)
    have hlev : (t.resize ty n).level = t.level := (Trail.level_resize t ih.trail ty n hpre).1
    refine ⟨Trail.resize_inv ih.trail ty n hpre, k1, hnum, ?_⟩
    intro v hv
    rw [hlev, k2]
    by_cases hc : inRange t v
    · rcases ih.cover v hc with h | h | h
      · exact Or.inl h
      · exact Or.inr (Or.inl (Or.inl h))
      · exact Or.inr (Or.inr h)
    · refine Or.inr (Or.inl (Or.inr ?_))
      have hv' : v.ord < (g.resize ty n).num v.type := by rw [hnum]; exact hv
      have hc' : ¬ v.ord < g.num v.type := by rw [ih.num]; exact hc
      simp only [GVsids.resize, Function.update_apply] at hv'
      split at hv'
      · rename_i e; rw [e] at hc'; exact ⟨e, by omega, hv'⟩
      · exact absurd hv' hc'
  | @notify g t L ty _ ih =>
    obtain ⟨k1, k2⟩ := GVsids.resize_ok ih.q ty (t.numVars ty) (by rw [ih.num])
    refine ⟨ih.trail, k1, ?_, ?_⟩
    · funext ty'
      simp only [GVsids.resize, Function.update_apply]
      split
      · rename_i e; rw [e]
      · rw [ih.num]
    · intro v hv
      rw [k2]
      rcases ih.cover v hv with h | h | h
      · exact Or.inl h
      · exact Or.inr (Or.inl (Or.inl h))
      · exact Or.inr (Or.inr h)
  | @init g t L cs _ ih =>
    have s := GVsids.onInit_same cvars ih.q cs
    exact ⟨ih.trail, s.inv, s.num.trans ih.num, fun v hv => by rw [s.mem]; exact ih.cover v hv⟩
  | @learned g t L cs _ ih =>
    have s := GVsids.onLearned_same cvars ih.q cs
    exact ⟨ih.trail, s.inv, s.num.trans ih.num, fun v hv => by rw [s.mem]; exact ih.cover v hv⟩
  | @resolved g t L cs _ ih =>
    have s := GVsids.onResolved_same cvars ih.q cs
    exact ⟨ih.trail, s.inv, s.num.trans ih.num, fun v hv => by rw [s.mem]; exact ih.cover v hv⟩
  | @decide g t L v x _ hpre ih =>
    have hnv : (t.step (.decide v x)).numVars = t.numVars := by
      show ((t.decide v).setValue v x).numVars = _
      rw [Trail.numVars_setValue]; funext ty; cases ty <;> rfl
    refine ⟨Trail.decide_inv ih.trail v x hpre.1 hpre.2.1 hpre.2.2, ih.q, ih.num.trans hnv.symm, ?_⟩
    intro w hw
    have hw' : inRange t w := by unfold inRange at hw ⊢; rw [hnv] at hw; exact hw
    rcases ih.cover w hw' with h | h
    · left
      show ((t.decide v).setValue v x).level w ≠ none
      rw [Trail.level_setValue]
      simp only [Trail.decide, Function.update_apply]
      split
      · simp
      · exact h
    · exact Or.inr h
  | @propagate g t L v r l x _ hpre ih =>
    have hnv : (t.step (.propagate v r l x)).numVars = t.numVars := by
      show ((t.propagate v r l).setValue v x).numVars = _
      rw [Trail.numVars_setValue]; funext ty; cases ty <;> rfl
    refine ⟨Trail.propagate_inv ih.trail v r l x hpre.1 hpre.2.1 hpre.2.2.1 hpre.2.2.2, ih.q,
      ih.num.trans hnv.symm, ?_⟩
    intro w hw
    have hw' : inRange t w := by unfold inRange at hw ⊢; rw [hnv] at hw; exact hw
    rcases ih.cover w hw' with h | h
    · left
      show ((t.propagate v r l).setValue v x).level w ≠ none
      rw [Trail.level_setValue]
      simp only [Trail.propagate, Function.update_apply]
      split
      · simp
      · exact h
    · exact Or.inr h
  | @backtrack g t L l _ hpre ih =>
    obtain ⟨k1, k2, k3, k4⟩ := GVsids.onBeforeBacktrack_ok ih.q ih.trail ih.num l
    obtain ⟨b1, b2, b3, b4, b5⟩ := Trail.backtrack_spec ih.trail l hpre
    refine ⟨Trail.backtrack_inv ih.trail l hpre, k1, (k2.trans ih.num).trans b5.symm, ?_⟩
    intro v hv
    have hv' : inRange t v := by unfold inRange at hv ⊢; rw [b5] at hv; exact hv
    rcases ih.cover v hv' with h | h | h
    · obtain ⟨lv, hlv⟩ := Option.ne_none_iff_exists'.1 h
      by_cases hc : l < lv
      · exact Or.inr (Or.inl (k4 v lv hlv hc))
      · left
        rw [(b3 v (fun l' hl' => by rw [hlv] at hl'; cases hl'; omega)).1, hlv]; simp
    · exact Or.inr (Or.inl (k3 v h))
    · exact Or.inr (Or.inr h)
  | @restart g t L _ ih =>
    obtain ⟨k1, k2, k3, k4⟩ := GVsids.onBeforeBacktrack_ok ih.q ih.trail ih.num 0
    have hnv : t.clear.numVars = t.numVars := by funext ty; cases ty <;> rfl
    refine ⟨Trail.clear_inv t, k1, (k2.trans ih.num).trans hnv.symm, ?_⟩
    intro v hv
    have hv' : inRange t v := by unfold inRange at hv ⊢; rw [hnv] at hv; exact hv
    rcases ih.cover v hv' with h | h | h
    · obtain ⟨lv, hlv⟩ := Option.ne_none_iff_exists'.1 h
      by_cases hc : 0 < lv
      · exact Or.inr (Or.inl (k4 v lv hlv hc))
      · have : lv = 0 := by omega
        subst this
        exact Or.inr (Or.inr (Or.inr hlv))
    · exact Or.inr (Or.inl (k3 v h))
    · exact Or.inr (Or.inr (Or.inl h))
  | @pick g t L g' r newEff isEff _ hE hp ih => exact (GVsids.pick_ok ih hE hp).1

/-- **C12 (generalized VSIDS, partial).** In every reachable state, `pick` returns an unassigned
variable in range; if it returns nothing, every variable is assigned except possibly variables
that an earlier restart removed from level 0.

Missing for the full property: those exceptions. They are possible, see
`C12_gvsids_restart_loses_variable`: the full statement is false for the heuristic alone. It holds
whenever the variables that were at level 0 are assigned again before the next `pick` (unit
propagation does this for consequences of the clauses), and unconditionally in histories without
restart (`C12_gvsids_no_restart`). Runs in which the assertion of `Variable_priority_queue::push`
fails for an effectively decided variable are outside the statement. -/
theorem C12_gvsids_partial {cvars : Nat → List Nat} {g : GVsids S} {t : Trail R} {L : Var → Prop}
    (h : GReach cvars g t L) (newEff : List Nat) (isEff : Nat → Bool)
    (hE : ∀ i ∈ newEff, i < t.rats.num) (g' : GVsids S) (r : Option Var)
    (hp : g.pick t newEff isEff = some (g', r)) :
    (∀ v, r = some v → inRange t v ∧ t.level v = none) ∧
    (r = none → ∀ v, inRange t v → t.level v ≠ none ∨ L v) :=
  (GVsids.pick_ok h.inv hE hp).2

/-- **C12 (generalized VSIDS).** Without restarts (`L` empty) the answer is right. -/
theorem C12_gvsids_no_restart {cvars : Nat → List Nat} {g : GVsids S} {t : Trail R} {L : Var → Prop}
    (h : GReach cvars g t L) (hL : ∀ v, L v → t.level v ≠ none) (newEff : List Nat) (isEff : Nat → Bool)
    (hE : ∀ i ∈ newEff, i < t.rats.num) (g' : GVsids S) (r : Option Var)
    (hp : g.pick t newEff isEff = some (g', r)) : PickOk t (inRange t) r := by
  obtain ⟨h1, h2⟩ := C12_gvsids_partial h newEff isEff hE g' r hp
  rcases r with _ | v
  · exact fun v hv => (h2 rfl v hv).elim id (hL v)
  · exact h1 v rfl

end

/-! ### Witnesses -/

namespace C12Example

/-- Scores for the concrete runs. -/
instance intScore : ScoreOps Int where
  zero := 0
  one := 1
  negOne := -1
  thr := 1000
  add := (· + ·)
  scale := (· / 1000)
  grow := (· * 2)
  negOne_lt := by decide
  one_nonneg := by decide
  add_nonneg := fun _ _ h1 h2 => Int.add_nonneg h1 h2
  scale_nonneg := fun a h => Int.ediv_nonneg h (by decide)
  grow_nonneg := fun a h => Int.mul_nonneg h (by decide)

/-- One Boolean variable, propagated at level 0. -/
def t1 : Trail Nat := ((Trail.init.resize .boolean 1).step (.propagate (.bool 0) none 0 (.b true)))
def g1 : GVsids Int := GVsids.new.resize .boolean 1

def g2 : GVsids Int := ((g1.pick t1 [] (fun _ => false)).get (by decide)).1

theorem reach1 : GReach (fun _ => []) g1 t1 (fun _ => False) := by
  refine .propagate _ _ _ _ (.resize _ _ .new ?_ (by decide)) ?_
  · intro v l _ h; cases h
  · simp only [Trail.Pre]; decide

/-- The variable order in the state after a restart. -/
theorem reach2 : GReach (fun _ => []) (g2.onBeforeBacktrack t1 0) t1.clear
    (fun v => False ∨ t1.level v = some 0) :=
  .restart (.pick (r := ((g1.pick t1 [] (fun _ => false)).get (by decide)).2) [] (fun _ => false) reach1 (by simp)
    (by unfold g2; simp))

end C12Example

/-- The full property is false for `Generalized_vsids` after a restart: a reachable state in which
`pick` reports that nothing is left although a Boolean variable in range is unassigned. -/
theorem C12_gvsids_restart_loses_variable :
    ∃ (g g' : GVsids Int) (t : Trail Nat) (L : Var → Prop),
      GReach (fun _ => []) g t L ∧ g.pick t [] (fun _ => false) = some (g', none) ∧
      ∃ v, inRange t v ∧ t.level v = none := by
  have hp : (((C12Example.g2.onBeforeBacktrack C12Example.t1 0).pick C12Example.t1.clear []
      (fun _ => false)).map Prod.snd) = some none := by decide
  obtain ⟨⟨g', r⟩, h1, h2⟩ := Option.map_eq_some_iff.1 hp
  simp only at h2
  subst h2
  exact ⟨_, g', _, _, C12Example.reach2, h1, .bool 0, by unfold inRange; decide, by decide⟩

/-- Non-vacuity of `C12_gvsids_no_restart` and `C12_evsids`: two open variables, the bumped one is
chosen. -/
example : (((GVsids.new.resize .boolean 3 : GVsids Int).onLearned (fun _ => []) [Lit.pos 1]).pick
    (Trail.init.resize .boolean 3 : Trail Nat) [] (fun _ => false)).map Prod.snd
      = some (some (.bool 1)) := by decide

example : (([.resize 3, .init [[Lit.pos 2, (Lit.pos 1).neg]], .learned [(Lit.pos 1).neg]] : List EvOp).foldl
    Evsids.step (.new : Evsids Int)).pick (Trail.init.resize .boolean 3 : Trail Nat).bools
      = some (.bool 1) := by decide

example : lastResize [.resize 3, .init [[Lit.pos 2, (Lit.pos 1).neg]], .learned [(Lit.pos 1).neg]] 0
    = (Trail.init.resize .boolean 3 : Trail Nat).bools.num := by decide

#print axioms C12_evsids
#print axioms C12_first_unassigned
#print axioms C12_combined
#print axioms C12_gvsids_partial
#print axioms C12_gvsids_no_restart
#print axioms C12_gvsids_restart_loses_variable

end Yaga
