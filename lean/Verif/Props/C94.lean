/-
C94: the variable order of the arithmetic solver stays inside its vectors.
-/
import Verif.Proofs.OrderMemory
import Verif.Props.C12

namespace Yaga
open Spec ScoreOps
variable {R : Type} {S : Type} [LinearOrder S] [ScoreOps S]

/-- Histories as in C12 that also record the events of the heuristic, last event first. The clauses of the events have
variables of the trail, and so have their constraints. -/
inductive GHist (cvars : Nat → List Nat) : List (GOp R) → GVsids S → Trail R → (Var → Prop) → Prop where
  | new : GHist cvars [] .new .init (fun _ => False)
  | resize {os g t L} (ty n) : GHist cvars os g t L → t.Pre (.resize ty n) → t.numVars ty ≤ n →
      GHist cvars (.resize ty n :: os) (g.resize ty n) (t.resize ty n) L
  | notify {os g t L} (ty) : GHist cvars os g t L →
      GHist cvars (.resize ty (t.numVars ty) :: os) (g.resize ty (t.numVars ty)) t L
  | init {os g t L} (cs) : GHist cvars os g t L → (∀ c ∈ cs, GMem.InRange t.numVars cvars c) →
      GHist cvars (.init cs :: os) (g.onInit cvars cs) t L
  | learned {os g t L} (c) : GHist cvars os g t L → GMem.InRange t.numVars cvars c →
      GHist cvars (.learned c :: os) (g.onLearned cvars c) t L
  | resolved {os g t L} (c) : GHist cvars os g t L → GMem.InRange t.numVars cvars c →
      GHist cvars (.resolved c :: os) (g.onResolved cvars c) t L
  | decide {os g t L} (v x) : GHist cvars os g t L → t.Pre (.decide v x) →
      GHist cvars os g (t.step (.decide v x)) L
  | propagate {os g t L} (v r l x) : GHist cvars os g t L → t.Pre (.propagate v r l x) →
      GHist cvars os g (t.step (.propagate v r l x)) L
  | backtrack {os g t L} (l) : GHist cvars os g t L → t.Pre (.backtrack l) →
      GHist cvars (.beforeBacktrack t l :: os) (g.onBeforeBacktrack t l) (t.backtrack l) L
  | restart {os g t L} : GHist cvars os g t L →
      GHist cvars (.beforeBacktrack t 0 :: os) (g.onBeforeBacktrack t 0) t.clear (fun v => L v ∨ t.level v = some 0)
  | pick {os g t L} {g' : GVsids S} {r} (newEff isEff) : GHist cvars os g t L →
      (∀ i ∈ newEff, i < t.rats.num) → g.pick t newEff isEff = some (g', r) →
      GHist cvars (.pick t newEff isEff :: os) g' t L

/-- The events of a history, the last event first in the list. -/
def GMem.runHist (cvars : Nat → List Nat) : List (GOp R) → Option (GMem S)
  | [] => some .new
  | o :: os => (runHist cvars os).bind fun m => m.step cvars o

theorem GHist.reach {cvars : Nat → List Nat} {os : List (GOp R)} {g : GVsids S} {t : Trail R} {L : Var → Prop}
    (h : GHist cvars os g t L) : GReach cvars g t L := by
  induction h with
  | new => exact .new
  | resize ty n _ h1 h2 ih => exact .resize ty n ih h1 h2
  | notify ty _ ih => exact .notify ty ih
  | init cs _ _ ih => exact .init cs ih
  | learned c _ _ ih => exact .learned c ih
  | resolved c _ _ ih => exact .resolved c ih
  | decide v x _ h1 ih => exact .decide v x ih h1
  | propagate v r l x _ h1 ih => exact .propagate v r l x ih h1
  | backtrack l _ h1 ih => exact .backtrack l ih h1
  | restart _ ih => exact .restart ih
  | pick newEff isEff _ h1 h2 ih => exact .pick newEff isEff ih h1 h2

theorem GHist.sim {cvars : Nat → List Nat} {os : List (GOp R)} {g : GVsids S} {t : Trail R} {L : Var → Prop}
    (h : GHist cvars os g t L) : ∃ m, GMem.runHist cvars os = some m ∧ GMem.Sim m g := by
  have next : ∀ {os : List (GOp R)} {o : GOp R} {g g' : GVsids S},
      (∃ m, GMem.runHist cvars os = some m ∧ GMem.Sim m g) →
      (∀ m, GMem.Sim m g → ∃ m', m.step cvars o = some m' ∧ GMem.Sim m' g') →
      ∃ m, GMem.runHist cvars (o :: os) = some m ∧ GMem.Sim m g' := by
    rintro os o g g' ⟨m, h1, h2⟩ hs
    obtain ⟨m', e1, e2⟩ := hs m h2
    exact ⟨m', by simp only [GMem.runHist]; rw [h1]; exact e1, e2⟩
  induction h with
  | new => exact ⟨_, rfl, GMem.new_sim⟩
  | resize ty n h _ _ ih => exact next ih fun m hm => GMem.resize_sim hm h.reach.inv.q ty n
  | notify ty h ih => exact next ih fun m hm => GMem.resize_sim hm h.reach.inv.q ty _
  | init cs h h1 ih =>
    exact next ih fun m hm => GMem.onInit_sim cvars hm h.reach.inv.q (by rw [h.reach.inv.num]; exact h1)
  | learned c h h1 ih =>
    exact next ih fun m hm => GMem.onLearned_sim cvars hm h.reach.inv.q (by rw [h.reach.inv.num]; exact h1)
  | resolved c h h1 ih =>
    exact next ih fun m hm => GMem.onResolved_sim cvars hm h.reach.inv.q (by rw [h.reach.inv.num]; exact h1)
  | decide v x _ _ ih => exact ih
  | propagate v r l x _ _ ih => exact ih
  | backtrack l h _ ih =>
    exact next ih fun m hm => GMem.onBeforeBacktrack_sim hm h.reach.inv.q h.reach.inv.trail h.reach.inv.num l
  | restart h ih =>
    exact next ih fun m hm => GMem.onBeforeBacktrack_sim hm h.reach.inv.q h.reach.inv.trail h.reach.inv.num 0
  | pick newEff isEff h h1 h2 ih =>
    refine next ih fun m hm => ?_
    obtain ⟨m', e1, e2⟩ := GMem.pick_sim hm h.reach.inv.q h.reach.inv.num h1 h2
    exact ⟨m', by simp only [GMem.step]; rw [e1]; rfl, e2⟩

/-- C94. In every history in which no effectively decided variable is pushed twice, no event makes the heuristic access a
vector outside its bounds, fail an assertion of its queues, or take `value()` of an empty optional; every variable of the
trail has the score of the heuristic of C12, the queues have its variables, and `pick` returns an unassigned variable of the trail or nothing. -/
theorem C94_memory (cvars : Nat → List Nat) (os : List (GOp R)) (g : GVsids S) (t : Trail R) (L : Var → Prop)
    (h : GHist cvars os g t L) :
    ∃ m : GMem S, GMem.runHist cvars os = some m ∧
      (∀ v : Var, v.ord < t.numVars v.type → TMem.cell m.vsids v = some (g.score v)) ∧
      (∀ v, m.vars.contains v = g.vars.contains v ∧ m.eff.contains v = g.eff.contains v) ∧
      (∀ c, GMem.InRange t.numVars cvars c → (m.onResolved cvars c).isSome ∧ (m.onLearned cvars c).isSome) ∧
      (∀ lvl, (m.onBeforeBacktrack t lvl).isSome) ∧
      ∀ isEff, ∃ m' r, m.pick t [] isEff = some (m', r) ∧
        ∀ v, r = some v → v.ord < t.numVars v.type ∧ t.level v = none := by
  obtain ⟨m, h1, h2⟩ := h.sim
  have hi := h.reach.inv
  refine ⟨m, h1, fun v hv => h2.cell (by rw [hi.num]; exact hv),
    fun v => ⟨QMem.contains_eq h2.vars v, QMem.contains_eq h2.eff v⟩, fun c hc => ⟨?_, ?_⟩, fun lvl => ?_, fun isEff => ?_⟩
  · obtain ⟨m', e, -⟩ := GMem.onResolved_sim cvars h2 hi.q (c := c) (by rw [hi.num]; exact hc)
    rw [e]; rfl
  · obtain ⟨m', e, -⟩ := GMem.onLearned_sim cvars h2 hi.q (c := c) (by rw [hi.num]; exact hc)
    rw [e]; rfl
  · obtain ⟨m', e, -⟩ := GMem.onBeforeBacktrack_sim h2 hi.q hi.trail hi.num lvl
    rw [e]; rfl
  · cases hp : g.pick t [] isEff with
    | none => simp [GVsids.pick, GVsids.pushEff] at hp
    | some x =>
      obtain ⟨g', r⟩ := x
      obtain ⟨m', e, -⟩ := GMem.pick_sim h2 hi.q hi.num (fun i hi => absurd hi (by simp)) hp
      exact ⟨m', r, e, (GVsids.pick_ok hi (fun i hi => absurd hi (by simp)) hp).2.1⟩

/-- What `pick` needs from the plugin: it fails exactly if one of the new effectively decided variables is already in the
queue, or is given twice. -/
theorem C94_pick (cvars : Nat → List Nat) (os : List (GOp R)) (g : GVsids S) (t : Trail R) (L : Var → Prop)
    (h : GHist cvars os g t L) (newEff : List Nat) (isEff : Nat → Bool) (hE : ∀ i ∈ newEff, i < t.rats.num) :
    ∃ m : GMem S, GMem.runHist cvars os = some m ∧
      (m.pick t newEff isEff = none ↔ ¬ (newEff.Nodup ∧ ∀ i ∈ newEff, m.eff.contains (.rat i) = false)) := by
  obtain ⟨m, h1, h2⟩ := h.sim
  have hi := h.reach.inv
  have hE' : ∀ i ∈ newEff, i < g.num .rational := fun i hi' => by rw [hi.num]; exact hE i hi'
  have key : ∀ (l : List Nat) (g : GVsids S), g.eff.Ok →
      ((g.pushEff l).isSome ↔ (l.Nodup ∧ ∀ i ∈ l, g.eff.contains (.rat i) = false)) := by
    intro l
    induction l with
    | nil => intro g _; simp [GVsids.pushEff]
    | cons i l ih =>
      intro g hg
      unfold GVsids.pushEff
      split
      · rename_i hc
        simp only [Option.isSome_none, Bool.false_eq_true, false_iff]
        rintro ⟨-, h⟩
        rw [h i List.mem_cons_self] at hc; cases hc
      · rename_i hc
        have hc' : g.eff.contains (.rat i) = false := by simpa using hc
        obtain ⟨p1, p2⟩ := PQ.push_ok hg (.rat i) (g.score (.rat i)) hc'
        rw [ih _ p1, List.nodup_cons]
        constructor
        · rintro ⟨k1, k2⟩
          refine ⟨⟨fun hm => ?_, k1⟩, fun j hj => ?_⟩
          · have := k2 i hm
            rw [(p2 _).2 (Or.inl rfl)] at this; cases this
          · rcases List.mem_cons.1 hj with rfl | hj
            · exact hc'
            · by_contra hn
              have := k2 j hj
              rw [(p2 _).2 (Or.inr (by simpa using hn))] at this; cases this
        · rintro ⟨⟨k1, k2⟩, k3⟩
          refine ⟨k2, fun j hj => ?_⟩
          by_contra hn
          rcases (p2 _).1 (by simpa using hn) with e | e
          · injection e with _ e
            exact k1 (e ▸ hj)
          · rw [k3 j (List.mem_cons_of_mem _ hj)] at e; cases e
  refine ⟨m, h1, ?_⟩
  have hc : ∀ v, m.eff.contains v = g.eff.contains v := QMem.contains_eq h2.eff
  simp only [hc]
  rw [← key newEff g hi.q.eff]
  cases hp : g.pushEff newEff with
  | none =>
    simp only [Option.isSome_none, Bool.false_eq_true, not_false_eq_true, iff_true]
    unfold GMem.pick
    rw [GMem.pushEff_none newEff m g h2 hE' hp]; rfl
  | some g1 =>
    simp only [Option.isSome_some, not_true_eq_false, iff_false]
    cases hq : g.pick t newEff isEff with
    | none => simp [GVsids.pick, hp] at hq
    | some x =>
      obtain ⟨g', r⟩ := x
      obtain ⟨m', e, -⟩ := GMem.pick_sim h2 hi.q hi.num hE hq
      rw [e]; simp

/-- A history with a constraint, a conflict and backtracking. -/
example : ∃ (os : List (GOp Nat)) (g : GVsids Int) (t : Trail Nat) (L : Var → Prop),
    letI := C12Example.intScore
    GHist (fun o => if o = 0 then [0] else []) os g t L ∧ os.length = 5 ∧ t.numVars .boolean = 2 := by
  letI := C12Example.intScore
  refine ⟨_, _, _, _, .backtrack 0 (.decide (.bool 0) (.b true) (.learned [Lit.pos 0, Lit.pos 1] (.resolved [Lit.pos 0]
    (.resize .rational 1 (.resize .boolean 2 .new ?_ ?_) ?_ ?_) ?_) ?_) ?_) ?_, rfl, rfl⟩
  · intro v l _ h; cases h
  · decide
  · intro v l _ h; simp [Trail.resize, Trail.init] at h
  · decide
  · unfold GMem.InRange; decide
  · unfold GMem.InRange; decide
  · simp only [Trail.Pre]; decide
  · simp only [Trail.Pre]; decide

/-- A clause with a variable outside the vectors. -/
example : letI := C12Example.intScore
    ((GMem.runHist (fun _ => []) [(.resize .boolean 2 : GOp Nat)] : Option (GMem Int)).bind fun m =>
      m.onResolved (fun _ => []) [Lit.pos 2]).isNone = true := by decide

#print axioms C94_memory
#print axioms C94_pick

end Yaga
