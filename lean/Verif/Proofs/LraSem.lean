/-
Values of constraints, propagation of fully assigned constraints and completeness of the bounds, at
every level of the trail.
-/
import Verif.Proofs.LraComp
import Verif.Proofs.Trail
import Verif.Model.LraPluginHistory

set_option linter.unusedSimpArgs false
set_option linter.unusedVariables false

namespace Yaga
open Spec
open LinStore (delta WfTerms Inv Kept Made)

theorem varsOf_neg (s : LinStore) (c : LinCons) : s.varsOf c.neg = s.varsOf c := rfl

theorem evalLit_some {m : PModel Bool} {l : Lit} {v : Bool} (h : evalLit m l = some v) :
    m.defined l.ord = true ∧ (m.value l.ord == !l.isNeg) = v := by
  unfold evalLit at h
  split at h
  · rename_i hd; exact ⟨hd, by simpa using h⟩
  · cases h

theorem evalLit_eq {m m' : PModel Bool} {l : Lit} (hd : m'.defined l.ord = m.defined l.ord)
    (hv : m.defined l.ord = true → m'.value l.ord = m.value l.ord) : evalLit m' l = evalLit m l := by
  unfold evalLit
  rw [hd]
  split
  · rename_i h; rw [hv h]
  · rfl

namespace LA
open Lra
variable {R : Type}

/-- The models of the trail. -/
def mods (t : Trail R) : LModels := ⟨t.bools, t.rats⟩

/-- The model without the variables above level `k`. -/
def cutP {α : Type} (L : Nat → Option Nat) (m : PModel α) (k : Nat) : PModel α :=
  { m with defined := fun o => match L o with
      | some l => Decidable.decide (l ≤ k)
      | none => false }

/-- The models after backtracking to level `k`. -/
def cut (t : Trail R) (k : Nat) : LModels :=
  ⟨cutP (fun o => t.level ⟨.boolean, o⟩) t.bools k, cutP (fun o => t.level ⟨.rational, o⟩) t.rats k⟩

theorem cut_b {t : Trail R} {k o : Nat} :
    (cut t k).bools.defined o = true ↔ ∃ l, t.level ⟨.boolean, o⟩ = some l ∧ l ≤ k := by
  show (match t.level ⟨.boolean, o⟩ with
    | some l => Decidable.decide (l ≤ k)
    | none => false) = true ↔ _
  cases t.level ⟨.boolean, o⟩ <;> simp

theorem cut_r {t : Trail R} {k y : Nat} :
    (cut t k).rats.defined y = true ↔ ∃ l, t.level ⟨.rational, y⟩ = some l ∧ l ≤ k := by
  show (match t.level ⟨.rational, y⟩ with
    | some l => Decidable.decide (l ≤ k)
    | none => false) = true ↔ _
  cases t.level ⟨.rational, y⟩ <;> simp

theorem def_b {t : Trail R} (h : t.Inv) {o : Nat} :
    t.bools.defined o = true ↔ ∃ l, t.level ⟨.boolean, o⟩ = some l := h.defined ⟨.boolean, o⟩

theorem def_r {t : Trail R} (h : t.Inv) {y : Nat} :
    t.rats.defined y = true ↔ ∃ l, t.level ⟨.rational, y⟩ = some l := h.defined ⟨.rational, y⟩

theorem cut_top {t : Trail R} (h : t.Inv) : cut t t.decisionLevel = mods t := by
  have hb : (cut t t.decisionLevel).bools.defined = t.bools.defined := by
    funext o
    rw [Bool.eq_iff_iff, cut_b, def_b h]
    exact ⟨fun ⟨l, hl, _⟩ => ⟨l, hl⟩, fun ⟨l, hl⟩ => ⟨l, hl, h.bound _ _ hl⟩⟩
  have hr : (cut t t.decisionLevel).rats.defined = t.rats.defined := by
    funext o
    rw [Bool.eq_iff_iff, cut_r, def_r h]
    exact ⟨fun ⟨l, hl, _⟩ => ⟨l, hl⟩, fun ⟨l, hl⟩ => ⟨l, hl, h.bound _ _ hl⟩⟩
  have key : ∀ {α : Type} (L : Nat → Option Nat) (m : PModel α) (k : Nat),
      (cutP L m k).defined = m.defined → cutP L m k = m := by
    intro α L m k he
    unfold cutP at he ⊢
    cases m
    simp only at he ⊢
    rw [he]
  show (⟨_, _⟩ : LModels) = ⟨_, _⟩
  rw [key _ _ _ hb, key _ _ _ hr]

theorem mstep_cut {t : Trail R} (h : t.Inv) (k : Nat) : MStep (mods t) (cut t k) where
  b := ⟨le_refl _, fun o ho => by
    obtain ⟨l, hl, _⟩ := cut_b.mp ho
    exact Or.inl ⟨(def_b h).mpr ⟨l, hl⟩, rfl, rfl⟩⟩
  r := ⟨le_refl _, fun o ho => by
    obtain ⟨l, hl, _⟩ := cut_r.mp ho
    exact Or.inl ⟨(def_r h).mpr ⟨l, hl⟩, rfl, rfl⟩⟩

/-- What cut models of two trails have in common if levels, values and time stamps agree. -/
theorem ext_cut {t t' : Trail R} {k k' : Nat}
    (hb : ∀ o l, t.level ⟨.boolean, o⟩ = some l → l ≤ k →
      (∃ l', t'.level ⟨.boolean, o⟩ = some l' ∧ l' ≤ k') ∧ t'.bools.value o = t.bools.value o ∧
        t'.bools.ts o = t.bools.ts o)
    (hr : ∀ o l, t.level ⟨.rational, o⟩ = some l → l ≤ k →
      (∃ l', t'.level ⟨.rational, o⟩ = some l' ∧ l' ≤ k') ∧ t'.rats.value o = t.rats.value o ∧
        t'.rats.ts o = t.rats.ts o) : Ext (cut t k) (cut t' k') where
  b := fun o ho => by
    obtain ⟨l, hl, hk⟩ := cut_b.mp ho
    obtain ⟨h1, h2⟩ := hb o l hl hk
    exact ⟨cut_b.mpr h1, h2⟩
  r := fun o ho => by
    obtain ⟨l, hl, hk⟩ := cut_r.mp ho
    obtain ⟨h1, h2⟩ := hr o l hl hk
    exact ⟨cut_r.mpr h1, h2⟩

/-- The values that the bounds of `x` permit satisfy the constraint of `o` if its literal is assigned and
`x` is its only unassigned variable. -/
def CompO (s : LinStore) (m : LModels) (b : BState) (o : Nat) : Prop :=
  ∀ c, IsCons s c → c.lit.ord = o → evalLit m.bools c.lit = some true →
    ∀ x ∈ s.varsOf c, m.rats.defined x = false →
      (∀ y ∈ s.varsOf c, y ≠ x → m.rats.defined y = true) →
      ∀ q, Permits s m b x q → ConsTrue s c (Function.update m.rats.value x q)

/-- The literal of a fully assigned constraint is assigned. -/
def FullO (s : LinStore) (m : LModels) (o : Nat) : Prop :=
  ∀ e ∈ s.set, e.lit.ord = o → (∀ y ∈ s.varsOf e, m.rats.defined y = true) →
    m.bools.defined o = true

/-- Bounds that are not obsolete are kept and do not become obsolete. -/
structure Livens (s : LinStore) (m : LModels) (b : BState) (s' : LinStore) (m' : LModels) (b' : BState) :
    Prop where
  stk : ∀ up x, ∀ e ∈ Lra.stk b up x, e.isObsolete s m = false →
    e ∈ Lra.stk b' up x ∧ e.isObsolete s' m' = false
  dis : ∀ x, ∀ e ∈ (b.vb x).dis, e.isObsolete s m = false →
    e ∈ (b'.vb x).dis ∧ e.isObsolete s' m' = false

theorem Livens.permits {s m b s' m' b'} (h : Livens s m b s' m' b') {x : Nat} {q : ℚ}
    (hp : Permits s' m' b' x q) : Permits s m b x q :=
  ⟨fun up e he hl => hp.1 up e (h.stk up x e he hl).1 (h.stk up x e he hl).2,
    fun e he hl => hp.2 e (h.dis x e he hl).1 (h.dis x e he hl).2⟩

theorem CompO.transfer {s s' : LinStore} {m m' : LModels} {b b' : BState} {o : Nat} (hI : Inv s)
    (hI' : Inv s') (hK : Kept s s') (hset : ∀ c, IsCons s' c → c.lit.ord = o → IsCons s c)
    (hd : m'.bools.defined o = true → m.bools.defined o = true ∧ m'.bools.value o = m.bools.value o)
    (hdef : ∀ c, IsCons s c → c.lit.ord = o → ∀ y ∈ s.varsOf c,
      m'.rats.defined y = m.rats.defined y)
    (hval : ∀ y, m.rats.defined y = true → m'.rats.value y = m.rats.value y)
    (hl : Livens s m b s' m' b') (h : CompO s m b o) : CompO s' m' b' o := by
  intro c hc ho he x hx hxu hxa q hp
  have hc0 := hset c hc ho
  have hperm := varsOf_kept hI hI' hK hc0
  have hev : evalLit m.bools c.lit = some true := by
    obtain ⟨h1, h2⟩ := evalLit_some he
    rw [ho] at h1
    obtain ⟨h3, h4⟩ := hd h1
    rw [← he]
    exact (evalLit_eq (by rw [ho, h1, h3]) (fun _ => by rw [ho, h4])).symm
  have hx0 := hperm.mem_iff.mp hx
  have hT := h c hc0 ho hev x hx0 (by rw [← hdef c hc0 ho x hx0]; exact hxu)
    (fun y hy hyx => by
      rw [← hdef c hc0 ho y hy]; exact hxa y (hperm.mem_iff.mpr hy) hyx) q (hl.permits hp)
  rw [consTrue_kept hK hc0]
  refine (consTrue_congr hI hc0 ?_).mp hT
  intro y hy
  by_cases e : y = x
  · subst e; simp
  · rw [Function.update_of_ne e, Function.update_of_ne e]
    refine (hval y ?_).symm
    rw [← hdef c hc0 ho y hy]; exact hxa y (hperm.mem_iff.mpr hy) e

theorem compO_of_undef {s : LinStore} {m : LModels} {b : BState} {o : Nat}
    (h : m.bools.defined o = false) : CompO s m b o := by
  intro c hc ho he
  have := (evalLit_some he).1
  rw [ho, h] at this
  cases this

theorem compO_of_full {s : LinStore} (hI : Inv s) {m : LModels} {b : BState} {c0 : LinCons}
    (hc0 : IsCons s c0) (h : ∀ y ∈ s.varsOf c0, m.rats.defined y = true) : CompO s m b c0.lit.ord := by
  intro c hc ho he x hx hxu
  have hv : s.varsOf c = s.varsOf c0 := by
    rcases hc.same_ord hI hc0 ho with e | e <;> rw [e]
    rfl
  rw [hv] at hx
  rw [h x hx] at hxu
  cases hxu

theorem compO_of_two {s : LinStore} (hI : Inv s) {m : LModels} {b : BState} {c0 : LinCons}
    (hc0 : IsCons s c0) {y z : Nat} (hy : y ∈ s.varsOf c0) (hz : z ∈ s.varsOf c0) (hyz : y ≠ z)
    (hyu : m.rats.defined y = false) (hzu : m.rats.defined z = false) : CompO s m b c0.lit.ord := by
  intro c hc ho he x hx hxu ha
  have hv : s.varsOf c = s.varsOf c0 := by
    rcases hc.same_ord hI hc0 ho with e | e <;> rw [e]
    rfl
  rw [hv] at ha
  exfalso
  by_cases e : y = x
  · have := ha z hz (fun e' => hyz (e.trans e'.symm)); rw [hzu] at this; cases this
  · have := ha y hy e; rw [hyu] at this; cases this

theorem compO_of_none {s : LinStore} {m : LModels} {b : BState} {o : Nat}
    (h : ∀ c, IsCons s c → c.lit.ord ≠ o) : CompO s m b o := fun c hc ho => absurd ho (h c hc)

theorem set_same {s : LinStore} (hI : Inv s) {e d : LinCons} (he : e ∈ s.set) (hd : d ∈ s.set)
    (h : e.lit.ord = d.lit.ord) : e = d := by
  rw [← LinStore.get_of_mem hI he, ← LinStore.get_of_mem hI hd, h]

theorem IsCons.of_ord {s : LinStore} (hI : Inv s) {e c : LinCons} (he : e ∈ s.set) (hc : IsCons s c)
    (h : c.lit.ord = e.lit.ord) : c = e ∨ c = e.neg := hc.same_ord hI ⟨e, he, Or.inl rfl⟩ h

/-- Consistency of trail, repository and bounds, without the watch lists. -/
structure Base (hv : Nat → Nat) (hc : ℚ → Nat) (t : Trail R) (s : LinStore) (b : BState) : Prop where
  reach : Lra.Reach hv hc ⟨s, mods t, b⟩
  tinv : t.Inv
  /-- a rational variable is only in the list of its own level, at the head -/
  rat : ∀ i xs a, t.levels[i]? = some xs → a ∈ xs → a.var.type = .rational →
    t.level a.var = some i ∧ 0 < i ∧ xs.head? = some a
  ne : ∀ e ∈ s.set, s.terms e ≠ []

variable {hv : Nat → Nat} {hc : ℚ → Nat} {t : Trail R} {s : LinStore} {b : BState}

theorem Base.linv (h : Base hv hc t s b) : LInv ⟨s, mods t, b⟩ := reach_linv h.reach

theorem Base.inv (h : Base hv hc t s b) : Inv s := h.linv.inv

/-- Different rational variables are assigned at different levels above 0. -/
theorem Base.rat_level (h : Base hv hc t s b) {x y l : Nat} (hx : t.level ⟨.rational, x⟩ = some l)
    (hy : t.level ⟨.rational, y⟩ = some l) : x = y ∧ 0 < l := by
  obtain ⟨xs, hxs, a, ha, hax⟩ := h.tinv.own _ _ hx
  obtain ⟨ys, hys, c, hc', hcy⟩ := h.tinv.own _ _ hy
  rw [hxs] at hys
  cases hys
  obtain ⟨_, h1, h2⟩ := h.rat l xs a hxs ha (by rw [hax])
  obtain ⟨_, _, h3⟩ := h.rat l xs c hxs hc' (by rw [hcy])
  rw [h2] at h3
  have : a = c := by simpa using h3
  rw [this, hcy] at hax
  refine ⟨?_, h1⟩
  injection hax with _ e
  exact e.symm

/-- Bounds live in the cut models stay live in extensions of them. -/
theorem Base.livens (h : Base hv hc t s b) {k : Nat} {s' : LinStore} {m' : LModels} {b' : BState}
    (hI' : Inv s') (hK : Kept s s') (hE : Ext (cut t k) m') (hb : KeepsAll s (mods t) b b') :
    Livens s (cut t k) b s' m' b' := by
  have hM := mstep_cut h.tinv k
  refine ⟨fun up x e he hl => ?_, fun x e he hl => ?_⟩
  · have g := h.linv.good up x e he
    have hl0 := obsolete_mono h.inv h.inv (Kept.refl s) hM g hl
    exact ⟨hb.1 up x e he hl0, hE.live h.inv hI' hK
      (g.mono (S' := stk b) h.inv h.inv (Kept.refl s) hM (fun _ _ _ h _ => h)) hl⟩
  · have g := h.linv.dis x e he
    have hl0 := g.live h.inv h.inv (Kept.refl s) hM hl
    exact ⟨hb.2 x e he hl0, hE.liveN h.inv hI' hK (g.mono h.inv h.inv (Kept.refl s) hM) hl⟩

/-- The invariant about values and bounds; `X` and `Y` say for which levels and constraints it may
fail. -/
structure Sem (t : Trail R) (s : LinStore) (b : BState) (X Y : Nat → Nat → Prop) : Prop where
  vals : ValuesConsistent s (mods t)
  full : ∀ k ≤ t.decisionLevel, ∀ o, ¬ X k o → FullO s (cut t k) o
  comp : ∀ k ≤ t.decisionLevel, ∀ o, ¬ Y k o → CompO s (cut t k) b o

variable {X Y X' Y' : Nat → Nat → Prop}

theorem Sem.mono (h : Sem t s b X Y) (hX : ∀ k ≤ t.decisionLevel, ∀ o, X k o → X' k o)
    (hY : ∀ k ≤ t.decisionLevel, ∀ o, Y k o → Y' k o) : Sem t s b X' Y' :=
  ⟨h.vals, fun k hk o ho => h.full k hk o (fun e => ho (hX k hk o e)),
    fun k hk o ho => h.comp k hk o (fun e => ho (hY k hk o e))⟩

/-- Only bounds change. -/
theorem Sem.bnd (hB : Base hv hc t s b) {b' : BState} (hb : KeepsAll s (mods t) b b')
    (h : Sem t s b X Y) : Sem t s b' X Y := by
  refine ⟨h.vals, h.full, fun k hk o ho => ?_⟩
  refine CompO.transfer hB.inv hB.inv (Kept.refl s) (fun c hc _ => hc) (fun hd => ⟨hd, rfl⟩)
    (fun _ _ _ _ _ => rfl) (fun _ _ => rfl) ?_ (h.comp k hk o ho)
  exact hB.livens hB.inv (Kept.refl s) (Ext.refl _) hb

/-- A constraint has been handled at the current level. -/
theorem Sem.done (hB : Base hv hc t s b) (h : Sem t s b X Y) {o : Nat} (hF : FullO s (mods t) o)
    (hC : CompO s (mods t) b o) :
    Sem t s b (fun k o' => X k o' ∧ ¬ (k = t.decisionLevel ∧ o' = o))
      (fun k o' => Y k o' ∧ ¬ (k = t.decisionLevel ∧ o' = o)) := by
  refine ⟨h.vals, fun k hk o' ho' => ?_, fun k hk o' ho' => ?_⟩
  · by_cases e : k = t.decisionLevel ∧ o' = o
    · rw [e.1, e.2, cut_top hB.tinv]; exact hF
    · exact h.full k hk o' (fun hx => ho' ⟨hx, e⟩)
  · by_cases e : k = t.decisionLevel ∧ o' = o
    · rw [e.1, e.2, cut_top hB.tinv]; exact hC
    · exact h.comp k hk o' (fun hx => ho' ⟨hx, e⟩)

theorem Ext.evalLit {m m' : LModels} (h1 : Ext m m') (h2 : Ext m' m) (l : Lit) :
    evalLit m'.bools l = evalLit m.bools l := by
  refine evalLit_eq ?_ (fun hd => (h1.b _ hd).2.1)
  rw [Bool.eq_iff_iff]
  exact ⟨fun hd => (h2.b _ hd).1, fun hd => (h1.b _ hd).1⟩

theorem Ext.defined {m m' : LModels} (h1 : Ext m m') (h2 : Ext m' m) (y : Nat) :
    m'.rats.defined y = m.rats.defined y := by
  rw [Bool.eq_iff_iff]
  exact ⟨fun hd => (h2.r _ hd).1, fun hd => (h1.r _ hd).1⟩

/-- Changes of the repository and of the trail that do not assign a variable. -/
theorem Sem.env (hB : Base hv hc t s b) {t' : Trail R} {s' : LinStore} (ht' : t'.Inv)
    (hdl : t'.decisionLevel ≤ t.decisionLevel) (hI' : Inv s') (hK : Kept s s')
    (hext : ∀ k ≤ t'.decisionLevel, Ext (cut t k) (cut t' k) ∧ Ext (cut t' k) (cut t k))
    (hset : ∀ d ∈ s'.set, d ∈ s.set ∨
      ∀ k ≤ t'.decisionLevel, X' k d.lit.ord ∧ t'.level ⟨.boolean, d.lit.ord⟩ = none)
    (hX : ∀ k ≤ t'.decisionLevel, ∀ o, X k o → X' k o)
    (hY : ∀ k ≤ t'.decisionLevel, ∀ o, Y k o → Y' k o)
    (h : Sem t s b X Y) : Sem t' s' b X' Y' := by
  have hund : ∀ o, t'.level ⟨.boolean, o⟩ = none → ∀ k, (cut t' k).bools.defined o = false := by
    intro o ho k
    by_contra hcon
    rw [Bool.not_eq_false, cut_b] at hcon
    obtain ⟨l, hl, _⟩ := hcon
    rw [ho] at hl; cases hl
  have hcons : ∀ c, IsCons s' c → IsCons s c ∨ ∀ k ≤ t'.decisionLevel, X' k c.lit.ord ∧
      t'.level ⟨.boolean, c.lit.ord⟩ = none := by
    intro c hc
    obtain ⟨e, he, hce⟩ := hc
    rcases hset e he with h1 | h1
    · exact Or.inl ⟨e, h1, hce⟩
    · right
      have : c.lit.ord = e.lit.ord := by
        rcases hce with r | r <;> rw [r]
        exact LinStore.Lit.neg_ord _
      rw [this]; exact h1
  refine ⟨?_, fun k hk o ho => ?_, fun k hk o ho => ?_⟩
  · intro c hc hdef v hv
    rw [← cut_top ht'] at hv hdef
    have hE := hext _ (le_refl _)
    rcases hcons c hc with hc0 | h1
    · have hdef0 : ∀ p ∈ s.terms c, (mods t).rats.defined p.1 = true := by
        intro p hp
        have hp' := (hc0.kept hK).2.mem_iff.mpr hp
        have := (hE.2.r _ (hdef p hp')).1
        obtain ⟨l, hl, _⟩ := cut_r.mp this
        exact (def_r hB.tinv).mpr ⟨l, hl⟩
      have hev : evalLit (mods t).bools c.lit = some v := by
        rw [Ext.evalLit hE.1 hE.2] at hv
        obtain ⟨h1, h2⟩ := evalLit_some hv
        obtain ⟨l, hl, _⟩ := cut_b.mp h1
        rw [← hv]
        exact (evalLit_eq (by rw [h1, (show (mods t).bools.defined _ = true from
          (def_b hB.tinv).mpr ⟨l, hl⟩)]) (fun _ => rfl))
      rw [h.vals c hc0 hdef0 v hev, consTrue_kept hK hc0]
      refine consTrue_congr hB.inv hc0 ?_
      intro y hy
      rw [hc0.varsOf hB.inv] at hy
      obtain ⟨p, hp, rfl⟩ := List.mem_map.mp hy
      have hp' := (hc0.kept hK).2.mem_iff.mpr hp
      exact (hE.2.r _ (hdef p hp')).2.1
    · obtain ⟨h2, _⟩ := evalLit_some hv
      rw [hund _ (h1 _ (le_refl _)).2] at h2
      cases h2
  · intro e he heo hy
    rcases hset e he with h1 | h1
    · have hE := hext k hk
      have := h.full k (hk.trans hdl) o (fun hx => ho (hX k hk o hx)) e h1 heo (fun y hyv => by
        rw [← Ext.defined hE.1 hE.2]
        exact hy y ((varsOf_kept hB.inv hI' hK ⟨e, h1, Or.inl rfl⟩).mem_iff.mpr hyv))
      exact (hE.1.b _ this).1
    · rw [heo] at h1
      exact absurd (h1 k hk).1 ho
  · have hE := hext k hk
    by_cases hnew : ∀ c, IsCons s' c → c.lit.ord = o → IsCons s c
    · exact CompO.transfer hB.inv hI' hK hnew
        (fun hd => ⟨(hE.2.b _ hd).1, ((hE.2.b _ hd).2.1).symm⟩)
        (fun _ _ _ y _ => Ext.defined hE.1 hE.2 y) (fun y hd => (hE.1.r _ hd).2.1)
        (hB.livens hI' hK hE.1 (KeepsAll.refl _ _ _)) (h.comp k (hk.trans hdl) o (fun hx => ho (hY k hk o hx)))
    · push Not at hnew
      obtain ⟨c, hc, hco, hcn⟩ := hnew
      rcases hcons c hc with h1 | h1
      · exact absurd h1 hcn
      · rw [hco] at h1
        exact compO_of_undef (hund _ (h1 k hk).2 k)

end LA
end Yaga
