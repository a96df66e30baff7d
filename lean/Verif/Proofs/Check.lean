/-
Soundness of the check loop: invariant of all executions.
-/
import Verif.Model.Check
import Verif.Proofs.BoolComplete
import Verif.Proofs.Subsumption
import Verif.Proofs.Learn

set_option linter.unusedSectionVars false
set_option linter.unusedVariables false

namespace Yaga
namespace Check
open Spec BS

/-- Consequence in the assignments `M`. -/
def Ent (M : Assignment → Prop) (A : List Clause) (c : Clause) : Prop :=
  ∀ σ, M σ → allTrue σ A → clauseTrue σ c

/-- Invariant for soundness. -/
structure Good (M : Assignment → Prop) (A : List Clause) (b : Bool) (s : BS) : Prop where
  base : Base b s
  ent : ∀ c ∈ s.cls, Ent M A c
  rok : ReasonsOk s.clause s.t
  head : ∀ v r, s.t.reason v = some r →
    r < s.cls.length ∧ ∃ rest, s.clause r = trueLit s.t v :: rest ∧ trueLit s.t v ∉ rest
  zero : ∀ l : Lit, evalLit s.t.bools l = some true → s.t.level l.var = some 0 →
    s.t.reason l.var = none → ∀ σ, M σ → allTrue σ A → litTrue σ l

variable {M : Assignment → Prop} {A : List Clause}

theorem clause_mem {s : BS} {r : Nat} (h : r < s.cls.length) : s.clause r ∈ s.cls := by
  simp [clause, List.getD_eq_getElem?_getD, List.getElem?_eq_getElem h]

theorem mem_clause {s : BS} {c : Clause} (h : c ∈ s.cls) : ∃ r < s.cls.length, s.clause r = c := by
  obtain ⟨r, hr, e⟩ := List.mem_iff_getElem.1 h
  exact ⟨r, hr, by simp [clause, List.getD_eq_getElem?_getD, List.getElem?_eq_getElem hr, e]⟩

theorem dbOk_iff (s : BS) : DbOk s ↔ ∀ c ∈ s.cls, ClauseOk s c := by
  constructor
  · intro h c hc
    obtain ⟨r, hr, rfl⟩ := mem_clause hc
    exact ⟨h.ne r hr, h.range r hr⟩
  · intro h
    exact ⟨fun r hr => (h _ (clause_mem hr)).1, fun r hr => (h _ (clause_mem hr)).2⟩

theorem reason_level {t : Trail Nat} (hi : t.Inv) {v : Var} {r : Nat} (h : t.reason v = some r) :
    ∃ k, t.level v = some k := by
  rcases hl : t.level v with _ | k
  · rw [hi.noReason v hl] at h; cases h
  · exact ⟨k, rfl⟩

theorem trueLit_of_eval {t : Trail Nat} {l : Lit} (h : evalLit t.bools l = some true) :
    trueLit t l.var = l := by
  have := ((evalLit_true_iff _ _).1 h).2
  exact this.symm

theorem trueLit_var {t : Trail Nat} {v : Var} (h : v.type = .boolean) : (trueLit t v).var = v := by
  rcases v with ⟨ty, o⟩
  simp only at h; subst h
  simp [trueLit, Lit.var]

theorem trueLit_grow {t t1 : Trail Nat} (hi : t.Inv) (hg : Grow t t1) {v : Var} {k : Nat}
    (hv : v.type = .boolean) (hl : t.level v = some k) : trueLit t1 v = trueLit t v := by
  have h1 := hg.keep _ _ (trueLit_eval hi hv hl)
  have := trueLit_of_eval h1
  rw [trueLit_var hv] at this
  exact this

/-- Reasons stay well formed when the trail grows without new reasons. -/
theorem reasonsOk_grow {deref : Nat → Clause} {t t1 : Trail Nat} (hi : t.Inv) (hg : Grow t t1)
    (hr : ∀ v r, t1.reason v = some r → t.reason v = some r) (h : ReasonsOk deref t) :
    ReasonsOk deref t1 := by
  have htl : ∀ v r, t.reason v = some r → trueLit t1 v = trueLit t v := by
    intro v r hv
    obtain ⟨k, hk⟩ := reason_level hi hv
    exact trueLit_grow hi hg (h.isBool v r hv) hk
  refine ⟨fun v r hv => h.isBool v r (hr v r hv), fun v r hv => ?_, fun v r hv m hm hmt => ?_⟩
  · rw [htl v r (hr v r hv)]; exact h.mem v r (hr v r hv)
  · rw [htl v r (hr v r hv)] at hmt
    obtain ⟨h1, h2⟩ := h.others v r (hr v r hv) m hm hmt
    refine ⟨hg.keep _ _ h1, ?_⟩
    obtain ⟨lw, lv, a1, a2, a3⟩ := id h2
    exact before_mono h2 ((hg.old _ _ a1).trans a1.symm) ((hg.old _ _ a2).trans a2.symm)
      fun l _ => hg.lists l

/-- The clauses behind the reasons are all that matters. -/
theorem reasonsOk_congr {d d' : Nat → Clause} {t : Trail Nat} (h : ReasonsOk d t)
    (he : ∀ v r, t.reason v = some r → d' r = d r) : ReasonsOk d' t :=
  ⟨h.isBool, fun v r hv => by rw [he v r hv]; exact h.mem v r hv,
   fun v r hv => by rw [he v r hv]; exact h.others v r hv⟩

/-- The trail grows without new reasons and the clauses stay the same. -/
theorem good_grow {b b' : Bool} {s s' : BS} (h : Good M A b s) (hb : Base b' s')
    (hcls : s'.cls = s.cls) (hg : Grow s.t s'.t)
    (hr : ∀ v r, s'.t.reason v = some r → s.t.reason v = some r)
    (hz : ∀ l : Lit, evalLit s'.t.bools l = some true → s'.t.level l.var = some 0 →
      s.t.level l.var = none → ∀ σ, M σ → allTrue σ A → litTrue σ l) 
    (hr2 : ∀ v k, s.t.level v = some k → s'.t.reason v = s.t.reason v) : Good M A b' s' := by
  have hcl : s'.clause = s.clause := by funext r; simp [clause, hcls]
  refine ⟨hb, by rw [hcls]; exact h.ent, by rw [hcl]; exact reasonsOk_grow h.base.inv hg hr h.rok,
    ?_, ?_⟩
  · intro v r hv
    obtain ⟨k, hk⟩ := reason_level h.base.inv (hr v r hv)
    rw [hcls, hcl, trueLit_grow h.base.inv hg (h.rok.isBool v r (hr v r hv)) hk]
    exact h.head v r (hr v r hv)
  · intro l hl h0 hn
    rcases hk : s.t.level l.var with _ | k
    · exact hz l hl h0 hk
    · have hk' := hg.old _ _ hk
      rw [h0] at hk'
      cases hk'
      refine h.zero l ?_ hk (by rw [← hr2 _ _ hk]; exact hn)
      have := trueLit_grow h.base.inv hg (v := l.var) rfl hk
      rw [trueLit_of_eval hl] at this
      rw [this]
      exact trueLit_eval h.base.inv rfl hk

/-- Literals of level 0 are consequences. -/
theorem level_zero {b : Bool} {s : BS} (h : Good M A b s) (l : Lit)
    (hl : evalLit s.t.bools l = some true) (h0 : s.t.level l.var = some 0) (σ : Assignment)
    (hm : M σ) (hA : allTrue σ A) : litTrue σ l := by
  suffices key : ∀ v : Var, ∀ l : Lit, l.var = v → evalLit s.t.bools l = some true →
      s.t.level l.var = some 0 → litTrue σ l from key l.var l rfl hl h0
  intro v
  refine before_induction h.base.inv (P := fun v => ∀ l : Lit, l.var = v →
    evalLit s.t.bools l = some true → s.t.level l.var = some 0 → litTrue σ l) ?_ v
  rintro v ih l rfl hl h0
  rcases hr : s.t.reason l.var with _ | r
  · exact h.zero l hl h0 hr σ hm hA
  · obtain ⟨h1, rest, h2, -⟩ := h.head _ _ hr
    obtain ⟨m, hm1, hm2⟩ := h.ent _ (clause_mem h1) σ hm hA
    have htl := trueLit_of_eval hl
    by_cases e : m = l
    · rw [← e]; exact hm2
    · exfalso
      obtain ⟨g1, g2⟩ := h.rok.others _ _ hr m hm1 (by rw [htl]; exact e)
      have hneg : evalLit s.t.bools m.neg = some true := evalLit_neg_true.2 g1
      have hlev : s.t.level m.var = some 0 := by
        obtain ⟨lw, lv, a1, a2, a3⟩ := g2
        rw [h0] at a2; cases a2
        rw [a1]; congr 1; omega
      have := ih m.var g2 m.neg (by simp) hneg (by simpa using hlev)
      rw [litTrue_neg] at this
      exact this hm2

theorem good_propagates {b : Bool} {s s' : BS} {c : Option Clause} (h : Good M A b s)
    (hp : Propagates s c s') : Good M A true s' ∧
      (∀ c', c = some c' → (∀ l ∈ c', evalLit s'.t.bools l = some false) ∧ c' ∈ s'.cls) ∧
      s'.t.decisionLevel = s.t.decisionLevel := by
  obtain ⟨s0, a1, a2, -, -, -, -, -, hx, b1, b2, -, -, b5⟩ := propagates_spec (Q := fun _ => False)
    h.base.inv h.base.db (fun h' => h.base.ws (Or.inr h')) (by simp) (by simp) hp
  have hcl : s0.clause = s.clause := by funext r; simp [clause, a1]
  have hg : Grow s.t s'.t := by
    refine ⟨b1, ?_, ?_, ?_⟩
    · rw [← a2]; exact hx.lists
    · rw [← a2]; exact fun v k hv => (hx.old v k hv).1
    · rw [← a2]; exact hx.keep
  have hold : ∀ v k, s.t.level v = some k → s'.t.reason v = s.t.reason v := by
    rw [← a2]; exact fun v k hv => (hx.old v k hv).2.1
  -- clauses behind old reasons do not change
  have hcold : ∀ v r, s.t.reason v = some r → s'.clause r = s.clause r := by
    intro v r hv
    obtain ⟨h1, rest, h2, -⟩ := h.head v r hv
    obtain ⟨k, hk⟩ := reason_level h.base.inv hv
    rw [← hcl]
    exact hx.cls.head r _ rest (by rw [hcl]; exact h2)
      (by rw [a2]; exact trueLit_eval h.base.inv (h.rok.isBool v r hv) hk)
  have hcase : ∀ v r, s'.t.reason v = some r → (s.t.reason v = some r ∧ ∃ k, s.t.level v = some k) ∨
      (s.t.level v = none ∧ v.type = .boolean ∧ ∃ rest, r < s'.cls.length ∧
        s'.clause r = trueLit s'.t v :: rest ∧
        ∀ m ∈ rest, evalLit s'.t.bools m = some false ∧ Before s'.t m.var v) := by
    intro v r hv
    rcases hk : s.t.level v with _ | k
    · right
      obtain ⟨k', hk'⟩ := reason_level b1 hv
      obtain ⟨c1, -, r', rest, c2, c3, c4, c5, -⟩ := hx.new v k' (by rw [a2]; exact hk) hk'
      rw [hv] at c3; cases c3
      exact ⟨rfl, c1, rest, c2, c4, c5⟩
    · left; exact ⟨by rw [← hold v k hk]; exact hv, k, rfl⟩
  refine ⟨⟨.mk' b1 b2, ?_, ?_, ?_, ?_⟩, ?_, by rw [hx.dl, a2]⟩
  · intro c' hc' σ hm hA
    obtain ⟨r, hr, rfl⟩ := mem_clause hc'
    have hr' : r < s.cls.length := by rw [hx.cls.len, a1] at hr; exact hr
    obtain ⟨l, hl, ht⟩ := h.ent _ (clause_mem hr') σ hm hA
    exact ⟨l, by rw [(hx.cls.perm r).mem_iff, hcl]; exact hl, ht⟩
  · refine ⟨?_, ?_, ?_⟩
    · intro v r hv
      rcases hcase v r hv with ⟨h1, -⟩ | ⟨-, h1, -⟩
      · exact h.rok.isBool v r h1
      · exact h1
    · intro v r hv
      rcases hcase v r hv with ⟨h1, k, hk⟩ | ⟨-, -, rest, -, h1, -⟩
      · rw [hcold v r h1, trueLit_grow h.base.inv hg (h.rok.isBool v r h1) hk]
        exact h.rok.mem v r h1
      · rw [h1]; simp
    · intro v r hv m hm hmt
      rcases hcase v r hv with ⟨h1, k, hk⟩ | ⟨-, -, rest, -, h1, h2⟩
      · rw [hcold v r h1] at hm
        rw [trueLit_grow h.base.inv hg (h.rok.isBool v r h1) hk] at hmt
        obtain ⟨g1, g2⟩ := h.rok.others v r h1 m hm hmt
        refine ⟨hg.keep _ _ g1, ?_⟩
        obtain ⟨lw, lv, e1, e2, e3⟩ := id g2
        exact before_mono g2 ((hg.old _ _ e1).trans e1.symm) ((hg.old _ _ e2).trans e2.symm)
          fun l _ => hg.lists l
      · rw [h1] at hm
        rcases List.mem_cons.1 hm with rfl | hm
        · exact absurd rfl hmt
        · exact h2 m hm
  · intro v r hv
    rcases hcase v r hv with ⟨h1, k, hk⟩ | ⟨-, hty, rest, h0, h1, hfl⟩
    · rw [hcold v r h1, trueLit_grow h.base.inv hg (h.rok.isBool v r h1) hk, hx.cls.len, a1]
      exact h.head v r h1
    · refine ⟨h0, rest, h1, fun hm => ?_⟩
      obtain ⟨k, hk⟩ := reason_level b1 hv
      have := trueLit_eval b1 hty hk
      rw [(hfl _ hm).1] at this; cases this
  · intro l hl h0 hn
    rcases hk : s.t.level l.var with _ | k
    · exfalso
      obtain ⟨-, -, r, -, -, c3, -⟩ := hx.new l.var 0 (by rw [a2]; exact hk) h0
      rw [hn] at c3; cases c3
    · have hk' := hg.old _ _ hk
      rw [h0] at hk'; cases hk'
      refine h.zero l ?_ hk (by rw [← hold _ _ hk]; exact hn)
      have := trueLit_grow h.base.inv hg (v := l.var) rfl hk
      rw [trueLit_of_eval hl] at this
      rw [this]
      exact trueLit_eval h.base.inv rfl hk
  · intro c' hc'
    obtain ⟨h1, r, hr, rfl⟩ := b5 c' hc'
    exact ⟨h1, clause_mem hr⟩

/-! ### Other plugins -/

variable {O : Type}

/-- What the soundness proof needs from the other plugins, in a theory with the assignments `M`: a
value assigned at level 0 follows from the values of level 0, and conflicts are false clauses that
are valid in the theory. -/
structure Sound (E : Env O) (M : Assignment → Prop) : Prop where
  assign : ∀ s n x, E.assign s (.bool n) (.b x) 0 → ∀ σ, M σ →
    (∀ l : Lit, evalLit s.t.bools l = some true → s.t.level l.var = some 0 → litTrue σ l) → σ n = x
  conflict : ∀ s c, E.conflict s c →
    (∀ l ∈ c, evalLit s.t.bools l = some false) ∧ ∀ σ, M σ → clauseTrue σ c

/-- The variable order picks a declared, unassigned variable after a propagation in `c`. -/
def PicksFree (E : Env O) (c : CS O) : Prop :=
  ∀ s v o', PropRun E c.s [] s → E.pick c.o s (some v) o' →
    v.ord < s.t.numVars v.type ∧ s.t.level v = none

theorem grow_resize {t : Trail Nat} (hi : t.Inv) {ty : VType} {n : Nat} (hn : t.numVars ty ≤ n) :
    Grow t (t.resize ty n) ∧ (t.resize ty n).level = t.level ∧ (t.resize ty n).reason = t.reason ∧
    (t.resize ty n).levels = t.levels ∧
    ∀ m b, evalLit (t.resize ty n).bools m = some b ↔ evalLit t.bools m = some b := by
  have hrange : ∀ v l, v.type = ty → t.level v = some l → v.ord < n := by
    intro v l hv hl
    have := hi.range v l hl
    rw [hv] at this
    exact lt_of_lt_of_le this hn
  obtain ⟨e1, e2, e3, e4⟩ := Trail.level_resize t hi ty n hrange
  have hev : ∀ m : Lit, ∀ b, evalLit (t.resize ty n).bools m = some b ↔
      evalLit t.bools m = some b := by
    intro m b
    have hd : (t.resize ty n).bools.defined m.ord = t.bools.defined m.ord :=
      congrFun e3 m.var
    unfold evalLit
    rw [hd]
    by_cases hdm : t.bools.defined m.ord = true
    · obtain ⟨k, hk⟩ := (hi.defined m.var).1 hdm
      have hr1 : m.ord < t.bools.num := hi.range _ _ hk
      have : (t.resize ty n).bools.value m.ord = t.bools.value m.ord := by
        cases ty with
        | rational => rfl
        | boolean =>
          have hn' : t.bools.num ≤ n := hn
          have : m.ord < n := by omega
          simp [Trail.resize, PModel.resize, hr1, this]
      rw [this]
    · simp [hdm]
  exact ⟨⟨Trail.resize_inv hi _ _ hrange, fun i => by simp [Trail.assigned, e4],
    fun v k h => by rw [e1]; exact h, fun m b h => (hev m b).2 h⟩, e1, e2, e4, hev⟩

theorem good_resizeBool {s : BS} (h : Good M A true s) {n : Nat} (hn : s.t.bools.num ≤ n) :
    Good M A true (s.resizeBool n) := by
  obtain ⟨hg, e1, e2, e3, hev⟩ := grow_resize h.base.inv (ty := .boolean) hn
  refine good_grow h (.mk' hg.inv (resizeBool_ws (h.base.ws (Or.inl rfl)) hn).1) rfl hg ?_ ?_ ?_
  · intro v r hv; rw [← e2]; exact hv
  · intro l hl h0 h1
    have : (s.resizeBool n).t.level l.var = s.t.level l.var := congrFun e1 _
    rw [this, h1] at h0; cases h0
  · intro v k hk; exact congrFun e2 v

theorem good_resizeRat {s : BS} (h : Good M A true s) {n : Nat} (hn : s.t.rats.num ≤ n) :
    Good M A true { s with t := s.t.resize .rational n } := by
  obtain ⟨hg, e1, e2, e3, hev⟩ := grow_resize h.base.inv (ty := .rational) hn
  refine good_grow h (.mk' hg.inv (ws_congr (h.base.ws (Or.inl rfl)) rfl rfl rfl)) rfl hg ?_ ?_ ?_
  · intro v r hv; rw [← e2]; exact hv
  · intro l hl h0 h1
    have : (s.t.resize .rational n).level l.var = s.t.level l.var := congrFun e1 _
    rw [this, h1] at h0; cases h0
  · intro v k hk; exact congrFun e2 v

theorem good_resizes {E : Env O} {s s' : BS} (h : Good M A true s) (hr : Resizes E s s') :
    Good M A true s' ∧ s'.t.levels = s.t.levels ∧ s'.cls = s.cls ∧ s'.na = s.na := by
  induction hr with
  | refl => exact ⟨h, rfl, rfl, rfl⟩
  | bool _ hn _ ih =>
    obtain ⟨-, -, -, e3, -⟩ := grow_resize h.base.inv (ty := .boolean) hn
    obtain ⟨h1, h2, h3, h4⟩ := ih (good_resizeBool h hn)
    exact ⟨h1, h2.trans e3, h3, h4⟩
  | rat _ hn _ ih =>
    obtain ⟨-, -, -, e3, -⟩ := grow_resize h.base.inv (ty := .rational) hn
    obtain ⟨h1, h2, h3, h4⟩ := ih (good_resizeRat h hn)
    exact ⟨h1, h2.trans e3, h3, h4⟩

theorem good_assignOther {E : Env O} (hE : Sound E M) {s : BS} (h : Good M A true s) {v : Var}
    {x : Val} {lvl : Nat} (ha : E.assign s v x lvl) (hp : s.t.Pre (.propagate v none lvl x)) :
    Good M A true (s.assignOther v x lvl) := by
  have hg := grow_propagate h.base.inv hp
  refine good_grow h (.mk' hg.inv (ws_congr (h.base.ws (Or.inl rfl)) rfl rfl
    (numBools_setValue _ _ _))) rfl hg ?_ ?_ ?_
  · intro w r hw
    simp only [assignOther, Trail.reason_setValue, Trail.propagate, Function.update_apply] at hw
    split at hw
    · cases hw
    · exact hw
  · intro l hl h0 h1 σ hm hA
    have hlv : l.var = v := by
      by_contra hne
      simp only [assignOther, Trail.level_setValue, Trail.propagate, Function.update_apply] at h0
      rw [if_neg hne, h1] at h0; cases h0
    have hlvl : lvl = 0 := by
      simp only [assignOther, Trail.level_setValue, Trail.propagate, Function.update_apply] at h0
      rw [if_pos hlv] at h0; cases h0; rfl
    subst hlvl
    obtain ⟨p1, p2, p3, p4⟩ := hp
    rw [← hlv] at p3 ha
    cases x with
    | q y => simp [Lit.var, Val.hasType] at p3
    | b y =>
      have hσ := hE.assign s l.ord y ha σ hm (fun m hm1 hm2 => level_zero h m hm1 hm2 σ hm hA)
      rw [evalLit_true_iff] at hl
      have hval : (s.assignOther v (.b y) 0).t.bools.value l.ord = y := by
        rw [← hlv]
        simp [assignOther, Trail.setValue, Trail.propagate, Lit.var, PModel.setValue]
      rw [hval] at hl
      have hn : l.isNeg = !y := by
        have := congrArg Lit.isNeg hl.2
        simpa using this
      unfold litTrue
      rw [hn, hσ]
      cases y <;> simp
  · intro w k hw
    have hne : w ≠ v := by rintro rfl; rw [hp.2.1] at hw; cases hw
    simp [assignOther, Trail.propagate, Function.update_of_ne hne]

theorem good_others {E : Env O} (hE : Sound E M) {s s' : BS} (h : Good M A true s)
    (hr : Others E s s') :
    Good M A true s' ∧ s'.t.decisionLevel = s.t.decisionLevel ∧ s'.cls = s.cls ∧ s'.na = s.na := by
  induction hr with
  | resizes hr =>
    obtain ⟨h1, h2, h3, h4⟩ := good_resizes h hr
    exact ⟨h1, by simp [Trail.decisionLevel, h2], h3, h4⟩
  | @assign s s1 s' v x lvl hr ha hp _ ih =>
    obtain ⟨h1, h2, h3, h4⟩ := good_resizes h hr
    obtain ⟨g1, g2, g3, g4⟩ := ih (good_assignOther hE h1 ha hp)
    refine ⟨g1, ?_, g3.trans h3, g4.trans h4⟩
    rw [g2]
    simp [assignOther, Trail.decisionLevel, Trail.propagate, h2]

/-- Propagation keeps the invariant; conflicts are false consequences. -/
theorem good_propRun {E : Env O} (hE : Sound E M) {b : Bool} {s s' : BS} {cs : List Clause}
    (h : Good M A b s) (hr : PropRun E s cs s') :
    Good M A true s' ∧
    ∀ c ∈ cs, (∀ l ∈ c, evalLit s'.t.bools l = some false) ∧ Ent M A c := by
  induction hr generalizing b with
  | boolConflict hp =>
    obtain ⟨h1, h2, -⟩ := good_propagates h hp
    refine ⟨h1, fun c hc => ?_⟩
    rw [List.mem_singleton] at hc; subst hc
    obtain ⟨h3, h4⟩ := h2 c rfl
    exact ⟨h3, h1.ent c h4⟩
  | otherConflict hp ho _ hc =>
    obtain ⟨h1, -, -⟩ := good_propagates h hp
    obtain ⟨h2, -⟩ := good_others hE h1 ho
    refine ⟨h2, fun c hm => ?_⟩
    obtain ⟨h3, h4⟩ := hE.conflict _ _ (hc c hm)
    exact ⟨h3, fun σ hσ _ => h4 σ hσ⟩
  | done hp ho =>
    obtain ⟨h1, -, -⟩ := good_propagates h hp
    exact ⟨(good_resizes h1 ho).1, by simp⟩
  | again hp ho _ ih =>
    obtain ⟨h1, -, -⟩ := good_propagates h hp
    exact ih (good_others hE h1 ho).1

/-! ### Analysis -/

theorem reason_listed {t : Trail Nat} (hi : t.Inv) (i : Nat) (a : Asg Nat) (ha : a ∈ t.assigned i) :
    t.reason a.var = a.reason := by
  simp only [Trail.assigned, List.getD_eq_getElem?_getD] at ha
  rcases hx : t.levels[i]? with _ | xs
  · rw [hx] at ha; simp at ha
  · rw [hx] at ha
    obtain ⟨_, _, _, h⟩ := hi.listed i xs a hx ha; exact h

/-- Before is irreflexive. -/
theorem before_irrefl {t : Trail Nat} (hi : t.Inv) (v : Var) : ¬ Before t v v := by
  rintro ⟨lw, lv, h1, h2, h3⟩
  rw [h1] at h2; cases h2
  rcases h3 with h3 | ⟨-, xs, a', ys, e1, e2, b, hb, e3⟩
  · omega
  · obtain ⟨zs, hz, -⟩ := hi.own _ _ h1
    have hnd := hi.nodup _ _ hz
    simp only [Trail.assigned, List.getD_eq_getElem?_getD, hz, Option.getD_some] at e1
    rw [e1, List.map_append, List.nodup_append] at hnd
    exact hnd.2.2 b.var (List.mem_map_of_mem hb) a'.var (by simp) (by rw [e3, e2])

theorem analyze_sound {deref : Nat → Clause} {t : Trail Nat} (hi : t.Inv) (hro : ReasonsOk deref t)
    {conflict c : Clause} {lvl : Int} (h : analyze deref t conflict = some (c, lvl))
    (σ : Assignment) (hc : clauseTrue σ conflict)
    (hr : ∀ v r, t.reason v = some r → clauseTrue σ (deref r)) : clauseTrue σ c := by
  simp only [analyze, Option.bind_eq_some_iff] at h
  obtain ⟨c0, h0, h1⟩ := h
  obtain ⟨hok, hmem⟩ := init_ok h0
  have := loop_entails deref t σ (t.assigned c0.topLevel).reverse (by
      intro a ha r har hm
      have hre : t.reason a.var = some r := (reason_listed hi _ a (List.mem_reverse.1 ha)).trans har
      have hne : Lit.ofVal a.var.ord (!t.bools.value a.var.ord) ≠ trueLit t a.var := by
        intro e
        have := congrArg Lit.isNeg e
        cases hv : t.bools.value a.var.ord <;> simp [trueLit, hv] at this
      have hb := (hro.others _ _ hre _ hm hne).2
      have hvar : (Lit.ofVal a.var.ord (!t.bools.value a.var.ord)).var = a.var := by
        have hb := hro.isBool _ _ hre
        rcases hv : a.var with ⟨ty, o⟩
        rw [hv] at hb; simp only at hb; subst hb
        simp [Lit.var]
      rw [hvar] at hb
      exact before_irrefl hi _ hb)
    (by
      intro a ha r har
      exact hr _ _ ((reason_listed hi _ a (List.mem_reverse.1 ha)).trans har))
    c0 hok (by obtain ⟨l, hl, hlt⟩ := hc; exact ⟨l, (hmem l).2 hl, hlt⟩)
  obtain ⟨l, hl, hlt⟩ := this
  exact ⟨l, (finish_mem h1 l).2 hl, hlt⟩

/-- Shape of the analysed clause without any assumption on late propagation. -/
theorem analyze_shape {deref : Nat → Clause} {t : Trail Nat} (hi : t.Inv) (hr : ReasonsOk deref t)
    {c c' : Clause} {lvl : Int} (hf : ∀ l ∈ c, evalLit t.bools l = some false)
    (h : analyze deref t c = some (c', lvl)) :
    (∀ l ∈ c', evalLit t.bools l = some false) ∧
    c'.Pairwise (fun a b => levelOr t b ≤ levelOr t a) ∧
    (c' = [] ∨ (∀ m ∈ c', ∀ k, t.level m.var = some k → (k : Int) ≤ lvl + 1) ∨
      ∃ x rest, c' = x :: rest ∧ ∀ m ∈ rest, ∀ k, t.level m.var = some k → (k : Int) ≤ lvl) := by
  obtain ⟨⟨s, top⟩, hs⟩ := initLoop_isSome t c [] 0 fun l hl => false_level hi (hf l hl)
  obtain ⟨i1, i2, -, i4, i5⟩ := initLoop_spec t c [] 0 s top hs List.nodup_nil
  have i2' : ∀ l, l ∈ s ↔ l ∈ c := by simpa using i2
  set c0 : CA := ⟨s, top, countLevel t s top⟩ with hc0
  have hinit : CA.init t c = some c0 := by simp [CA.init, hs, hc0]
  have hopen : c0.LI deref t (t.assigned top).reverse := by
    refine ⟨⟨i1, rfl⟩, fun l hl => hf l ((i2' l).1 hl), ?_, ?_, ?_⟩
    · intro l hl n hn
      obtain ⟨k, hk, hle⟩ := i4 l ((i2' l).1 hl)
      rw [hn] at hk; cases hk; exact hle
    · intro l hl h1 _
      obtain ⟨xs, hx, a, ha, e⟩ := hi.own _ _ h1
      refine ⟨a, ?_, e⟩
      simp only [hc0] at hx
      simp [Trail.assigned, List.getD_eq_getElem?_getD, hx, ha]
    · intro _ hpos
      rcases i5 with e | ⟨l, hl, e⟩
      · simp only [hc0] at hpos; omega
      · exact ⟨l, (i2' l).2 hl, e⟩
  obtain ⟨htop, hres⟩ := loop_spec hi hr (t.assigned top).reverse [] c0 (by simp [hc0]) hopen
  set c1 := CA.loop deref t (t.assigned top).reverse c0 with hc1
  have hLI : c1.LI deref t (t.assigned top).reverse := by
    rcases hres with h | h
    · exact ⟨h.ok, h.falsified, h.le, fun l hl h1 h2 => (by
        obtain ⟨a, ha, _⟩ := h.open_ l hl h1 h2; cases ha), h.pos⟩
    · exact h.1
  have hana : analyze deref t c = c1.finish t := by simp [analyze, hinit, hc1, hc0]
  have htop' : c1.topLevel = top := htop
  rw [hana] at h
  have hmem := finish_mem h
  refine ⟨fun l hl => hLI.falsified l ((hmem l).1 hl), ?_, ?_⟩
  · unfold CA.finish at h
    by_cases he : c1.conflict = []
    · rw [if_pos he] at h; cases h; simp
    · rw [if_neg he] at h
      have key : c' = sortBy (CA.before t) c1.conflict := by
        simp only at h
        split at h
        · cases h; rfl
        · split at h
          · simp only [Option.map_eq_some_iff, Prod.mk.injEq] at h
            obtain ⟨_, _, h, _⟩ := h; exact h.symm
          · cases h; rfl
      rw [key]
      exact finish_sorted t c1.conflict
  · have hsort := finish_sorted t c1.conflict
    unfold CA.finish at h
    by_cases he : c1.conflict = []
    · rw [if_pos he] at h; cases h; exact Or.inl rfl
    · rw [if_neg he] at h
      simp only at h
      right
      split at h
      · left
        cases h
        intro m hm k hk
        have := hLI.le m ((hmem m).1 hm) k hk
        rw [htop'] at this ⊢; omega
      · right
        split at h
        · rename_i x second rest e
          simp only [Option.map_eq_some_iff, Prod.mk.injEq] at h
          obtain ⟨L1, hL1, h1, h2⟩ := h
          rw [e] at h1 hsort
          obtain ⟨L, hL, rfl⟩ : ∃ L : Nat, t.level second.var = some L ∧ (L : Int) = lvl := by
            rcases hx : t.level second.var with _ | L
            · rw [hx] at hL1; simp at hL1
            · rw [hx] at hL1; simp at hL1; exact ⟨L, rfl, hL1.trans h2⟩
          refine ⟨x, second :: rest, h1.symm, ?_⟩
          intro m hm k hk
          rcases List.mem_cons.1 hm with rfl | hm
          · rw [hL] at hk; cases hk; omega
          · have := (List.pairwise_cons.1 (List.pairwise_cons.1 hsort).2).1 m hm
            rw [levelOr_of_level hk, levelOr_of_level hL] at this
            omega
        · rename_i hno
          cases h
          cases hcl : sortBy (CA.before t) c1.conflict with
          | nil => 
            exfalso; apply he
            have := length_sortBy (CA.before t) c1.conflict
            rw [hcl] at this; exact List.length_eq_zero_iff.1 this.symm
          | cons x rest =>
            cases rest with
            | nil => exact ⟨x, [], rfl, by simp⟩
            | cons y ys => exact absurd hcl (hno x y ys)

/-- A learned clause that is no semantic split can be a reason for its first literal. -/
def HeadOk (t : Trail Nat) (L : Nat) (c : Clause) : Prop :=
  ∃ x rest, c = x :: rest ∧ ((∃ k ≤ L, t.level x.var = some k) ∨
    ∀ m ∈ rest, evalLit t.bools m = some false ∧ ∃ k ≤ L, t.level m.var = some k)

theorem headOk_of_analysis {deref : Nat → Clause} {t : Trail Nat} (hi : t.Inv)
    (hr : ReasonsOk deref t) {c c' : Clause} {L : Nat}
    (hf : ∀ l ∈ c, evalLit t.bools l = some false)
    (h : analyzeOne deref t c = some (c', (L : Int))) :
    (∀ l ∈ c', evalLit t.bools l = some false) ∧
    (c' ≠ [] → isSemanticSplit t c' = false → HeadOk t L c') := by
  simp only [analyzeOne, Option.map_eq_some_iff, Prod.mk.injEq] at h
  obtain ⟨⟨c0, lvl⟩, h0, h1, h2⟩ := h
  simp only at h1 h2
  subst h2
  obtain ⟨g1, g2, g3⟩ := analyze_shape hi hr hf h0
  have hsub : c'.Sublist c0 := by
    rw [← h1]
    split
    · exact List.Sublist.refl _
    · exact minimize_sublist _ _ _
  have hfl : ∀ l ∈ c', evalLit t.bools l = some false := fun l hl => g1 l (hsub.subset hl)
  refine ⟨hfl, fun hne hsp => ?_⟩
  rcases c' with _ | ⟨x, rest⟩
  · exact absurd rfl hne
  · refine ⟨x, rest, rfl, ?_⟩
    have hlev : ∀ m ∈ x :: rest, ∃ k, t.level m.var = some k := fun m hm => false_level hi (hfl m hm)
    obtain ⟨kx, hkx⟩ := hlev x (by simp)
    rcases Nat.lt_or_ge L kx with hlt | hge
    · right
      intro m hm
      obtain ⟨k, hk⟩ := hlev m (by simp [hm])
      refine ⟨hfl m (by simp [hm]), k, ?_, hk⟩
      rcases g3 with g3 | g3 | ⟨x0, rest0, e, g3⟩
      · rw [g3] at hsub; simp at hsub
      · -- the level of the second literal is lower
        rcases rest with _ | ⟨y, ys⟩
        · simp at hm
        · obtain ⟨ky, hky⟩ := hlev y (by simp)
          have hs := g2.sublist hsub
          have h1 := (List.pairwise_cons.1 hs).1 y (by simp)
          rw [levelOr_of_level hkx, levelOr_of_level hky] at h1
          have h2 : ky ≠ kx := by
            intro e
            simp [isSemanticSplit, hkx, hky, e] at hsp
          have h3 := g3 x (hsub.subset (by simp)) kx hkx
          rcases List.mem_cons.1 hm with rfl | hm
          · rw [hk] at hky; cases hky; omega
          · have h4 := (List.pairwise_cons.1 (List.pairwise_cons.1 hs).2).1 m hm
            rw [levelOr_of_level hk, levelOr_of_level hky] at h4
            omega
      · subst e
        cases hsub with
        | cons _ hs =>
          have := g3 x (hs.subset (by simp)) kx hkx
          omega
        | cons_cons _ hs =>
          have := g3 m (hs.subset hm) k hk
          omega
    · exact Or.inl ⟨kx, hge, hkx⟩

/-- Every selected clause is the analysis of a conflict, at the selected level. -/
theorem analyzeConflicts_mem {deref : Nat → Clause} {t : Trail Nat} {cs learned : List Clause}
    {lvl : Option Int} (h : analyzeConflicts deref t cs = some (learned, lvl)) (c : Clause)
    (hc : c ∈ learned) : ∃ d ∈ cs, ∃ l, lvl = some l ∧ analyzeOne deref t d = some (c, l) := by
  simp only [analyzeConflicts, Option.map_eq_some_iff] at h
  obtain ⟨rs, h1, h2⟩ := h
  have hrs : ∀ p ∈ rs, ∃ d ∈ cs, analyzeOne deref t d = some p := by
    intro p hp
    have h3 := (mapM_eq_some_iff _ _ _).1 h1
    have : some p ∈ rs.map some := List.mem_map_of_mem hp
    rw [← h3, List.mem_map] at this
    exact this
  rcases rs with _ | ⟨⟨c0, l0⟩, rs⟩
  · simp only [selectLowest, Prod.mk.injEq] at h2
    rw [← h2.1] at hc; simp at hc
  · unfold selectLowest at h2
    obtain ⟨l, e1, e2, e3, e4⟩ := selectLowest_spec rs [c0] l0
    rw [h2] at e1 e4
    simp only at e1 e4
    rw [e4] at hc
    rcases List.mem_append.1 hc with hc | hc
    · split at hc
      · rename_i e
        rw [List.mem_singleton] at hc
        subst hc
        obtain ⟨d, hd, hd2⟩ := hrs (c, l0) (by simp)
        exact ⟨d, hd, l, e1, by rw [e]; exact hd2⟩
      · simp at hc
    · rw [List.mem_map] at hc
      obtain ⟨⟨c', l'⟩, hp, rfl⟩ := hc
      rw [List.mem_filter] at hp
      have : l' = l := by simpa using hp.2
      subst this
      obtain ⟨d, hd, hd2⟩ := hrs (c', l') (List.mem_cons_of_mem _ hp.1)
      exact ⟨d, hd, l', e1, hd2⟩

theorem learnSelect_mem {t : Trail Nat} {cs : List Clause} {c : Clause} (h : c ∈ learnSelect t cs) :
    c ∈ cs := by
  unfold learnSelect at h
  simp only at h
  split at h
  · exact ((uniq_sort_clauses cs).2 c).1 (List.mem_filter.1 h).1
  · exact ((uniq_sort_clauses cs).2 c).1 h

/-- If the first selected clause is no semantic split, none is. -/
theorem learnSelect_split {t : Trail Nat} {cs : List Clause}
    (h : (learnSelect t cs).head?.any (isSemanticSplit t) = false) (c : Clause)
    (hc : c ∈ learnSelect t cs) : isSemanticSplit t c = false := by
  unfold learnSelect at h hc
  simp only at h hc
  split at hc
  · simpa using (List.mem_filter.1 hc).2
  · rename_i hn
    rw [if_neg hn] at h
    exfalso
    cases hx : uniq (sortBy clauseLt cs) with
    | nil => rw [hx] at hc; simp at hc
    | cons a as =>
      rw [hx] at h hn
      simp at h hn
      rw [hn.1] at h
      exact absurd h (by simp)

/-- Analysed conflicts are consequences. -/
theorem analyzeOne_ent {b : Bool} {s : BS} (h : Good M A b s) {d c : Clause} {l : Int}
    (hd : Ent M A d) (ha : analyzeOne s.clause s.t d = some (c, l)) : Ent M A c := by
  simp only [analyzeOne, Option.map_eq_some_iff, Prod.mk.injEq] at ha
  obtain ⟨⟨c0, lvl⟩, h0, h1, h2⟩ := ha
  intro σ hm hA
  have hr : ∀ v r, s.t.reason v = some r → clauseTrue σ (s.clause r) := fun v r hv =>
    h.ent _ (clause_mem (h.head v r hv).1) σ hm hA
  have := analyze_sound h.base.inv h.rok h0 σ (hd σ hm hA) hr
  rw [← h1]
  split
  · exact this
  · exact minimize_sound h.base.inv h.rok c0 σ this hr

/-- The clauses to learn. -/
theorem learned_spec {s : BS} (h : Good M A true s) {cs ls : List Clause} {lvl : Int}
    (hcs : ∀ c ∈ cs, (∀ l ∈ c, evalLit s.t.bools l = some false) ∧ Ent M A c)
    (hl : Learned s cs ls lvl) :
    (∀ c ∈ ls, ClauseOk s c ∧ Ent M A c) ∧
    (∀ L : Nat, lvl = L → ls.head?.any (isSemanticSplit s.t) = false → ∀ c ∈ ls, HeadOk s.t L c) ∧
    ∀ c ∈ ls, ∀ l ∈ c, evalLit s.t.bools l = some false := by
  obtain ⟨learned, h1, h2, rfl⟩ := hl.analysed
  have hfalse : ∀ c ∈ learnSelect s.t learned, ∀ l ∈ c, evalLit s.t.bools l = some false := by
    intro c hc
    have hcl := learnSelect_mem hc
    obtain ⟨d, hd, l, e1, e2⟩ := analyzeConflicts_mem h1 c hcl
    simp only [analyzeOne, Option.map_eq_some_iff, Prod.mk.injEq] at e2
    obtain ⟨⟨c0, lvl⟩, h0, e3, -⟩ := e2
    have := (analyze_shape h.base.inv h.rok (hcs d hd).1 h0).1
    intro m hm
    refine this m ?_
    rw [← e3] at hm
    simp only at hm
    split at hm
    · exact hm
    · exact (minimize_sublist _ _ _).subset hm
  refine ⟨?_, ?_, hfalse⟩
  · intro c hc
    have hcl := learnSelect_mem hc
    obtain ⟨d, hd, l, e1, e2⟩ := analyzeConflicts_mem h1 c hcl
    refine ⟨⟨?_, ?_⟩, analyzeOne_ent h (hcs d hd).2 e2⟩
    · rintro rfl; exact h2 hcl
    · intro m hm
      obtain ⟨k, hk⟩ := false_level h.base.inv (hfalse c hc m hm)
      exact h.base.inv.range _ _ hk
  · rintro L rfl hsp c hc
    have hcl := learnSelect_mem hc
    obtain ⟨d, hd, l, e1, e2⟩ := analyzeConflicts_mem h1 c hcl
    cases e1
    refine (headOk_of_analysis h.base.inv h.rok (hcs d hd).1 e2).2 ?_ (learnSelect_split hsp c hc)
    rintro rfl; exact h2 hcl

/-! ### Learning, backtracking, restarting -/

theorem good_learnAll {s : BS} (h : Good M A true s) {ls : List Clause}
    (hl : ∀ c ∈ ls, ClauseOk s c ∧ Ent M A c) :
    Good M A true (s.learnAll ls) ∧ (s.learnAll ls).t = s.t ∧ (s.learnAll ls).cls = s.cls ++ ls ∧
      (s.learnAll ls).na = s.na := by
  obtain ⟨h1, h2, h3, h4, -⟩ := learnAll_ws (h.base.ws (Or.inl rfl)) fun c hc => (hl c hc).1
  have hcl : ∀ r, r < s.cls.length → (s.learnAll ls).clause r = s.clause r :=
    fun r hr => clause_append_lt h2 hr
  refine ⟨⟨.mk' (by rw [h3]; exact h.base.inv) h1, ?_, ?_, ?_, ?_⟩, h3, h2, h4⟩
  · intro c hc
    rw [h2] at hc
    rcases List.mem_append.1 hc with hc | hc
    · exact h.ent c hc
    · exact (hl c hc).2
  · rw [h3]
    exact reasonsOk_congr h.rok fun v r hv => hcl r (h.head v r hv).1
  · rw [h3]
    intro v r hv
    obtain ⟨g1, rest, g2, g3⟩ := h.head v r hv
    exact ⟨by rw [h2, List.length_append]; omega, rest, by rw [hcl r g1]; exact g2, g3⟩
  · rw [h3]; exact h.zero

theorem good_restart {s : BS} (h : Good M A true s) (old : Nat) : Good M A false (restart s old) := by
  have ht : (restart s old).t = s.t.clear := rfl
  have hsub : ∀ c ∈ (restart s old).cls, c ∈ s.cls := by
    intro c hc
    simp only [restart] at hc
    rcases List.mem_append.1 hc with hc | hc
    · exact List.mem_of_mem_take hc
    · exact List.mem_of_mem_drop ((removeSubsumed_inv _ _).1.subset hc)
  have hlev : ∀ v, (restart s old).t.level v = none := fun v => rfl
  have hre : ∀ v, (restart s old).t.reason v = none := fun v => rfl
  refine ⟨⟨Trail.clear_inv _, ?_, ?_, fun _ => rfl⟩, fun c hc => h.ent c (hsub c hc),
    reasonsOk_of_noReason hre, ?_, ?_⟩
  · rw [dbOk_iff]
    intro c hc
    exact (dbOk_iff s).1 h.base.db c (hsub c hc)
  · rintro (h' | h')
    · cases h'
    · rw [ht] at h'; simp [Trail.isEmpty, Trail.clear, Trail.assigned] at h'
  · intro v r hv; rw [hre] at hv; cases hv
  · intro l _ h0; rw [hlev] at h0; cases h0

theorem good_backtrackTo {s : BS} (h : Good M A true s) {L : Nat} (hL : L ≤ s.t.decisionLevel) :
    Good M A true (s.backtrackTo L) := by
  have hi := h.base.inv
  obtain ⟨h1, h2, h3, h4, h5⟩ := Trail.backtrack_spec hi L hL
  have hlow : ∀ v k, (s.t.backtrack L).level v = some k → s.t.level v = some k ∧
      (s.t.backtrack L).reason v = s.t.reason v := by
    intro v k hv
    rcases hl : s.t.level v with _ | n
    · rw [(h3 v (by simp [hl])).1, hl] at hv; cases hv
    · rcases Nat.lt_or_ge L n with hlt | hge
      · rw [(h2 v n hl hlt).1] at hv; cases hv
      · have := h3 v (by intro l hl'; rw [hl] at hl'; cases hl'; exact hge)
        rw [this.1, hl] at hv
        exact ⟨hv, this.2.1⟩
  have htl : ∀ v, trueLit (s.t.backtrack L) v = trueLit s.t v := by
    intro v
    have := congrFun h4 (.bool v.ord)
    simp only [Trail.valueOf, Val.b.injEq] at this
    simp [trueLit, this]
  have hib := Trail.backtrack_inv hi L hL
  refine ⟨.mk' hib (ws_congr (h.base.ws (Or.inl rfl)) rfl rfl (numBools_backtrack hi hL)), h.ent,
    reasonsOk_backtrack hi h.rok L hL, ?_, ?_⟩
  · intro v r hv
    obtain ⟨k, hk⟩ := reason_level hib hv
    rw [show (s.backtrackTo L).t = s.t.backtrack L from rfl, htl]
    have hv' : (s.t.backtrack L).reason v = some r := hv
    rw [(hlow v k hk).2] at hv'
    exact h.head v r hv'
  · intro l hl h0 hn
    obtain ⟨g1, g2⟩ := hlow _ _ h0
    refine h.zero l ?_ g1 (by rw [← g2]; exact hn)
    rw [← evalLit_backtrack_low hi hL g1 (Nat.zero_le L)]
    exact hl

theorem good_assignLit {s : BS} (h : Good M A true s) {x : Lit} {r L : Nat} {rest : Clause}
    (hx : x.ord < s.t.bools.num) (hu : s.t.level x.var = none) (hL : L ≤ s.t.decisionLevel)
    (hr : r < s.cls.length) (hc : s.clause r = x :: rest)
    (hrest : ∀ m ∈ rest, evalLit s.t.bools m = some false ∧ ∃ k ≤ L, s.t.level m.var = some k) :
    Good M A true (s.assignLit x (some r) L) := by
  have hpre : s.t.Pre (.propagate x.var (some r) L (.b (!x.isNeg))) :=
    ⟨hx, hu, rfl, hL⟩
  have hg := grow_propagate h.base.inv hpre
  have hxo : Lit.ofVal x.ord (!x.isNeg) = x := Lit.ofVal_self x
  have hcl : (s.assignLit x (some r) L).clause = s.clause := rfl
  have hrok : ReasonsOk s.clause (s.assignLit x (some r) L).t := by
    refine reasonsOk_propagate h.base.inv h.rok x.ord r L (!x.isNeg) hL hu ?_ ?_
    · rw [hxo, hc]; simp
    · intro m hm hne
      rw [hxo] at hne
      rw [hc] at hm
      rcases List.mem_cons.1 hm with rfl | hm
      · exact absurd rfl hne
      · obtain ⟨g1, k, g2, g3⟩ := hrest m hm
        exact ⟨g1, k, g3, g2⟩
  have hreason : ∀ v, (s.assignLit x (some r) L).t.reason v =
      if v = x.var then some r else s.t.reason v := by
    intro v; simp [assignLit, Trail.propagate, Function.update_apply]
  have hlevel : ∀ v, (s.assignLit x (some r) L).t.level v =
      if v = x.var then some L else s.t.level v := by
    intro v; simp [assignLit, Trail.propagate, Function.update_apply]
  refine ⟨.mk' hg.inv (ws_congr (h.base.ws (Or.inl rfl)) rfl rfl (numBools_setValue _ _ _)),
    h.ent, hrok, ?_, ?_⟩
  · intro v r' hv
    rw [hreason] at hv
    split at hv
    · rename_i e
      cases hv
      have htl : trueLit (s.assignLit x (some r) L).t v = x := by
        rw [e]
        simp only [assignLit, trueLit, Trail.setValue, Lit.var, PModel.setValue, Function.update_self]
        exact hxo
      rw [htl]
      refine ⟨hr, rest, by rw [hcl, hc], fun hm => ?_⟩
      obtain ⟨-, k, -, hk⟩ := hrest x hm
      rw [hu] at hk; cases hk
    · rename_i e
      obtain ⟨k, hk⟩ := reason_level h.base.inv hv
      have htl : trueLit (s.assignLit x (some r) L).t v = trueLit s.t v :=
        trueLit_grow h.base.inv hg (h.rok.isBool v r' hv) hk
      rw [hcl, htl]
      exact h.head v r' hv
  · intro l hl h0 hn
    rw [hreason] at hn
    rw [hlevel] at h0
    by_cases e : l.var = x.var
    · rw [if_pos e] at hn; cases hn
    · rw [if_neg e] at hn h0
      refine h.zero l ?_ h0 hn
      rw [← evalLit_setValue_ne _ x.var (.b (!x.isNeg)) l e]
      exact hl

theorem good_propHeads (L : Nat) (cs : List Clause) (r : Nat) (s : BS) (h : Good M A true s)
    (hdl : L ≤ s.t.decisionLevel) (hr : ∀ i c, cs[i]? = some c → r + i < s.cls.length ∧
      s.clause (r + i) = c) (hc : ∀ c ∈ cs, HeadOk s.t L c) :
    Good M A true (propHeads L cs r s) := by
  induction cs generalizing r s with
  | nil => exact h
  | cons c cs ih =>
    obtain ⟨x, rest, rfl, hx⟩ := hc c (by simp)
    unfold propHeads
    obtain ⟨hr1, hr2⟩ := hr 0 _ rfl
    rw [Nat.add_zero] at hr1 hr2
    have hrs : ∀ i c, cs[i]? = some c → r + 1 + i < s.cls.length ∧ s.clause (r + 1 + i) = c := by
      intro i c hi
      have := hr (i + 1) c (by simpa using hi)
      rw [show r + 1 + i = r + (i + 1) by omega]; exact this
    by_cases hd : s.t.bools.defined x.ord = true
    · rw [if_pos hd]
      exact ih (r + 1) s h hdl hrs fun c hc' => hc c (by simp [hc'])
    · rw [if_neg hd]
      have hu : s.t.level x.var = none := by
        rcases hl : s.t.level x.var with _ | k
        · rfl
        · exact absurd ((h.base.inv.defined x.var).2 ⟨k, hl⟩) hd
      have hxr : x.ord < s.t.bools.num :=
        h.base.db.range r hr1 x (by rw [hr2]; simp)
      have hrest := hx.resolve_left (by rintro ⟨k, -, hk⟩; rw [hu] at hk; cases hk)
      have hg := grow_propagate h.base.inv (v := x.var) (r := some r) (lvl := L)
        (x := .b (!x.isNeg)) ⟨hxr, hu, rfl, hdl⟩
      refine ih (r + 1) _ (good_assignLit h hxr hu hdl hr1 hr2 hrest) ?_ hrs ?_
      · simpa [assignLit, Trail.decisionLevel, Trail.propagate] using hdl
      · intro c hc'
        obtain ⟨y, rest', rfl, hy⟩ := hc c (by simp [hc'])
        refine ⟨y, rest', rfl, hy.imp ?_ ?_⟩
        · rintro ⟨k, hk, e⟩; exact ⟨k, hk, hg.old _ _ e⟩
        · intro hy m hm
          obtain ⟨g1, k, hk, e⟩ := hy m hm
          exact ⟨hg.keep _ _ g1, k, hk, hg.old _ _ e⟩

theorem good_uip {s : BS} (h : Good M A true s) {ls : List Clause} {L : Nat}
    (hl : ∀ c ∈ ls, ClauseOk s c ∧ Ent M A c) (hL : L ≤ s.t.decisionLevel)
    (hh : ∀ c ∈ ls, HeadOk s.t L c) : Good M A true ((s.learnAll ls).backtrackUip ls L) := by
  obtain ⟨h1, h2, h3, -⟩ := good_learnAll h hl
  have hL' : L ≤ (s.learnAll ls).t.decisionLevel := by rw [h2]; exact hL
  have h4 := good_backtrackTo h1 hL'
  have hbt : ((s.learnAll ls).backtrackTo L).t = s.t.backtrack L := by
    show (s.learnAll ls).t.backtrack L = _
    rw [h2]
  have hbc : ((s.learnAll ls).backtrackTo L).cls = s.cls ++ ls := h3
  unfold backtrackUip
  refine good_propHeads L ls _ _ h4 ?_ ?_ ?_
  · rw [hbt, Trail.decisionLevel_backtrack h.base.inv L hL]
  · intro i c hi
    have hlt : i < ls.length := by
      rcases Nat.lt_or_ge i ls.length with h | h
      · exact h
      · rw [List.getElem?_eq_none h] at hi; cases hi
    have e : (s.learnAll ls).cls.length - ls.length + i = s.cls.length + i := by
      rw [h3, List.length_append]; omega
    rw [e, hbc]
    refine ⟨by rw [List.length_append]; omega, ?_⟩
    simp [clause, List.getD_eq_getElem?_getD, hbc, List.getElem?_append_right, hi]
  · intro c hc
    obtain ⟨x, rest, rfl, hx⟩ := hh c hc
    obtain ⟨b1, b2, b3, b4, b5⟩ := Trail.backtrack_spec h.base.inv L hL
    have hlev : ∀ (v : Var) k, k ≤ L → s.t.level v = some k → (s.t.backtrack L).level v = some k := by
      intro v k hk hv
      rw [(b3 v (by intro l hl; rw [hv] at hl; cases hl; exact hk)).1]; exact hv
    refine ⟨x, rest, rfl, ?_⟩
    rw [hbt]
    refine hx.imp ?_ ?_
    · rintro ⟨k, hk, e⟩; exact ⟨k, hk, hlev _ _ hk e⟩
    · intro hx m hm
      obtain ⟨g1, k, hk, e⟩ := hx m hm
      exact ⟨by rw [evalLit_backtrack_low h.base.inv hL e hk]; exact g1, k, hk, hlev _ _ hk e⟩

theorem good_decideOther {s : BS} (h : Good M A true s) {v : Var} {x : Val}
    (hp : s.t.Pre (.decide v x)) : Good M A true (s.decideOther v x) := by
  have hg := grow_decide h.base.inv hp
  have hpos := h.base.inv.length_pos
  refine good_grow h (.mk' hg.inv (ws_congr (h.base.ws (Or.inl rfl)) rfl rfl
    (numBools_setValue _ _ _))) rfl hg ?_ ?_ ?_
  · intro w r hw
    simp only [decideOther, Trail.reason_setValue, Trail.decide, Function.update_apply] at hw
    split at hw
    · cases hw
    · exact hw
  · intro l hl h0 h1
    exfalso
    simp only [decideOther, Trail.level_setValue, Trail.decide, Function.update_apply] at h0
    split at h0
    · simp only [Option.some.injEq] at h0; omega
    · rw [h1] at h0; cases h0
  · intro w k hw
    have hne : w ≠ v := by rintro rfl; rw [hp.2.1] at hw; cases hw
    simp [decideOther, Trail.decide, Function.update_of_ne hne]

theorem decide_eq_decideOther (s : BS) (n : Nat) : ∃ b, s.decide (.bool n) = s.decideOther (.bool n) (.b b) := by
  refine ⟨match s.mode with
      | .positive => true
      | .negative => false
      | .cache => s.phase n, ?_⟩
  unfold BS.decide decideOther
  rw [if_pos rfl]
  rfl

/-! ### The loop -/

/-- The clauses `A` have no model in the theory. -/
def UnsatIn (M : Assignment → Prop) (A : List Clause) : Prop := ¬ ∃ σ, M σ ∧ allTrue σ A

theorem good_iter {E : Env O} (hE : Sound E M) {b : Bool} {c : CS O} {out : Out O}
    (h : Good M A b c.s) (hP : PicksFree E c) (hi : Iter E c out) :
    (out = .unsat → UnsatIn M A) ∧ (∀ s, out = .sat s → Good M A true s) ∧
    ∀ c', out = .run c' → ∃ b', Good M A b' c'.s := by
  cases hi with
  | @unsatZero cs s hp hne h0 =>
    refine ⟨fun _ => ?_, by simp, by simp⟩
    obtain ⟨h1, h2⟩ := good_propRun hE h hp
    obtain ⟨c', hc'⟩ := List.exists_mem_of_ne_nil _ hne
    obtain ⟨h3, h4⟩ := h2 c' hc'
    rintro ⟨σ, hm, hA⟩
    obtain ⟨l, hl, ht⟩ := h4 σ hm hA
    have hf := h3 l hl
    obtain ⟨k, hk⟩ := false_level h1.base.inv hf
    have hb := h1.base.inv.bound _ _ hk
    have : k = 0 := by omega
    subst this
    have := level_zero h1 l.neg (evalLit_neg_true.2 hf) (by simpa using hk) σ hm hA
    rw [litTrue_neg] at this
    exact this ht
  | unsatEmpty hp hne h0 ha hem =>
    refine ⟨fun _ => ?_, by simp, by simp⟩
    obtain ⟨h1, h2⟩ := good_propRun hE h hp
    obtain ⟨d, hd, l, -, e⟩ := analyzeConflicts_mem ha _ hem
    have := analyzeOne_ent h1 (h2 d hd).2 e
    rintro ⟨σ, hm, hA⟩
    obtain ⟨l, hl, -⟩ := this σ hm hA
    simp at hl
  | restart hp hne h0 hl he =>
    refine ⟨by simp, by simp, ?_⟩
    rintro c' h'
    cases h'
    obtain ⟨h1, h2⟩ := good_propRun hE h hp
    exact ⟨false, good_restart (good_learnAll h1 (learned_spec h1 h2 hl).1).1 _⟩
  | uip hp hne h0 hl he hL hsp =>
    refine ⟨by simp, by simp, ?_⟩
    rintro c' h'
    cases h'
    obtain ⟨h1, h2⟩ := good_propRun hE h hp
    obtain ⟨h3, h4, -⟩ := learned_spec h1 h2 hl
    exact ⟨true, good_uip h1 h3 hL (h4 _ rfl hsp)⟩
  | @split cs s ls L o c0 x hp hne h0 hl he hL hhd hsp hx hpre =>
    refine ⟨by simp, by simp, ?_⟩
    rintro c' h'
    cases h'
    obtain ⟨h1, h2⟩ := good_propRun hE h hp
    obtain ⟨h3, -⟩ := learned_spec h1 h2 hl
    obtain ⟨h5, h6, -⟩ := good_learnAll h1 h3
    refine ⟨true, good_decideOther (good_backtrackTo h5 (by rw [h6]; exact hL)) ?_⟩
    show ((s.learnAll ls).t.backtrack L).Pre _
    rw [h6]; exact hpre
  | sat hp _ =>
    refine ⟨by simp, ?_, by simp⟩
    intro s' e
    cases e
    exact (good_propRun hE h hp).1
  | @decideBool s o n hp hpk =>
    refine ⟨by simp, by simp, ?_⟩
    rintro c' h'
    cases h'
    obtain ⟨h1, -⟩ := good_propRun hE h hp
    obtain ⟨b, e⟩ := decide_eq_decideOther s n
    refine ⟨true, ?_⟩
    simp only
    rw [e]
    obtain ⟨g1, g2⟩ := hP _ _ _ hp hpk
    exact good_decideOther h1 ⟨g1, g2, rfl⟩
  | @decideRat s o n x hp hpk hch hx =>
    refine ⟨by simp, by simp, ?_⟩
    rintro c' h'
    cases h'
    obtain ⟨h1, -⟩ := good_propRun hE h hp
    obtain ⟨g1, g2⟩ := hP _ _ _ hp hpk
    exact ⟨true, good_decideOther h1 ⟨g1, g2, hx⟩⟩

theorem good_start {c : CS O} (h : Start A c) : Good M A false c.s := by
  have hlev : ∀ v, c.s.t.level v = none := by intro v; rw [h.empty]; rfl
  have hre : ∀ v, c.s.t.reason v = none := by intro v; rw [h.empty]; rfl
  refine ⟨⟨inv_of_clear h.empty, h.db, ?_, fun _ => isEmpty_of_clear h.empty⟩, ?_,
    reasonsOk_of_noReason hre, ?_, ?_⟩
  · rw [isEmpty_of_clear h.empty]; simp
  · intro c' hc' σ _ hA
    rw [h.cls] at hc'; exact hA c' hc'
  · intro v r hv; rw [hre] at hv; cases hv
  · intro l _ h0; rw [hlev] at h0; cases h0

theorem good_reach {E : Env O} (hE : Sound E M) {c0 c : CS O} (h : Start A c0)
    (hP : ∀ c, Reach E c0 c → PicksFree E c) (hr : Reach E c0 c) : ∃ b, Good M A b c.s := by
  induction hr with
  | refl => exact ⟨false, good_start h⟩
  | step hr hi ih =>
    obtain ⟨b, hb⟩ := ih
    exact (good_iter hE hb (hP _ hr) hi).2.2 _ rfl

end Check
end Yaga
