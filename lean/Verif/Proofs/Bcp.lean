/-
The loop of `Bool_theory::propagate`.
-/
import Verif.Proofs.Watch

set_option linter.unusedSectionVars false
set_option linter.unusedVariables false

namespace Yaga
namespace BS
open Spec

/-- How one popped literal may change the trail. -/
structure TStep (l : Lit) (t t1 : Trail Nat) : Prop where
  inv : t1.Inv
  dl : t1.decisionLevel = t.decisionLevel
  num : t1.numVars = t.numVars
  lists : ∀ i, t.assigned i <+: t1.assigned i
  old : ∀ v k, t.level v = some k → t1.level v = some k ∧ t1.reason v = t.reason v ∧
    t1.valueOf v = t.valueOf v
  keep : ∀ m b, evalLit t.bools m = some b → evalLit t1.bools m = some b
  open_ : ∀ m, evalLit t.bools m = none → evalLit t1.bools m = none ∨ m = l ∨ m = l.neg
  true_ : evalLit t1.bools l = some true
  recent : InRecent t1 l.var

theorem TStep.inRecent {l : Lit} {t t1 : Trail Nat} (h : TStep l t t1) {v : Var}
    (hv : InRecent t v) : InRecent t1 v := by
  obtain ⟨a, ha, e⟩ := hv
  exact ⟨a, by rw [h.dl]; exact (h.lists _).subset ha, e⟩

theorem TStep.otherTrue {l : Lit} {t t1 : Trail Nat} (h : TStep l t t1) {w o : Lit}
    (hv : OtherTrue t w o) : OtherTrue t1 w o := by
  obtain ⟨h1, lo, lw, h2, h3, h4⟩ := hv
  refine ⟨h.keep _ _ h1, lo, lw, (h.old _ _ h2).1, (h.old _ _ h3).1, ?_⟩
  intro b hb1 hb2
  obtain ⟨a, ha, e⟩ := h4 b hb1 hb2
  exact ⟨a, (h.lists b).subset ha, e⟩

theorem TStep.fine {l : Lit} {t t1 : Trail Nat} (h : TStep l t t1) {c : Clause} {w : Lit}
    (hv : Fine t c w) : Fine t1 c w := by
  obtain ⟨o, h1, h2⟩ := hv; exact ⟨o, h1, h.otherTrue h2⟩

theorem evalLit_isSome {t : Trail Nat} (hi : t.Inv) (l : Lit) :
    (∃ b, evalLit t.bools l = some b) ↔ ∃ k, t.level l.var = some k := by
  rw [← hi.defined l.var]
  simp only [evalLit, Trail.isDefined, Lit.var]
  split <;> simp_all

theorem evalLit_none {t : Trail Nat} (hi : t.Inv) (l : Lit) :
    evalLit t.bools l = none ↔ t.level l.var = none := by
  have := evalLit_isSome hi l
  rcases h1 : evalLit t.bools l with _ | b <;> rcases h2 : t.level l.var with _ | k <;> simp_all

theorem tstep_propagate {t : Trail Nat} (hi : t.Inv) {l : Lit} {r : Nat}
    (hr : l.ord < t.bools.num) (hu : evalLit t.bools l = none) :
    TStep l t ((t.propagate l.var (some r) t.decisionLevel).setValue l.var (.b (!l.isNeg))) := by
  have hlev : t.level l.var = none := (evalLit_none hi l).1 hu
  have hty : l.var.type = .boolean := rfl
  have hinv := Trail.propagate_inv hi l.var (some r) t.decisionLevel (.b (!l.isNeg))
    (by rw [hty]; exact hr) hlev rfl (le_refl _)
  generalize ht1 : (t.propagate l.var (some r) t.decisionLevel).setValue l.var (.b (!l.isNeg)) = t1 at *
  have hdl : t1.decisionLevel = t.decisionLevel := by
    rw [← ht1]; simp [Trail.decisionLevel, Trail.propagate]
  have hev : ∀ m : Lit, m.var ≠ l.var → evalLit t1.bools m = evalLit t.bools m := by
    intro m hm
    rw [← ht1, evalLit_setValue_ne _ _ _ _ hm]
    rfl
  have htrue : evalLit t1.bools l = some true := by
    rw [← ht1]
    simp [Trail.setValue, evalLit, PModel.setValue, Lit.var]
  refine ⟨hinv, hdl, by rw [← ht1]; simp; rfl, ?_, ?_, ?_, ?_, htrue, ?_⟩
  · intro i; rw [← ht1]; exact assigned_propagate t l.var (some r) _ _ i
  · intro v k hv
    have hne : v ≠ l.var := by rintro rfl; rw [hlev] at hv; cases hv
    refine ⟨?_, ?_, ?_⟩
    · rw [← ht1]; simp [Trail.propagate, Function.update_of_ne hne, hv]
    · rw [← ht1]; simp [Trail.propagate, Function.update_of_ne hne]
    · rw [← ht1, Trail.valueOf_setValue _ _ _ _ rfl, if_neg hne]; rfl
  · intro m b hm
    rw [hev m ?_]
    · exact hm
    · intro e
      have : evalLit t.bools m = none := (evalLit_none hi m).2 (by rw [e]; exact hlev)
      rw [this] at hm; cases hm
  · intro m hm
    by_cases e : m.var = l.var
    · right
      have : m.ord = l.ord := by simpa [Lit.var] using e
      exact Lit.eq_or_eq_neg_of_ord this
    · left; rw [hev m e]; exact hm
  · have hlv : t1.level l.var = some t.decisionLevel := by
      rw [← ht1]; simp [Trail.propagate]
    obtain ⟨xs, h1, h2⟩ := hinv.own _ _ hlv
    rw [← hdl] at h1
    unfold InRecent
    simp only [Trail.assigned, List.getD_eq_getElem?_getD, h1, Option.getD_some]
    exact h2

theorem tstep_refl {t : Trail Nat} (hi : t.Inv) {l : Lit} (h : evalLit t.bools l = some true)
    (hr : InRecent t l.var) : TStep l t t :=
  ⟨hi, rfl, rfl, fun _ => List.prefix_refl _, fun _ _ h => ⟨h, rfl, rfl⟩, fun _ _ h => h,
   fun _ h => Or.inl h, h, hr⟩

/-- Invariant at the head of the loop of `propagate`; `Q` are the literals whose falsified watches
were visited. -/
structure LI (s : BS) (Q : Lit → Prop) : Prop where
  inv : s.t.Inv
  ws : WS s
  ent : ∀ e ∈ s.sat, EntryOk s e
  qt : ∀ l, Q l → evalLit s.t.bools l = some true
  w : ∀ r < s.cls.length, ∀ w ∈ (s.clause r).take 2, Q w.neg → Fine s.t (s.clause r) w ∨ Esc s r w

/-- A chain of propagations of literals at the current level. -/
inductive Assigns : Trail Nat → Trail Nat → Prop where
  | refl (t : Trail Nat) : Assigns t t
  | step {t t1 : Trail Nat} {l : Lit} {r : Nat} (h : Assigns t t1) (hn : l.ord < t1.bools.num)
      (hu : t1.level l.var = none) :
      Assigns t ((t1.propagate l.var (some r) t1.decisionLevel).setValue l.var (.b (!l.isNeg)))

/-- What changed since the state `s0`. -/
structure Ext (s0 s : BS) : Prop where
  cls : ClsRel s0.t.bools s0 s
  na : s.na = s0.na
  phase : s.phase = s0.phase
  mode : s.mode = s0.mode
  nextIndex : s.nextIndex = s0.nextIndex
  curLevel : s.curLevel = s0.curLevel
  dl : s.t.decisionLevel = s0.t.decisionLevel
  num : s.t.numVars = s0.t.numVars
  lists : ∀ i, s0.t.assigned i <+: s.t.assigned i
  keep : ∀ m b, evalLit s0.t.bools m = some b → evalLit s.t.bools m = some b
  old : ∀ v k, s0.t.level v = some k → s.t.level v = some k ∧ s.t.reason v = s0.t.reason v ∧
    s.t.valueOf v = s0.t.valueOf v
  new : ∀ v k, s0.t.level v = none → s.t.level v = some k →
    v.type = .boolean ∧ k = s0.t.decisionLevel ∧ ∃ r rest, r < s.cls.length ∧
      s.t.reason v = some r ∧ s.clause r = trueLit s.t v :: rest ∧
      (∀ m ∈ rest, evalLit s.t.bools m = some false ∧ Before s.t m.var v) ∧
      (s.t.decisionLevel = 0 ∨ ∃ m ∈ rest.head?, InRecent s.t m.var)
  added : ∀ i, ∀ a ∈ s.t.assigned i, a ∈ s0.t.assigned i ∨
    (s0.t.level a.var = none ∧ i = s0.t.decisionLevel)
  steps : Assigns s0.t s.t

theorem Ext.refl (s : BS) : Ext s s :=
  ⟨.refl _ _, rfl, rfl, rfl, rfl, rfl, rfl, rfl, fun _ => List.prefix_refl _, fun _ _ h => h,
   fun _ _ h => ⟨h, rfl, rfl⟩, fun v k h1 h2 => (by rw [h1] at h2; cases h2),
   fun _ _ h => Or.inl h, .refl _⟩

theorem trueLit_eval {t : Trail Nat} (hi : t.Inv) {v : Var} {k : Nat} (hv : v.type = .boolean)
    (hl : t.level v = some k) : evalLit t.bools (trueLit t v) = some true := by
  have hd := (hi.defined v).2 ⟨k, hl⟩
  simp only [Trail.isDefined, hv] at hd
  simp [evalLit, trueLit, hd]

/-- A step that only reorders clauses and moves watches. -/
theorem Ext.same {s0 s s1 : BS} (h : Ext s0 s) (hi : s.t.Inv) (hs : Same s s1)
    (hc : ClsRel s.t.bools s s1) : Ext s0 s1 := by
  have hc0 : ClsRel s0.t.bools s s1 := ⟨hc.len, hc.perm, fun r l rest e ht =>
    hc.head r l rest e (h.keep _ _ ht), fun r l hl =>
    (hc.two r l hl).imp id (fun hf hf0 => hf (h.keep _ _ hf0))⟩
  refine ⟨h.cls.trans hc0, hs.na.trans h.na, hs.phase.trans h.phase, hs.mode.trans h.mode,
    hs.nextIndex.trans h.nextIndex, hs.curLevel.trans h.curLevel, by rw [hs.t]; exact h.dl,
    by rw [hs.t]; exact h.num, by rw [hs.t]; exact h.lists, by rw [hs.t]; exact h.keep,
    by rw [hs.t]; exact h.old, ?_, by rw [hs.t]; exact h.added,
    by rw [hs.t]; exact h.steps⟩
  intro v k h0 h1
  rw [hs.t] at h1
  obtain ⟨a, b, r, rest, e1, e2, e3, e4, e5⟩ := h.new v k h0 h1
  rw [hs.t]
  refine ⟨a, b, r, rest, by rw [hc.len]; exact e1, e2, ?_, e4, e5⟩
  rw [hc.head r _ rest e3 (trueLit_eval hi a h1)]
  exact e3

/-- The state after popping a literal satisfies the loop invariant of `falsified`. -/
theorem li_pop {s s1 : BS} {Q : Lit → Prop} {l : Lit} {ro : Option Nat} {rest : List (Lit × Option Nat)}
    (h : LI s Q) (hsat : s.sat = (l, ro) :: rest) (ht : TStep l s.t s1.t)
    (hcls : s1.cls = s.cls) (hwat : s1.watched = s.watched) (hsat1 : s1.sat = rest) :
    FC l.neg Q 0 s1 ∧ FE l.neg 0 s1 := by
  have hcl : s1.clause = s.clause := by funext r; simp [clause, hcls]
  have hnum : s1.t.bools.num = s.t.bools.num := congrFun ht.num .boolean
  have hws : WS s1 := by
    refine ⟨?_, ?_, ?_, ?_, ?_⟩
    · rw [hcls, hcl]; exact h.ws.ne
    · rw [hcls, hcl, hnum]; exact h.ws.range
    · rw [hcls, hcl, hwat]; exact h.ws.count
    · rw [hcls, hwat]; exact h.ws.ref
    · rw [hcl, hwat]; exact h.ws.idx
  refine ⟨⟨hws, ?_, by simp⟩, ?_⟩
  · intro r hr w hw hne hq
    rw [hcls] at hr
    rw [hcl] at hw ⊢
    rcases h.w r hr w hw hq with h1 | ⟨h1, o, h2, h3⟩
    · exact Or.inl (ht.fine h1)
    · rw [hsat] at h3
      rcases List.mem_cons.1 h3 with h3 | h3
      · cases h3
        left
        exact ⟨l, h2, otherTrue_of_recent ht.inv (ht.inRecent h1) ht.true_⟩
      · right
        exact ⟨ht.inRecent h1, o, by rw [hcl]; exact h2, by rw [hsat1]; exact h3⟩
  · intro e he
    rw [hsat1] at he
    obtain ⟨h0, h1⟩ := h.ent e (by rw [hsat]; exact List.mem_cons_of_mem _ he)
    have h0' : e.1.ord < s1.t.bools.num := by rw [hnum]; exact h0
    rcases h1 with ⟨h1, h2⟩ | ⟨h1, r, rest', e1, e2, e3, e4, e5⟩
    · exact Or.inl ⟨h0', Or.inl ⟨ht.keep _ _ h1, ht.inRecent h2⟩⟩
    · have e4' : ∀ m ∈ rest', evalLit s1.t.bools m = some false := fun m hm => ht.keep _ _ (e4 m hm)
      rcases ht.open_ e.1 h1 with h2 | h2 | h2
      · left
        refine ⟨h0', Or.inr ⟨h2, r, rest', e1, by rw [hcls]; exact e2, by rw [hcl]; exact e3, e4', ?_⟩⟩
        rw [ht.dl]
        refine e5.imp id ?_
        rintro ⟨m, hm, hm'⟩
        exact ⟨m, hm, ht.inRecent hm'⟩
      · left
        rw [← h2] at ht
        exact ⟨h0', Or.inl ⟨ht.true_, ht.recent⟩⟩
      · right
        refine ⟨r, rest', ?_, by rw [hcls]; exact e2, by rw [hcl, ← h2]; exact e3, e4', ?_⟩
        · rw [← h2, ← e1]
        · simp only [List.drop_zero]
          exact hws.mem_watched (by rw [hcls]; exact e2) (by rw [hcl, e3, ← h2]; simp)

/-- The trail after popping a literal. -/
theorem ext_pop {s0 s : BS} {Q : Lit → Prop} {l : Lit} {ro : Option Nat}
    {rest : List (Lit × Option Nat)} (h : LI s Q) (hx : Ext s0 s) (hsat : s.sat = (l, ro) :: rest) :
    TStep l s.t (assignPopped { s with sat := rest } l ro).t ∧
    Ext s0 (assignPopped { s with sat := rest } l ro) ∧
    (assignPopped { s with sat := rest } l ro).cls = s.cls ∧
    (assignPopped { s with sat := rest } l ro).watched = s.watched ∧
    (assignPopped { s with sat := rest } l ro).sat = rest := by
  obtain ⟨h0, h1⟩ := h.ent (l, ro) (by rw [hsat]; simp)
  simp only at h0 h1
  rcases h1 with ⟨h1, h2⟩ | ⟨h1, r, rest', e1, e2, e3, e4, e5⟩
  · have hd : s.t.bools.defined l.ord = true := by
      unfold evalLit at h1
      split at h1
      · assumption
      · cases h1
    have heq : assignPopped { s with sat := rest } l ro = { s with sat := rest } := by
      cases ro with
      | none => rfl
      | some r => simp [assignPopped, hd]
    rw [heq]
    refine ⟨tstep_refl h.inv h1 h2, ?_, rfl, rfl, rfl⟩
    exact ⟨⟨hx.cls.len, hx.cls.perm, hx.cls.head, hx.cls.two⟩, hx.na, hx.phase, hx.mode, hx.nextIndex,
      hx.curLevel, hx.dl, hx.num, hx.lists, hx.keep, hx.old, hx.new, hx.added,
      hx.steps⟩
  · have hd : s.t.bools.defined l.ord = false := by
      unfold evalLit at h1
      split at h1
      · cases h1
      · rename_i hnd; simpa using hnd
    subst e1
    have heq : assignPopped { s with sat := rest } l (some r) = { s with
        sat := rest
        t := (s.t.propagate l.var (some r) s.t.decisionLevel).setValue l.var (.b (!l.isNeg)) } := by
      simp [assignPopped, hd]
    rw [heq]
    have hts := tstep_propagate h.inv (r := r) h0 h1
    refine ⟨hts, ?_, rfl, rfl, rfl⟩
    have hlev : s.t.level l.var = none := (evalLit_none h.inv l).1 h1
    have hreason : ((s.t.propagate l.var (some r) s.t.decisionLevel).setValue l.var
      (.b (!l.isNeg))).reason l.var = some r := by simp [Trail.propagate]
    have hlevels : ((s.t.propagate l.var (some r) s.t.decisionLevel).setValue l.var
      (.b (!l.isNeg))).level = Function.update s.t.level l.var (some s.t.decisionLevel) := by
      simp [Trail.propagate]
    have hlists : ((s.t.propagate l.var (some r) s.t.decisionLevel).setValue l.var
      (.b (!l.isNeg))).assigned s.t.decisionLevel = s.t.assigned s.t.decisionLevel ++ [⟨l.var, some r⟩] := by
      have hdl : s.t.decisionLevel < s.t.levels.length := by
        have := h.inv.length_pos; simp only [Trail.decisionLevel]; omega
      simp only [Trail.assigned, Trail.levels_setValue, Trail.propagate,
        List.getD_eq_getElem?_getD, Trail.getElem?_pushFrom]
      simp [List.getElem?_eq_getElem hdl]
    have hadd : ∀ i, ∀ a ∈ ((s.t.propagate l.var (some r) s.t.decisionLevel).setValue l.var
        (.b (!l.isNeg))).assigned i, a ∈ s.t.assigned i ∨
        (a = ⟨l.var, some r⟩ ∧ i = s.t.decisionLevel) := by
      intro i a ha
      simp only [Trail.assigned, Trail.levels_setValue, Trail.propagate,
        List.getD_eq_getElem?_getD, Trail.getElem?_pushFrom] at ha ⊢
      rcases hx : s.t.levels[i]? with _ | xs
      · rw [hx] at ha; simp at ha
      · rw [hx] at ha
        simp only [Option.map_some, Option.getD_some] at ha ⊢
        split at ha
        · rename_i hle
          rcases List.mem_append.1 ha with ha | ha
          · exact Or.inl ha
          · right
            refine ⟨List.mem_singleton.1 ha, ?_⟩
            have : i < s.t.levels.length := by
              rcases Nat.lt_or_ge i s.t.levels.length with h | h
              · exact h
              · rw [List.getElem?_eq_none h] at hx; cases hx
            simp only [Trail.decisionLevel] at hle ⊢
            omega
        · exact Or.inl ha
    have hstep := Assigns.step (r := r) hx.steps h0 hlev
    generalize hgen : (s.t.propagate l.var (some r) s.t.decisionLevel).setValue l.var
      (.b (!l.isNeg)) = t1 at *
    refine ⟨⟨hx.cls.len, hx.cls.perm, hx.cls.head, hx.cls.two⟩, hx.na, hx.phase, hx.mode, hx.nextIndex,
      hx.curLevel, hts.dl.trans hx.dl, hts.num.trans hx.num,
      fun i => (hx.lists i).trans (hts.lists i), fun m b hm => hts.keep _ _ (hx.keep _ _ hm), ?_, ?_, ?_,
      hstep⟩
    rotate_left 2
    · intro i a ha
      rcases hadd i a ha with h1 | ⟨h1, h2⟩
      · exact hx.added i a h1
      · right
        refine ⟨?_, by rw [h2, hx.dl]⟩
        rcases hl0 : s0.t.level a.var with _ | k
        · rfl
        · have := (hx.old _ _ hl0).1
          rw [h1, hlev] at this; cases this
    · intro v k hv
      obtain ⟨a1, a2, a3⟩ := hx.old v k hv
      obtain ⟨b1, b2, b3⟩ := hts.old v k a1
      exact ⟨b1, b2.trans a2, b3.trans a3⟩
    · intro v k hv0 hv1
      by_cases hvl : v = l.var
      · subst hvl
        have htl : trueLit t1 l.var = l := by
          have := hts.true_
          rw [evalLit_true_iff] at this
          exact this.2.symm
        refine ⟨rfl, ?_, r, rest', e2, hreason, ?_, ?_, ?_⟩
        · have := hv1
          simp only at this
          rw [hlevels] at this
          simp only [Function.update_self, Option.some.injEq] at this
          rw [← this]; exact hx.dl
        · rw [htl]; exact e3
        · intro m hm
          refine ⟨hts.keep _ _ (e4 m hm), ?_⟩
          obtain ⟨km, hkm⟩ := false_level h.inv (e4 m hm)
          have hle := h.inv.bound _ _ hkm
          have hne : m.var ≠ l.var := by intro e; rw [e, hlev] at hkm; cases hkm
          refine ⟨km, s.t.decisionLevel, (hts.old _ _ hkm).1, by simp [hlevels], ?_⟩
          rcases Nat.lt_or_eq_of_le hle with hlt | heq'
          · exact Or.inl hlt
          · right
            refine ⟨heq', s.t.assigned s.t.decisionLevel, ⟨l.var, some r⟩, [], hlists, rfl, ?_⟩
            obtain ⟨xs, hxs, hb⟩ := h.inv.own _ _ hkm
            rw [heq'] at hxs
            simp only [Trail.assigned, List.getD_eq_getElem?_getD, hxs, Option.getD_some]
            exact hb
        · show t1.decisionLevel = 0 ∨ _
          rw [hts.dl]
          refine e5.imp id ?_
          rintro ⟨m, hm, hm'⟩
          exact ⟨m, hm, hts.inRecent hm'⟩
      · have hv1' : s.t.level v = some k := by
          have := hv1
          simp only at this
          rwa [hlevels, Function.update_of_ne hvl] at this
        obtain ⟨a, b, r', rest2, f1, f2, f3, f4, f5⟩ := hx.new v k hv0 hv1'
        obtain ⟨b1, b2, b3⟩ := hts.old v k hv1'
        have htl : trueLit t1 v = trueLit s.t v := by
          rcases v with ⟨ty, o⟩
          simp only at a; subst a
          simp only [Trail.valueOf, Val.b.injEq] at b3
          simp [trueLit, b3]
        refine ⟨a, b, r', rest2, f1, b2.trans f2, by rw [htl]; exact f3, ?_, ?_⟩
        · intro m hm
          obtain ⟨g1, g2⟩ := f4 m hm
          obtain ⟨km, hkm⟩ := false_level h.inv g1
          exact ⟨hts.keep _ _ g1, before_mono g2 ((hts.old _ _ hkm).1.trans hkm.symm)
            (b1.trans hv1'.symm) (fun _ _ => hts.lists _)⟩
        · show t1.decisionLevel = 0 ∨ _
          rw [hts.dl]
          refine f5.imp id ?_
          rintro ⟨m, hm, hm'⟩
          exact ⟨m, hm, hts.inRecent hm'⟩

/-- What the loop of `propagate` achieves. -/
theorem propLoop_spec (fuel : Nat) (s0 s : BS) (Q : Lit → Prop) (c : Option Clause) (s' : BS)
    (h : LI s Q) (hx : Ext s0 s) (hrun : propLoop fuel s = some (c, s')) :
    Ext s0 s' ∧ s'.t.Inv ∧ WS s' ∧ (∀ m b, evalLit s.t.bools m = some b → evalLit s'.t.bools m = some b) ∧
    (∀ r < s'.cls.length, ∀ w ∈ (s'.clause r).take 2, Q w.neg →
      Fine s'.t (s'.clause r) w ∨ InRecent s'.t w.var) ∧
    (c = none → ∃ Q' : Lit → Prop, (∀ l, Q l → Q' l) ∧ (∀ e ∈ s.sat, Q' e.1) ∧
      (∀ l, evalLit s'.t.bools l = some true → evalLit s.t.bools l = some true ∨ Q' l) ∧
      (∀ l, Q' l → evalLit s'.t.bools l = some true) ∧
      ∀ r < s'.cls.length, ∀ w ∈ (s'.clause r).take 2, Q' w.neg → Fine s'.t (s'.clause r) w) ∧
    (∀ c', c = some c' → (∀ l ∈ c', evalLit s'.t.bools l = some false) ∧
      ∃ r < s'.cls.length, s'.clause r = c') := by
  induction fuel generalizing s Q with
  | zero => simp [propLoop] at hrun
  | succ n ih =>
    unfold propLoop at hrun
    rcases hs : s.sat with _ | ⟨⟨l, ro⟩, rest⟩
    · simp only [hs, Option.some.injEq, Prod.mk.injEq] at hrun
      obtain ⟨rfl, rfl⟩ := hrun
      refine ⟨hx, h.inv, h.ws, fun _ _ h => h, ?_, ?_, by simp⟩
      · intro r hr w hw hq
        rcases h.w r hr w hw hq with h1 | ⟨h1, -⟩
        · exact Or.inl h1
        · exact Or.inr h1
      · intro _
        refine ⟨Q, fun _ h => h, by simp, fun l hl => Or.inl hl, h.qt, ?_⟩
        intro r hr w hw hq
        rcases h.w r hr w hw hq with h1 | ⟨-, o, -, h2⟩
        · exact h1
        · rw [hs] at h2; cases h2
    · simp only [hs] at hrun
      obtain ⟨hts, hx1, hcls, hwat, hsat1⟩ := ext_pop h hx hs
      generalize hs1 : assignPopped { s with sat := rest } l ro = s1 at *
      obtain ⟨hfc, hfe⟩ := li_pop h hs hts hcls hwat hsat1
      have hf : evalLit s1.t.bools l.neg = some false := by rw [evalLit_neg, hts.true_]; rfl
      have hQ : ∀ m, Q m → evalLit s1.t.bools m = some true := fun m hm => hts.keep _ _ (h.qt m hm)
      obtain ⟨c1, s2, e1, e2, e3, e4, e5, e6, ⟨added, e7⟩, e8⟩ :=
        falsifiedLoop_spec (s1.watched l.neg).length 0 s1 (by omega) hts.inv hf
          (by simpa using hts.recent) hQ hfc hfe
      have hfal : s1.falsified l.neg = (c1, s2) := e1
      rw [hfal] at hrun
      have hx2 := hx1.same hts.inv e2 e3
      have hinv2 : s2.t.Inv := by rw [e2.t]; exact hts.inv
      have hkeep2 : ∀ m b, evalLit s.t.bools m = some b → evalLit s2.t.bools m = some b := by
        rw [e2.t]; exact hts.keep
      cases c1 with
      | some c' =>
        simp only [Option.some.injEq, Prod.mk.injEq] at hrun
        obtain ⟨rfl, rfl⟩ := hrun
        refine ⟨hx2, hinv2, e4, hkeep2, ?_, by simp, ?_⟩
        · intro r hr w hw hq
          by_cases hwf : w = l.neg
          · right; rw [hwf, e2.t]; simpa using hts.recent
          · rcases e5 r hr w hw (Or.inl hwf) (Or.inl hq) with h1 | ⟨h1, -⟩
            · exact Or.inl h1
            · exact Or.inr h1
        · intro c'' hc''
          cases hc''
          rw [e2.t]
          exact e8 _ rfl
      | none =>
        simp only at hrun
        have hli : LI s2 (fun m => Q m ∨ m = l) := by
          refine ⟨hinv2, e4, e6 rfl, ?_, ?_⟩
          · rintro m (hm | rfl)
            · rw [e2.t]; exact hQ m hm
            · rw [e2.t]; exact hts.true_
          · intro r hr w hw hq
            refine e5 r hr w hw (Or.inr rfl) ?_
            refine hq.imp id ?_
            intro hq; rw [← hq]; simp
        obtain ⟨g1, g2, g3, g4, g5, g6, g7⟩ := ih s2 _ hli hx2 hrun
        refine ⟨g1, g2, g3, fun m b hm => g4 m b (hkeep2 m b hm), ?_, ?_, g7⟩
        · intro r hr w hw hq
          exact g5 r hr w hw (Or.inl hq)
        · intro hc
          obtain ⟨Q', q1, q2, q3, q4, q5⟩ := g6 hc
          refine ⟨Q', fun m hm => q1 m (Or.inl hm), ?_, ?_, q4, q5⟩
          · intro e he
            rcases List.mem_cons.1 he with rfl | he
            · exact q1 _ (Or.inr rfl)
            · exact q2 e (by rw [e7, hsat1]; exact List.mem_append_right _ he)
          · intro m hm
            rcases q3 m hm with h1 | h1
            · rw [e2.t] at h1
              rcases hm0 : evalLit s.t.bools m with _ | b
              · rcases hts.open_ m hm0 with h2 | rfl | rfl
                · rw [h2] at h1; cases h1
                · exact Or.inr (q1 _ (Or.inr rfl))
                · rw [hf] at h1; cases h1
              · left
                have := hts.keep _ _ hm0
                rw [h1] at this; exact this.symm
            · exact Or.inr h1

end BS
end Yaga
