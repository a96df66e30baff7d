/-
The check loop for QF_LRA: invariant for the answer `sat`.
-/
import Verif.Proofs.QfIter
import Verif.Proofs.CheckProp
import Verif.Proofs.LraTimely

set_option linter.unusedSectionVars false
set_option linter.unusedVariables false

namespace Yaga
open LinStore (Kept)
namespace Qf
open Spec BS Check

variable {hv : Nat → Nat} {hc : ℚ → Nat} {op : LaOpts} {S : LinStore} {A : List Clause}
  {b : Bool} {O : Type} {W : QOrder O} {Q : (Nat → ℚ) → Prop} {Th : Assignment → Prop}

/-- A false watched literal is not listed above its level. -/
def NoLateW (s : BS) : Prop :=
  ∀ r < s.cls.length, ∀ w ∈ (s.clause r).take 2, evalLit s.t.bools w = some false →
    ∀ k, s.t.level w.var = some k → ∀ j, k < j → ∀ a ∈ s.t.assigned j, a.var ≠ w.var

/-- Invariant of the Boolean plugin. -/
structure BoolOk (A : List Clause) (st : BS.Stage) (s : BS) : Prop where
  stage : StageInv st s
  late : NoLateW s
  tight : Tight s.clause s.t
  zero : ZeroReason s.t
  asr : Asr A s

theorem listed_le {t : Trail Nat} (hi : t.Inv) {j : Nat} {a : Asg Nat} (h : a ∈ t.assigned j) : j ≤ t.decisionLevel := by
  rcases Nat.lt_or_ge j t.levels.length with hl | hl
  · have := hi.length_pos
    simp only [Trail.decisionLevel]; omega
  · simp [Trail.assigned, List.getD_eq_getElem?_getD, List.getElem?_eq_none hl] at h

theorem level_of_listed {t : Trail Nat} (hi : t.Inv) {j : Nat} {a : Asg Nat} (h : a ∈ t.assigned j) :
    ∃ k ≤ j, t.level a.var = some k := by
  have hl : j < t.levels.length := by
    have := listed_le hi h
    have := hi.length_pos
    simp only [Trail.decisionLevel] at *; omega
  obtain ⟨k, h1, h2, -⟩ := hi.listed j _ a (getElem?_assigned hl) h
  exact ⟨k, h2, h1⟩

/-- New literals are watched when they are not false, and variables are assigned at the current level. -/
theorem noLateW_of {s s' : BS} (h : NoLateW s) (hi' : s'.t.Inv)
    (hw : ∀ r < s'.cls.length, ∀ w ∈ (s'.clause r).take 2, evalLit s'.t.bools w = some false →
      ∀ k, s'.t.level w.var = some k → k < s'.t.decisionLevel →
        r < s.cls.length ∧ w ∈ (s.clause r).take 2 ∧ evalLit s.t.bools w = some false ∧ s.t.level w.var = some k ∧
        ∀ j, k < j → ∀ a ∈ s'.t.assigned j, a.var = w.var → ∃ a' ∈ s.t.assigned j, a'.var = w.var) : NoLateW s' := by
  intro r hr w hwm hf k hk j hj a ha e
  have hle := listed_le hi' ha
  obtain ⟨g1, g2, g3, g4, g5⟩ := hw r hr w hwm hf k hk (by omega)
  obtain ⟨a', ha', e'⟩ := g5 j hj a ha e
  exact h r g1 w g2 g3 k g4 j hj a' ha' e'

theorem false_of_grow {t t' : Trail Nat} (hi : t.Inv) (hg : Grow t t') {w : Lit} {k : Nat}
    (hf : evalLit t'.bools w = some false) (hk : t.level w.var = some k) : evalLit t.bools w = some false := by
  obtain ⟨v, hv⟩ := (evalLit_isSome hi w).2 ⟨k, hk⟩
  rw [hg.keep _ _ hv] at hf
  rw [hv]; exact hf

/-- A call of `propagate` of the Boolean plugin. -/
theorem bool_propagates {s s' : BS} {c : Option Clause} (h : Check.Good Th A b s)
    (hB : BoolOk A .ready s ∨ BoolOk A .fresh s) (hp : Propagates s c s') :
    BoolOk A (if c = none then .complete else .conflict) s' := by
  obtain ⟨s0, a1, a2, a3, -, -, -, -, hx, b1, b2, -, -, b5⟩ := propagates_spec (Q := fun _ => False)
    h.base.inv h.base.db (fun h' => h.base.ws (Or.inr h')) (by simp) (by simp) hp
  have hcl : s0.clause = s.clause := by funext r; simp [clause, a1]
  have hi := h.base.inv
  have hstage : StageInv (if c = none then .complete else .conflict) s' := by
    rcases hB with hB | hB
    · exact prop_stage hi h.base.db (fun _ => ⟨hB.stage.2.1, hB.stage.2.2.1, hB.stage.2.2.2.1⟩) hp
    · exact prop_stage hi h.base.db (fun h' => by rw [hB.stage.2.1] at h'; cases h') hp
  have hlate0 : NoLateW s := hB.elim BoolOk.late BoolOk.late
  have htight0 : Tight s.clause s.t := hB.elim BoolOk.tight BoolOk.tight
  have hzero0 : ZeroReason s.t := hB.elim BoolOk.zero BoolOk.zero
  have hasr0 : Asr A s := hB.elim BoolOk.asr BoolOk.asr
  have hg : Grow s.t s'.t := by
    refine ⟨b1, ?_, ?_, ?_⟩
    · rw [← a2]; exact hx.lists
    · rw [← a2]; exact fun v k hv => (hx.old v k hv).1
    · rw [← a2]; exact hx.keep
  have hlate : NoLateW s' := by
    refine noLateW_of hlate0 b1 ?_
    intro r hr w hw hf k hk hlt
    have hk0 : s.t.level w.var = some k := by
      rcases h0 : s.t.level w.var with _ | k0
      · obtain ⟨-, e, -⟩ := hx.new _ _ (by rw [a2]; exact h0) hk
        rw [← hx.dl] at e; omega
      · rw [hg.old _ _ h0] at hk; exact hk
    have hf0 := false_of_grow hi hg hf hk0
    refine ⟨by rw [hx.cls.len, a1] at hr; exact hr, ?_, hf0, hk0, ?_⟩
    · rcases hx.cls.two r w hw with h1 | h1
      · rw [hcl] at h1; exact h1
      · rw [a2] at h1; exact absurd hf0 h1
    · intro j hj a ha e
      rcases hx.added j a ha with h1 | ⟨h1, -⟩
      · rw [a2] at h1; exact ⟨a, h1, e⟩
      · rw [a2, e, hk0] at h1; cases h1
  refine ⟨hstage, hlate, ?_, ?_, asr_perm hasr0 (hx.na.trans a3) (by rw [hx.cls.len, a1])
    (fun r => by rw [← hcl]; exact hx.cls.perm r)⟩
  · intro v r k hv hk hpos
    rcases h0 : s.t.level v with _ | k0
    · obtain ⟨c1, c2, r', rest, c3, c4, c5, c6, c7⟩ := hx.new v k (by rw [a2]; exact h0) hk
      rw [hv] at c4; cases c4
      rcases c7 with c7 | ⟨m, hm, a, ha, e⟩
      · rw [hx.dl] at c7; omega
      · have hmr := List.mem_of_mem_head? hm
        have hmf := (c6 _ hmr).1
        refine ⟨m, by rw [c5]; simp [hmr], ?_, ?_⟩
        · rintro rfl
          rw [trueLit_eval b1 c1 hk] at hmf
          cases hmf
        · obtain ⟨km, hkm, hlm⟩ := level_of_listed b1 ha
          rw [e] at hlm
          rcases Nat.lt_or_ge km s'.t.decisionLevel with hlt | hge
          · exfalso
            refine hlate r c3 m ?_ hmf km hlm _ hlt a ha e
            rw [c5]
            cases rest with
            | nil => simp at hm
            | cons y ys => simp at hm; simp [hm]
          · rw [hlm, c2, ← hx.dl]; congr 1; omega
    · have hv0 : s.t.reason v = some r := by
        have := (hx.old v k0 (by rw [a2]; exact h0)).2.1
        rw [a2, hv] at this; exact this.symm
      have hk0 : k0 = k := by
        have := hg.old _ _ h0
        rw [hk] at this; cases this; rfl
      subst hk0
      obtain ⟨m, h1, h2, h3⟩ := htight0 v r k0 hv0 h0 hpos
      obtain ⟨g1, rest, g2, -⟩ := h.head v r hv0
      have hceq : s'.clause r = s.clause r := by
        rw [← hcl]
        exact hx.cls.head r _ rest (by rw [hcl]; exact g2)
          (by rw [a2]; exact trueLit_eval hi (h.rok.isBool v r hv0) h0)
      refine ⟨m, by rw [hceq]; exact h1, ?_, hg.old _ _ h3⟩
      rw [trueLit_grow hi hg (h.rok.isBool v r hv0) h0]; exact h2
  · intro n hn
    rcases h0 : s.t.level (.bool n) with _ | k0
    · obtain ⟨-, -, r', -, -, c4, -⟩ := hx.new (.bool n) 0 (by rw [a2]; exact h0) hn
      rw [c4]; simp
    · have hk0 := hg.old _ _ h0
      rw [hn] at hk0; cases hk0
      have := (hx.old (.bool n) 0 (by rw [a2]; exact h0)).2.1
      rw [this, a2]; exact hzero0 n h0

theorem old_cons {la la' : LA Nat} (hB : LA.Base hv hc la.trail la.store la.bnd)
    (hB' : LA.Base hv hc la'.trail la'.store la'.bnd) (hK : Kept la.store la'.store) {e : LinCons}
    (he : e ∈ la'.store.set) (hlt : e.lit.ord < la.trail.bools.num) : e ∈ la.store.set := by
  have hlen : e.lit.ord < la.store.cons.length := by
    have h2 := hB.linv.len
    simp only at h2
    rw [h2]; exact hlt
  have h1 : la.store.cons[e.lit.ord]? = some la.store.cons[e.lit.ord] := List.getElem?_eq_getElem hlen
  have h2 := LinStore.get_of_mem hB'.inv he
  have h3 : la.store.cons[e.lit.ord] = e := by
    have h5 : la'.store.get e.lit.ord = la.store.cons[e.lit.ord] := by simp [LinStore.get, hK.cons _ _ h1]
    exact h5.symm.trans h2
  rcases hB.inv.dflt _ _ h1 with ⟨h4, -⟩ | h4
  · rw [h3] at h4; exact h4
  · exfalso
    rw [h3] at h4
    refine hB'.ne e he ?_
    rw [h4]; simp [LinStore.terms, LinStore.varsOf, LinCons.empty, LinStore.slice]

/-- A literal that the plugin for linear arithmetic propagates below the current level is new. -/
theorem frame_new {la la0 la' : LA Nat} {st : Yaga.Stage} {w : Option Nat} (hg : LA.Good hv hc la st w)
    (e0 : la0.trail = la.trail ∧ la0.store = la.store)
    (hB' : LA.Base hv hc la'.trail la'.store la'.bnd) (hf : LA.Frame la0 la') {v : Var} {l : Nat}
    (h1 : la.trail.level v = none) (h2 : la'.trail.level v = some l) (hl : l < la.trail.decisionLevel) :
    v.type = .boolean ∧ la.trail.bools.num ≤ v.ord := by
  obtain ⟨h3, e, he, heo, ht⟩ := hf.late v l (by rw [e0.1]; exact h1) h2
  have hkept : Kept la.store la'.store := by rw [← e0.2]; exact hf.kept
  refine ⟨h3, ?_⟩
  by_contra hlt
  have he0 := old_cons hg.keep.base hB' hkept he (by omega)
  have hfull := hg.keep.sem.full l (by omega) e.lit.ord (by rintro ⟨x, -, hx, -⟩; omega) e he0 rfl (by
    intro y hy
    rw [LA.cut_r]
    rw [IsCons.varsOf hg.keep.base.inv ⟨e, he0, Or.inl rfl⟩] at hy
    obtain ⟨p, hp, rfl⟩ := List.mem_map.mp hy
    obtain ⟨k, hk, hk2⟩ := ht p (((hkept.terms e he0).mem_iff).2 hp)
    exact ⟨k, by rw [← e0.1]; exact (hf.lev p.1).symm.trans hk2, hk⟩)
  rw [LA.cut_b, heo] at hfull
  obtain ⟨k, hk, -⟩ := hfull
  have hv' : v = ⟨.boolean, v.ord⟩ := by cases v; simp at h3; subst h3; rfl
  rw [← hv', h1] at hk; cases hk

/-- A theory has changed the plugin for linear arithmetic as the plugin itself does it. -/
theorem bool_frame {st st' : Yaga.Stage} {s : BS} {la : LA Nat} (h : CoreQ Q hv hc op S A true st ⟨s, la⟩)
    (hB : BoolOk A .complete s) {la0 la' : LA Nat} (h0 : la0.trail = la.trail ∧ la0.store = la.store)
    (hr : LA.Reach hv hc op True la' st')
    {w' : Option Nat} (g1 : LA.Good hv hc la' st' w') (g2 : LA.Frame la0 la') :
    BoolOk A .ready (follow s la') ∧
      (recentSize s.t = recentSize la'.trail → BoolOk A .complete (follow s la')) := by
  obtain ⟨w, hg⟩ := h.reach.good
  simp only at hg
  have ht : la.trail = s.t := h.trail
  have hgr : Grow la.trail la'.trail := by
    rw [ht]; exact (core_frame h h0 hr g1 g2).2
  have hnewlv : ∀ {v : Var} {l : Nat}, s.t.level v = none → la'.trail.level v = some l → l < s.t.decisionLevel →
      v.type = .boolean ∧ s.t.bools.num ≤ v.ord := by
    rw [← ht]; exact fun h1 h2 h3 => frame_new hg h0 g1.keep.base g2 h1 h2 h3
  have hrsn : ∀ v, la'.trail.reason v = s.t.reason v := by rw [← ht, ← h0.1]; exact g2.rsn
  have hadd : ∀ k, ∀ a ∈ la'.trail.assigned k, a ∈ s.t.assigned k ∨ s.t.level a.var = none := by
    rw [← ht, ← h0.1]; exact g2.add
  have htop : ∀ v l, s.t.level v = none → la'.trail.level v = some l →
      ∃ a ∈ la'.trail.assigned la'.trail.decisionLevel, a.var = v := by rw [← ht, ← h0.1]; exact g2.top
  have hdl : la'.trail.decisionLevel = s.t.decisionLevel := by rw [← ht, ← h0.1]; exact g2.dl
  have hnum : s.t.bools.num ≤ la'.trail.bools.num := by rw [← ht, ← h0.1]; exact g2.num
  have hpos : ∀ {v : Var} {l : Nat}, s.t.level v = none → la'.trail.level v = some l → 0 < l := by
    rw [← ht, ← h0.1]; exact fun h1 h2 => frame_pos g1.keep g2 h1 h2
  rw [ht] at hgr
  have hi : s.t.Inv := by rw [← ht]; exact hg.keep.base.tinv
  obtain ⟨-, c2, c3, c4, c5⟩ := hB.stage
  obtain ⟨ext, hext⟩ := hgr.lists s.t.decisionLevel
  -- fields of the new state
  have e1 : (follow s la').t = la'.trail := rfl
  have e2 : (follow s la').cls = s.cls := rfl
  have e3 : (follow s la').clause = s.clause := rfl
  have hws : WS (follow s la') := ws_follow c2 hnum
  have hunits : Units (follow s la') := fun r hr l hl => hgr.old _ _ (c4 r hr l hl)
  have hidx : Idx (follow s la') := by
    refine ⟨?_, ?_⟩
    · show s.curLevel ≤ (la'.trail.decisionLevel : Int)
      rw [hdl]; exact c5.lvl
    · show s.curLevel = (la'.trail.decisionLevel : Int) → s.nextIndex ≤ (la'.trail.assigned la'.trail.decisionLevel).length
      rw [hdl, ← hext, List.length_append]
      intro h'; have := c5.idx h'; omega
  have hlate : NoLateW (follow s la') := by
    refine noLateW_of hB.late hgr.inv ?_
    intro r hr w hw hf k hk hlt
    have hk0 : s.t.level w.var = some k := by
      rcases h0 : s.t.level w.var with _ | k0
      · obtain ⟨-, h1⟩ := hnewlv h0 hk (by rw [← hdl]; exact hlt)
        have h2 := c2.range r hr w (List.mem_of_mem_take hw)
        have h3 : w.var.ord = w.ord := rfl
        omega
      · have := hgr.old _ _ h0
        rw [show la'.trail.level w.var = some k from hk] at this; exact this.symm
    refine ⟨hr, hw, false_of_grow hi hgr hf hk0, hk0, ?_⟩
    intro j hj a ha e
    rcases hadd j a ha with h1 | h1
    · exact ⟨a, h1, e⟩
    · rw [e, hk0] at h1; cases h1
  have htight : Tight s.clause la'.trail := by
    intro v r k hv hk hp'
    rw [hrsn] at hv
    have hG := h.good la.store hg.keep.base.inv (Kept.refl _)
    rcases h0 : s.t.level v with _ | k0
    · have := hi.noReason _ h0
      rw [hv] at this; cases this
    · have hk0 : k0 = k := by
        have := hgr.old _ _ h0
        rw [hk] at this; cases this; rfl
      subst hk0
      obtain ⟨m, h1, h2, h3⟩ := hB.tight v r k0 hv h0 hp'
      refine ⟨m, h1, ?_, hgr.old _ _ h3⟩
      rw [trueLit_grow hi hgr (hG.rok.isBool v r hv) h0]; exact h2
  have hzero : ZeroReason la'.trail := by
    intro n hn
    rcases h0 : s.t.level (.bool n) with _ | k0
    · have := hpos h0 hn; omega
    · have hk0 := hgr.old _ _ h0
      rw [hn] at hk0; cases hk0
      rw [hrsn]; exact hB.zero n h0
  have hasr : Asr A (follow s la') := ⟨hB.asr.na, hB.asr.le, hB.asr.perm⟩
  refine ⟨⟨⟨hgr.inv, hws, ?_, hunits, hidx⟩, hlate, htight, hzero, hasr⟩, fun hz =>
    ⟨⟨hgr.inv, hws, ?_, hunits, hidx⟩, hlate, htight, hzero, hasr⟩⟩
  · intro r hr w hw hf
    rcases h0 : s.t.level w.var with _ | k0
    · right
      obtain ⟨k, hk⟩ := false_level hgr.inv hf
      obtain ⟨a, ha, e⟩ := htop _ _ h0 hk
      refine ⟨a, ?_, e⟩
      have hae : a ∈ ext := by
        rw [hdl, ← hext] at ha
        rcases List.mem_append.1 ha with h1 | h1
        · obtain ⟨k', -, hk'⟩ := level_of_listed hi h1
          rw [e, h0] at hk'; cases hk'
        · exact h1
      show a ∈ List.drop (if (la'.trail.decisionLevel : Int) = s.curLevel then s.nextIndex else 0)
        (la'.trail.assigned la'.trail.decisionLevel)
      rw [hdl, ← hext]
      split
      · rename_i e'
        rw [List.drop_append_of_le_length (c5.idx e'.symm)]; simp [hae]
      · simp [hae]
    · exact Or.inl (hgr.fine ((c3 r hr w hw (false_of_grow hi hgr hf h0)).resolve_right id))
  · intro r hr w hw hf
    rcases h0 : s.t.level w.var with _ | k0
    · exfalso
      obtain ⟨k, hk⟩ := false_level hgr.inv hf
      obtain ⟨a, ha, e⟩ := htop _ _ h0 hk
      have hnil : ext = [] := by
        have : recentSize s.t = recentSize la'.trail := hz
        unfold recentSize at this
        rw [hdl, ← hext, List.length_append] at this
        exact List.length_eq_zero_iff.1 (by omega)
      rw [hdl, ← hext, hnil, List.append_nil] at ha
      obtain ⟨k', -, hk'⟩ := level_of_listed hi ha
      rw [e, h0] at hk'; cases hk'
    · exact Or.inl (hgr.fine ((c3 r hr w hw (false_of_grow hi hgr hf h0)).resolve_right id))

/-- A call of `propagate` of the plugin for linear arithmetic. -/
theorem bool_lra {st : Yaga.Stage} {s : BS} {la : LA Nat} (h : CoreQ Q hv hc op S A true st ⟨s, la⟩)
    (hB : BoolOk A .complete s)
    (hs : st ≠ .conflict) {la' : LA Nat} {cs : List Clause} (hp : la.propagate hv hc op = (la', cs)) :
    BoolOk A .ready (follow s la') ∧
      (recentSize s.t = recentSize la'.trail → BoolOk A .complete (follow s la')) := by
  obtain ⟨w, hg⟩ := h.reach.good
  have hr := LA.Reach.propagate h.reach hs
  obtain ⟨g1, g2, g3⟩ := hg.propagate (o := op)
  simp only at hg g1 g2 g3 hr
  rw [hp] at g1 g2 g3 hr
  exact bool_frame h hB (la0 := la.takeAssigned.1) ⟨rfl, rfl⟩ hr g1 g2

theorem BoolOk.conflict {s : BS} (h : BoolOk A .ready s) : BoolOk A .conflict s :=
  ⟨⟨h.stage.1, h.stage.2.1, fun r hr w hw hf => (h.stage.2.2.1 r hr w hw hf).imp id pending_recent,
    Or.inr h.stage.2.2.2.1⟩, h.late, h.tight, h.zero, h.asr⟩

/-- `propagate` of all theories. -/
theorem bool_prop {q q' : QS} {cs : List Clause} (hp : QProp hv hc op q cs q') :
    ∀ {b : Bool} {st : Yaga.Stage}, CoreQ Q hv hc op S A b st q → st ≠ .conflict →
    (BoolOk A .ready q.s ∨ BoolOk A .fresh q.s) → BoolOk A (if cs = [] then .complete else .conflict) q'.s := by
  induction hp with
  | @boolConflict q s c h =>
    intro b st hC hs hB
    obtain ⟨w, hg⟩ := hC.reach.good
    have := bool_propagates (hC.good q.la.store hg.keep.base.inv (Kept.refl _)) hB h
    simpa using this
  | @lraConflict q s la cs h hp hne =>
    intro b st hC hs hB
    obtain ⟨w, hg⟩ := hC.reach.good
    have h1 := bool_propagates (hC.good q.la.store hg.keep.base.inv (Kept.refl _)) hB h
    obtain ⟨st', h2, h3, -⟩ := core_bool hC hs h
    have := (bool_lra h3 (by simpa using h1) h2 hp).1
    rw [if_neg hne]; exact this.conflict
  | @done q s la h hp hz =>
    intro b st hC hs hB
    obtain ⟨w, hg⟩ := hC.reach.good
    have h1 := bool_propagates (hC.good q.la.store hg.keep.base.inv (Kept.refl _)) hB h
    obtain ⟨st', h2, h3, h4, h5, -⟩ := core_bool hC hs h
    obtain ⟨-, g2, -, g4, -⟩ := core_lra h3 h2 hp
    rw [if_pos rfl]
    refine (bool_lra h3 (by simpa using h1) h2 hp).2 ?_
    have k1 := (h5 q.s.t.decisionLevel).length_le
    have k2 := (g4 q.s.t.decisionLevel).length_le
    unfold recentSize at hz ⊢
    rw [g2, h4] at hz ⊢
    omega
  | @again q q' s la cs h hp hz hr ih =>
    intro b st hC hs hB
    obtain ⟨w, hg⟩ := hC.reach.good
    have h1 := bool_propagates (hC.good q.la.store hg.keep.base.inv (Kept.refl _)) hB h
    obtain ⟨st', h2, h3, h4, h5, -⟩ := core_bool hC hs h
    obtain ⟨g1, -⟩ := core_lra h3 h2 hp
    refine ih g1 ?_ (Or.inl (bool_lra h3 (by simpa using h1) h2 hp).1)
    rw [if_neg (by simp)]
    split <;> simp

end Qf
end Yaga
