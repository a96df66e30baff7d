/-
The checked propagation never fails.
-/
import Verif.Model.BoolChecked
import Verif.Proofs.Check

namespace Yaga
namespace BS
open Spec

theorem need_pos {α : Type} {p : Prop} [Decidable p] {x : Option α} (h : p) : need p x = x := if_pos h

/-- The reasons of the waiting literals exist and all their other literals are false. -/
def RE (s : BS) : Prop := ∀ e ∈ s.sat, ∀ r, e.2 = some r → r < s.cls.length ∧
  ∀ m ∈ s.clause r, m = e.1 ∨ evalLit s.t.bools m = some false

/-- No variable has a level above that of `f`. -/
def TopLevel (t : Trail Nat) (f : Lit) : Prop :=
  ∃ k, t.level f.var = some k ∧ ∀ v j, t.level v = some j → j ≤ k

theorem levelsOk_top {t : Trail Nat} {f : Lit} {rest : Clause} (hi : t.Inv) (h : TopLevel t f)
    (hr : ∀ m ∈ rest, evalLit t.bools m = some false) : levelsOk t f rest = true := by
  obtain ⟨k, hk, hle⟩ := h
  simp only [levelsOk, hk, List.all_eq_true]
  intro m hm
  obtain ⟨j, hj⟩ := false_level hi (hr m hm)
  rw [hj]
  exact Nat.ble_eq_true_of_le (hle _ _ hj)

theorem findWatchC_eq {s : BS} {rest : List Lit} (hr : ∀ m ∈ rest, s.InRange m) (e : Nat) :
    ∀ fuel k, k < rest.length → e < rest.length →
      (if e ≤ k then rest.length - k + e else e - k) ≤ fuel →
      (0 < fuel) →
      findWatchC s rest e fuel k = some (findWatch s.t.bools rest e fuel k) := by
  intro fuel
  induction fuel with
  | zero => intro k _ _ _ h; omega
  | succ n ih =>
    intro k hk he hf _
    unfold findWatchC findWatch
    have hget : rest[k]? = some rest[k] := List.getElem?_eq_getElem hk
    simp only [hget]
    rw [need_pos (hr _ (List.getElem_mem hk))]
    by_cases h1 : evalLit s.t.bools rest[k] ≠ some false
    · rw [if_pos h1, if_pos h1]
    · rw [if_neg h1, if_neg h1]
      by_cases h2 : k + 1 ≥ rest.length
      · simp only [h2, if_true]
        by_cases h3 : 0 = e
        · rw [if_pos h3, if_pos h3]
        · rw [if_neg h3, if_neg h3]
          split at hf
          · exact ih 0 (by omega) he (by rw [if_neg (by omega)]; omega) (by omega)
          · omega
      · simp only [h2, if_false]
        by_cases h3 : k + 1 = e
        · rw [if_pos h3, if_pos h3]
        · rw [if_neg h3, if_neg h3]
          refine ih (k + 1) (by omega) he ?_ ?_
          · split at hf <;> split <;> omega
          · split at hf <;> omega

theorem replaceC_eq {s : BS} {y : Lit} {rest : List Lit} {idx : Nat}
    (hy : s.InRange y ∧ evalLit s.t.bools y = some false) (hr : ∀ m ∈ rest, s.InRange m)
    (hidx : rest ≠ [] → 2 ≤ idx ∧ idx < rest.length + 2) :
    replaceC s y rest idx = some (findWatch s.t.bools rest (idx - 2) rest.length (idx - 2)) := by
  unfold replaceC
  rw [need_pos hy]
  by_cases h : rest = []
  · rw [if_pos h, h]; rfl
  · obtain ⟨h1, h2⟩ := hidx h
    rw [if_neg h, need_pos ⟨h1, h2⟩]
    have : 0 < rest.length := List.length_pos_iff.2 h
    exact findWatchC_eq hr _ _ _ (by omega) (by omega) (by rw [if_pos (Nat.le_refl _)]; omega) this

theorem re_rel {s s' : BS} (h : RE s) (ht : s'.t = s.t) (hsat : s'.sat = s.sat)
    (hrel : ClsRel s.t.bools s s') : RE s' := by
  intro e he r hr
  rw [hsat] at he
  obtain ⟨h1, h2⟩ := h e he r hr
  refine ⟨by rw [hrel.len]; exact h1, ?_⟩
  intro m hm
  rw [ht]
  exact h2 m ((hrel.perm r).mem_iff.1 hm)

/-- The loop of `falsified`. -/
theorem falsifiedLoopC_eq {f : Lit} {Q : Lit → Prop} {lv : Bool} (fuel i : Nat) (s : BS)
    (hfuel : (s.watched f).length ≤ fuel + i) (hi : s.t.Inv)
    (hf : evalLit s.t.bools f = some false) (hfr : InRecent s.t f.var)
    (hQ : ∀ l, Q l → evalLit s.t.bools l = some true) (hfc : FC f Q i s) (hfe : FE f i s)
    (hlv : lv = true → TopLevel s.t f) (hre : RE s) :
    falsifiedLoopC lv f fuel i s = some (falsifiedLoop f fuel i s) ∧
      RE (falsifiedLoop f fuel i s).2 := by
  induction fuel generalizing i s with
  | zero => exact ⟨need_pos (by omega), hre⟩
  | succ n ih =>
    rcases hget : (s.watched f)[i]? with _ | w
    · have h1 : falsifiedLoop f (n + 1) i s = (none, s) := by simp only [falsifiedLoop, hget]
      rw [h1]
      exact ⟨by simp only [falsifiedLoopC, hget], hre⟩
    · have hwm : w ∈ s.watched f := List.mem_of_getElem? hget
      have hr := hfc.ws.ref f w hwm
      have hmem := hfc.ws.watched_mem hwm
      have hrng := hfc.ws.range w.ref hr
      obtain ⟨hil, -⟩ := List.getElem?_eq_some_iff.1 hget
      have hcg : s.cls[w.ref]? = some (s.clause w.ref) := by
        simp [clause, List.getD_eq_getElem?_getD, List.getElem?_eq_getElem hr]
      rcases hcl : s.clause w.ref with _ | ⟨a, _ | ⟨b, rest⟩⟩
      · exact absurd hcl (hfc.ws.ne _ hr)
      · rw [hcl] at hmem hcg hrng
        simp only [List.take_succ_cons, List.take_nil, List.mem_singleton] at hmem
        have h1 : falsifiedLoop f (n + 1) i s = (some [a], s) := by
          simp only [falsifiedLoop, hget, hcl]
        rw [h1]
        refine ⟨?_, hre⟩
        simp only [falsifiedLoopC, hget, hcg]
        refine need_pos ?_
        intro l hl
        rw [List.mem_singleton] at hl
        subst hl
        exact ⟨hrng l (by simp), by rw [← hmem]; exact hf⟩
      · -- two literals or more
        rw [hcl] at hmem hcg hrng
        simp only [List.take_succ_cons, List.take_zero, List.mem_cons, List.not_mem_nil, or_false] at hmem
        generalize hxd : (if a = f then b else a) = x
        have hyd : (if a = f then a else b) = f := by
          by_cases e : a = f
          · simp [e]
          · rw [if_neg e]; exact (hmem.resolve_left (fun h => e h.symm)).symm
        have hc : s.clause w.ref = f :: x :: rest ∨ s.clause w.ref = x :: f :: rest := by
          by_cases e : a = f
          · left; rw [if_pos e] at hxd; rw [hcl, e, hxd]
          · right; rw [if_neg e] at hxd hyd; rw [hcl, hxd, hyd]
        generalize hs1 : s.setClause w.ref (x :: f :: rest) = s1
        have ht1 : s1.t = s.t := by rw [← hs1]; rfl
        have hsat1 : s1.sat = s.sat := by rw [← hs1]; rfl
        have hwat1 : s1.watched = s.watched := by rw [← hs1]; rfl
        have hlen1 : s1.cls.length = s.cls.length := by rw [← hs1]; simp [setClause]
        obtain ⟨hfc1, hrel1⟩ : FC f Q i s1 ∧ ClsRel s.t.bools s s1 := hs1 ▸ fc_reorder hfc hr hc hf
        have hc1 : s1.clause w.ref = x :: f :: rest := by
          rw [← hs1, clause_setClause _ _ _ _ hr, if_pos rfl]
        have hget1 : (s1.watched f)[i]? = some w := by rw [hwat1]; exact hget
        have hfR : InRecent s1.t f.var := by rw [ht1]; exact hfr
        have hre1 : RE s1 := re_rel hre ht1 hsat1 hrel1
        have hrng1 := hfc1.ws.range w.ref (by rw [hlen1]; exact hr)
        rw [hc1] at hrng1
        have hzf : ∀ k, findWatch s1.t.bools rest (w.idx - 2) rest.length (w.idx - 2) = some k →
            rest.getD k f ≠ f ∧ s1.InRange (rest.getD k f) := by
          intro k hfw
          obtain ⟨l, hl1, hl2⟩ := findWatch_some _ _ _ _ _ _ hfw
          rw [List.getD_eq_getElem?_getD, hl1]
          constructor
          · intro e
            simp only [Option.getD_some] at e
            rw [ht1, e] at hl2; exact hl2 hf
          · exact hrng1 l (by simp [List.mem_of_getElem? hl1])
        have hidx := hfc.ws.idx f w hwm
        rw [hcl] at hidx
        simp only [List.length_cons] at hidx
        have hrep : replaceC s1 f rest w.idx =
            some (findWatch s1.t.bools rest (w.idx - 2) rest.length (w.idx - 2)) := by
          refine replaceC_eq ⟨hrng1 f (by simp), by rw [ht1]; exact hf⟩
            (fun m hm => hrng1 m (by simp [hm])) ?_
          intro h
          have := List.length_pos_iff.2 h
          have := hidx (by omega)
          omega
        have heq : falsifiedLoop f (n + 1) i s =
            if evalLit s1.t.bools x = some true then falsifiedLoop f n (i + 1) s1
            else
              match findWatch s1.t.bools rest (w.idx - 2) rest.length (w.idx - 2) with
              | some k => falsifiedLoop f n i (moveWatch s f x (rest.getD k f) rest i w.ref k)
              | none =>
                if evalLit s1.t.bools x = some false then (some (x :: f :: rest), s1)
                else falsifiedLoop f n (i + 1) { s1 with sat := (x, some w.ref) :: s1.sat } := by
          conv_lhs => unfold falsifiedLoop
          simp only [hget, hcl, hxd, hyd, hs1]
          split
          · rfl
          · rcases hfw : findWatch s1.t.bools rest (w.idx - 2) rest.length (w.idx - 2) with _ | k
            · rfl
            · simp only
              congr 1
              rw [← hs1]
              simp only [addWatch, setClause, moveWatch, List.set_set,
                Function.update_of_ne (Ne.symm (hzf k hfw).1)]
        have heqC : falsifiedLoopC lv f (n + 1) i s =
            if evalLit s1.t.bools x = some true then falsifiedLoopC lv f n (i + 1) s1
            else
              match findWatch s1.t.bools rest (w.idx - 2) rest.length (w.idx - 2) with
              | some k => falsifiedLoopC lv f n i (moveWatch s f x (rest.getD k f) rest i w.ref k)
              | none =>
                need (lv = true → levelsOk s1.t f rest = true) <|
                if evalLit s1.t.bools x = some false then
                  need (s1.AllFalse (x :: f :: rest)) (some (some (x :: f :: rest), s1))
                else
                  need (evalLit s1.t.bools x = none ∧ s1.AllFalse (f :: rest)) <|
                  falsifiedLoopC lv f n (i + 1) { s1 with sat := (x, some w.ref) :: s1.sat } := by
          conv_lhs => unfold falsifiedLoopC
          simp only [hget, hcg, hxd, hyd, hs1, hrep]
          rw [need_pos ⟨trivial, hrng1 x (by simp)⟩]
          split
          · rfl
          · rcases hfw : findWatch s1.t.bools rest (w.idx - 2) rest.length (w.idx - 2) with _ | k
            · rfl
            · simp only
              rw [need_pos ⟨(hzf k hfw).2, (hzf k hfw).1⟩]
              congr 1
              rw [← hs1]
              simp only [addWatch, setClause, moveWatch, List.set_set,
                Function.update_of_ne (Ne.symm (hzf k hfw).1)]
        rw [heq, heqC]
        by_cases hx1 : evalLit s1.t.bools x = some true
        · rw [if_pos hx1, if_pos hx1]
          have hfe1 : FE f i s1 := hs1 ▸ fe_reorder hfe hr hc hf (by rw [← ht1, hx1]; simp)
          exact ih (i + 1) s1 (by rw [hwat1]; omega)
            (by rw [ht1]; exact hi) (by rw [ht1]; exact hf) hfR (by rw [ht1]; exact hQ)
            (fc_skip hfc1 (by rw [ht1]; exact hi) hget1 hc1 hfR hx1)
            (fe_next hfe1 hget1 hc1 (by rw [ht1]; exact hf) (by rw [hx1]; simp))
            (by rw [ht1]; exact hlv) hre1
        · rw [if_neg hx1, if_neg hx1]
          rcases hfw : findWatch s1.t.bools rest (w.idx - 2) rest.length (w.idx - 2) with _ | k
          · simp only
            have hall : ∀ m ∈ rest, evalLit s.t.bools m = some false := by
              rw [← ht1]
              rcases rest with _ | ⟨z, zs⟩
              · simp
              · have hidx := hidx (by simp)
                simp only [List.length_cons] at hidx
                refine findWatch_none _ _ (w.idx - 2) _ (w.idx - 2) (by simp; omega) (by simp; omega)
                  ?_ ?_ hfw
                · simp; omega
                · intro j l _ hj; simp at hj; omega
            have hfr' : s1.AllFalse (f :: rest) := by
              intro m hm
              refine ⟨hrng1 m (List.mem_cons_of_mem _ hm), ?_⟩
              rw [ht1]
              rcases List.mem_cons.1 hm with rfl | hm
              · exact hf
              · exact hall m hm
            rw [need_pos (fun h => levelsOk_top (by rw [ht1]; exact hi) (by rw [ht1]; exact hlv h)
              (by rw [ht1]; exact hall))]
            by_cases hxf : evalLit s1.t.bools x = some false
            · rw [if_pos hxf, if_pos hxf]
              refine ⟨need_pos ?_, hre1⟩
              intro m hm
              rcases List.mem_cons.1 hm with rfl | hm
              · exact ⟨hrng1 m (by simp), hxf⟩
              · exact hfr' m hm
            · rw [if_neg hxf, if_neg hxf]
              have hxn : evalLit s1.t.bools x = none := by
                rcases hv : evalLit s1.t.bools x with _ | bv
                · rfl
                · cases bv
                  · exact absurd hv hxf
                  · exact absurd hv hx1
              rw [need_pos ⟨hxn, hfr'⟩]
              have hfe1 : FE f i s1 := hs1 ▸ fe_reorder hfe hr hc hf (by rw [← ht1]; exact hxf)
              refine ih (i + 1) { s1 with sat := (x, some w.ref) :: s1.sat }
                (by show (s1.watched f).length ≤ _; rw [hwat1]; omega)
                (by show s1.t.Inv; rw [ht1]; exact hi)
                (by show evalLit s1.t.bools f = _; rw [ht1]; exact hf) hfR
                (by show ∀ l, Q l → evalLit s1.t.bools l = _; rw [ht1]; exact hQ)
                (fc_push hfc1 hget1 hc1 hfR)
                (fe_push hfe1 hfc1.ws hget1 hc1 (by rw [ht1]; exact hf) hxn
                  (by rw [ht1]; exact hall) hfR)
                (by show _ → TopLevel s1.t f; rw [ht1]; exact hlv) ?_
              intro e he r hr'
              rcases List.mem_cons.1 he with rfl | he
              · cases hr'
                refine ⟨by show _ < s1.cls.length; rw [hlen1]; exact hr, ?_⟩
                intro m hm
                have hm : m ∈ s1.clause w.ref := hm
                rw [hc1] at hm
                rcases List.mem_cons.1 hm with rfl | hm
                · exact Or.inl rfl
                · exact Or.inr (hfr' m hm).2
              · exact hre1 e he r hr'
          · simp only
            obtain ⟨z, hz1, hz2⟩ := findWatch_some _ _ _ _ _ _ hfw
            have hzd : rest.getD k f = z := by rw [List.getD_eq_getElem?_getD, hz1]; rfl
            rw [hzd]
            obtain ⟨m1, m2, m3, m4⟩ := fc_move hfc hget hc hf (by rw [← ht1]; exact hx1) hz1
              (by rw [← ht1]; exact hz2) hQ hfe
            exact ih i (moveWatch s f x z rest i w.ref k) (by omega) hi hf hfr hQ m1 m2 hlv
              (re_rel hre rfl rfl m3)

/-- Everything in the list of the current level has the current level. -/
def RecentTop (t : Trail Nat) : Prop :=
  ∀ a ∈ t.assigned t.decisionLevel, t.level a.var = some t.decisionLevel

theorem topLevel_recent {t : Trail Nat} (hi : t.Inv) (h : RecentTop t) {f : Lit}
    (hf : InRecent t f.var) : TopLevel t f := by
  obtain ⟨a, ha, e⟩ := hf
  exact ⟨_, by rw [← e]; exact h a ha, fun v j hv => hi.bound v j hv⟩

/-- The loop of `propagate`. -/
theorem propLoopC_eq {lv : Bool} (fuel : Nat) (s : BS) (Q : Lit → Prop) (h : LI s Q)
    (hlv : lv = true → RecentTop s.t) (hre : RE s) :
    propLoopC lv fuel s = some (propLoop fuel s) := by
  induction fuel generalizing s Q with
  | zero => rfl
  | succ n ih =>
    unfold propLoopC propLoop
    rcases hs : s.sat with _ | ⟨⟨l, ro⟩, rest⟩
    · rfl
    · simp only
      obtain ⟨hts, hx1, hcls, hwat, hsat1⟩ := ext_pop h (Ext.refl s) hs
      generalize hs1 : assignPopped { s with sat := rest } l ro = s1 at *
      obtain ⟨hfc, hfe⟩ := li_pop h hs hts hcls hwat hsat1
      have hf : evalLit s1.t.bools l.neg = some false := by rw [evalLit_neg, hts.true_]; rfl
      have hQ : ∀ m, Q m → evalLit s1.t.bools m = some true := fun m hm => hts.keep _ _ (h.qt m hm)
      have hcl : s1.clause = s.clause := by funext r; simp [clause, hcls]
      have hnum : s1.t.bools.num = s.t.bools.num := congrFun hts.num .boolean
      have hin : s.InRange l := (h.ent (l, ro) (by rw [hs]; simp)).1
      have hre1 : RE s1 := by
        intro e he r hr
        rw [hsat1] at he
        obtain ⟨h1, h2⟩ := hre e (by rw [hs]; exact List.mem_cons_of_mem _ he) r hr
        rw [hcls, hcl]
        exact ⟨h1, fun m hm => (h2 m hm).imp id (hts.keep _ _)⟩
      have htop : lv = true → RecentTop s1.t := by
        intro hl a ha
        have hdl := hx1.dl
        rcases hx1.added _ a ha with h1 | ⟨h1, h2⟩
        · rw [hdl] at h1 ⊢
          exact (hts.old _ _ (hlv hl a h1)).1
        · have hget : s1.t.levels[s1.t.decisionLevel]? = some (s1.t.assigned s1.t.decisionLevel) := by
            have hdl : s1.t.decisionLevel < s1.t.levels.length := by
              have := hts.inv.length_pos; simp only [Trail.decisionLevel]; omega
            simp [Trail.assigned, List.getD_eq_getElem?_getD, List.getElem?_eq_getElem hdl]
          obtain ⟨k, hk, -⟩ := hts.inv.listed _ _ a hget ha
          rw [hk, (hx1.new _ _ h1 hk).2.1, hdl]
      have hfit : s1.ReasonFits l ro := by
        intro r hr
        obtain ⟨h1, h2⟩ := hre (l, ro) (by rw [hs]; simp) r hr
        rw [hcls, hcl]
        refine ⟨h1, fun m hm => (h2 m hm).imp id fun h3 => ⟨?_, hts.keep _ _ h3⟩⟩
        show m.ord < s1.t.bools.num
        rw [hnum]; exact h.ws.range r h1 m hm
      obtain ⟨c1, s2, e1, e2, e3, e4, e5, e6, ⟨added, e7⟩, e8⟩ :=
        falsifiedLoop_spec (s1.watched l.neg).length 0 s1 (by omega) hts.inv hf
          (by simpa using hts.recent) hQ hfc hfe
      have hloop := falsifiedLoopC_eq (lv := lv) (s1.watched l.neg).length 0 s1 (by omega) hts.inv hf
          (by simpa using hts.recent) hQ hfc hfe
          (fun hl => topLevel_recent hts.inv (htop hl) (by simpa using hts.recent)) hre1
      rw [need_pos hin, need_pos ⟨hts.true_, hfit⟩]
      have hfal : s1.falsified l.neg = (c1, s2) := e1
      have hfalC : falsifiedC lv s1 l.neg = some (c1, s2) := by
        have hin' : s1.InRange l.neg := by
          unfold InRange at hin ⊢
          rw [hnum]; simpa using hin
        unfold falsifiedC
        rw [need_pos ⟨hin', hf⟩, hloop.1, e1]
      rw [hfal, hfalC]
      have hre2 : RE s2 := by have := hloop.2; rw [e1] at this; exact this
      cases c1 with
      | some c' => rfl
      | none =>
        simp only
        have hli : LI s2 (fun m => Q m ∨ m = l) := by
          refine ⟨by rw [e2.t]; exact hts.inv, e4, e6 rfl, ?_, ?_⟩
          · rintro m (hm | rfl)
            · rw [e2.t]; exact hQ m hm
            · rw [e2.t]; exact hts.true_
          · intro r hr w hw hq
            refine e5 r hr w hw (Or.inr rfl) ?_
            refine hq.imp id ?_
            intro hq; rw [← hq]; simp
        exact ih s2 _ hli (by rw [e2.t]; exact htop) hre2

theorem initClausesC_eq (cs : List Clause) (r : Nat) (s : BS)
    (hne : ∀ c ∈ cs, c ≠ [] ∧ ∀ l ∈ c, s.InRange l) :
    initClausesC cs r s = some (initClauses cs r s) := by
  induction cs generalizing r s with
  | nil => rfl
  | cons c cs ih =>
    obtain ⟨h1, h2⟩ := hne c (by simp)
    have ht : (s.initClause r c).t = s.t := by
      rcases c with _ | ⟨a, _ | ⟨b, rest⟩⟩ <;> rfl
    have hone : s.initClauseC r c = some (s.initClause r c) := by
      rcases c with _ | ⟨a, _ | ⟨b, rest⟩⟩
      · exact absurd rfl h1
      · exact need_pos (h2 a (by simp))
      · exact need_pos ⟨h2 a (by simp), h2 b (by simp)⟩
    rw [initClausesC, initClauses, hone, Option.bind_some]
    refine ih _ _ ?_
    intro c' hc'
    obtain ⟨h3, h4⟩ := hne c' (by simp [hc'])
    exact ⟨h3, fun l hl => by unfold InRange; rw [ht]; exact h4 l hl⟩

theorem pushAllC_eq (as : List (Asg Nat)) (s : BS)
    (h : ∀ a ∈ as, a.var.type = .boolean → a.var.ord < s.t.bools.num) :
    pushAllC as s = some (as.foldl pushAssigned s) := by
  induction as generalizing s with
  | nil => rfl
  | cons a as ih =>
    have ht : (s.pushAssigned a).t = s.t := by unfold pushAssigned; split <;> rfl
    rw [pushAllC, List.foldl_cons, pushAssignedC, need_pos (h a (by simp)), Option.bind_some]
    exact ih _ (fun a' ha' => by rw [ht]; exact h a' (by simp [ha']))

theorem mem_assigned_level {t : Trail Nat} (hi : t.Inv) {i : Nat} {a : Asg Nat} (ha : a ∈ t.assigned i) :
    ∃ k, t.level a.var = some k := by
  simp only [Trail.assigned, List.getD_eq_getElem?_getD] at ha
  rcases hx : t.levels[i]? with _ | xs
  · rw [hx] at ha; simp at ha
  · rw [hx] at ha
    obtain ⟨k, hk, -⟩ := hi.listed i xs a hx ha; exact ⟨k, hk⟩

/-- `initialize` does not fail; the literals it pushes are the unit clauses and what was assigned. -/
theorem initPropC_eq {s : BS} (hi : s.t.Inv) (hdb : DbOk s) :
    s.initPropC = some s.initProp ∧ ∀ e ∈ s.initProp.sat,
      (∃ r < s.cls.length, s.clause r = [e.1] ∧ e.2 = some r) ∨
      ∃ a ∈ s.t.assigned s.t.decisionLevel, a.var.type = .boolean ∧
        e = (trueLit s.t a.var, a.reason) := by
  obtain ⟨s1, hs1⟩ : ∃ s1, s1 = (if s.t.isEmpty then initClauses s.cls 0
    { s with sat := [], watched := fun _ => [] } else { s with sat := [] }) := ⟨_, rfl⟩
  have hne : ∀ c ∈ s.cls, c ≠ [] ∧ ∀ l ∈ c, l.ord < s.t.bools.num := by
    intro c hc
    obtain ⟨r, hr, rfl⟩ := List.getElem_of_mem hc
    have h1 := hdb.ne r hr
    have h2 := hdb.range r hr
    simp only [clause, List.getD_eq_getElem?_getD, List.getElem?_eq_getElem hr, Option.getD_some] at h1 h2
    exact ⟨h1, h2⟩
  have hfirst : (if s.t.isEmpty then initClausesC s.cls 0 { s with sat := [], watched := fun _ => [] }
      else some { s with sat := [] }) = some s1 := by
    rw [hs1]
    split
    · exact initClausesC_eq _ _ _ hne
    · rfl
  have hone : s1.t = s.t ∧
      (∀ e ∈ s1.sat, ∃ r < s.cls.length, s.clause r = [e.1] ∧ e.2 = some r) := by
    by_cases he : s.t.isEmpty = true
    · rw [if_pos he] at hs1
      have hpw0 : PW 0 { s with sat := [], watched := fun _ => [] } :=
        ⟨by intro r hr; omega, by simp, by simp, by simp⟩
      obtain ⟨g1, g2, g3, -⟩ := initClauses_pw s.cls 0
        { s with sat := [], watched := fun _ => [] } hpw0 rfl (Nat.zero_le _) (fun c hc => (hne c hc).1)
      rw [← hs1] at g1 g2 g3
      refine ⟨g3, ?_⟩
      intro e hem
      obtain ⟨r, hr, h1, h2⟩ := (g1.ent e).1 hem
      refine ⟨r, hr, ?_, h2⟩
      rw [← h1]
      simp only [clause, g2]
    · rw [if_neg he] at hs1
      subst hs1
      exact ⟨rfl, by simp⟩
  obtain ⟨o1, o2⟩ := hone
  have hsub : ∀ a ∈ s1.assigned.1, a ∈ s.t.assigned s.t.decisionLevel := by
    intro a ha
    simp only [assigned, o1] at ha
    exact List.mem_of_mem_drop ha
  have hat : s1.assigned.2.t = s.t := o1
  have heq : s.initProp = (s1.assigned.1).foldl pushAssigned s1.assigned.2 := by
    rw [hs1]
    simp only [initProp]
  constructor
  · rw [heq]
    show (Option.bind (if s.t.isEmpty then initClausesC s.cls 0
      { s with sat := [], watched := fun _ => [] } else some { s with sat := [] }) _) = _
    rw [hfirst]
    refine pushAllC_eq _ _ ?_
    intro a ha hb
    obtain ⟨k, hk⟩ := mem_assigned_level hi (hsub a ha)
    have := hi.range _ _ hk
    rw [hb] at this
    rw [hat]; exact this
  · intro e he
    rw [heq] at he
    rcases ((foldl_pushAssigned s1.assigned.1 s1.assigned.2).2.2.2.2.2.2.2.2 e).1 he with h | ⟨a, ha, hb, h⟩
    · exact Or.inl (o2 e h)
    · right
      refine ⟨a, hsub a ha, hb, ?_⟩
      rw [h, hat]; rfl

theorem propagateC_eq {M : Assignment → Prop} {A : List Clause} {b lv : Bool} {s : BS}
    (h : Check.Good M A b s) (hlv : lv = true → RecentTop s.t) (fuel : Nat) :
    s.propagateC lv fuel = some (propLoop fuel s.initProp) := by
  obtain ⟨h1, h2⟩ := initPropC_eq h.base.inv h.base.db
  obtain ⟨hli, hcls, ht, -⟩ := initProp_spec (Q := fun _ => False)
    h.base.inv h.base.db (fun h' => h.base.ws (Or.inr h')) (by simp) (by simp)
  unfold propagateC
  rw [h1, Option.bind_some]
  refine propLoopC_eq fuel _ _ hli (by rw [ht]; exact hlv) ?_
  have hcl : s.initProp.clause = s.clause := by funext r; simp [clause, hcls]
  intro e he r hr
  rw [hcls, hcl, ht]
  rcases h2 e he with ⟨r', h3, h4, h5⟩ | ⟨a, ha, hb, h3⟩
  · rw [hr] at h5; cases h5
    refine ⟨h3, ?_⟩
    rw [h4]
    intro m hm
    exact Or.inl (List.mem_singleton.1 hm)
  · have hreason : s.t.reason a.var = some r := by
      rw [Check.reason_listed h.base.inv _ a ha, ← hr, h3]
    refine ⟨(h.head _ _ hreason).1, ?_⟩
    intro m hm
    rw [h3]
    by_cases hme : m = trueLit s.t a.var
    · exact Or.inl hme
    · exact Or.inr (h.rok.others _ _ hreason m hm hme).1

end BS
end Yaga
