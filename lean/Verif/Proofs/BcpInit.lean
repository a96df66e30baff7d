/-
`Bool_theory::initialize` establishes the invariant of the propagation loop.
-/
import Verif.Proofs.Bcp
import Verif.Model.BoolHistory

set_option linter.unusedSectionVars false
set_option linter.unusedVariables false

namespace Yaga
namespace BS
open Spec

/-- Watch lists after `n` clauses of the database. -/
structure PW (n : Nat) (s : BS) : Prop where
  count : ∀ r < n, ∀ l, ((s.watched l).map Watch.ref).count r = ((s.clause r).take 2).count l
  ref : ∀ l, ∀ w ∈ s.watched l, w.ref < n
  idx : ∀ l, ∀ w ∈ s.watched l, 2 < (s.clause w.ref).length →
    2 ≤ w.idx ∧ w.idx < (s.clause w.ref).length
  ent : ∀ e, e ∈ s.sat ↔ ∃ r < n, s.clause r = [e.1] ∧ e.2 = some r

theorem watched_addWatch (s : BS) (l l' : Lit) (w : Watch) :
    (s.addWatch l w).watched l' = if l' = l then s.watched l' ++ [w] else s.watched l' := by
  simp only [addWatch, Function.update_apply]
  split
  · rename_i e; rw [e]
  · rfl

theorem count_eq_zero_of_ref {s : BS} {n : Nat} (h : ∀ l, ∀ w ∈ s.watched l, w.ref < n) (l : Lit) :
    ((s.watched l).map Watch.ref).count n = 0 := by
  rw [List.count_eq_zero]
  intro hm
  obtain ⟨w, hw, e⟩ := List.mem_map.1 hm
  have := h l w hw
  omega

theorem pw_addTwo {n : Nat} {s s' : BS} {c : Clause} {a b : Lit} {rest : List Lit} (h : PW n s)
    (hc : c = a :: b :: rest) (hn : s'.clause n = c)
    (hcl : ∀ r < n, s'.clause r = s.clause r) (hsat : s'.sat = s.sat)
    (hw : s'.watched = ((s.addWatch a (mkWatch n c)).addWatch b (mkWatch n c)).watched) :
    PW (n + 1) s' := by
  subst hc
  have hmem : ∀ l w, w ∈ s'.watched l → w ∈ s.watched l ∨ w = mkWatch n (a :: b :: rest) := by
    intro l w hlw
    rw [hw, watched_addWatch, watched_addWatch] at hlw
    split at hlw <;> split at hlw <;>
      (try simp only [List.mem_append, List.mem_singleton] at hlw) <;> tauto
  refine ⟨?_, ?_, ?_, ?_⟩
  · intro r hr l
    have hcount : ((s'.watched l).map Watch.ref).count r = ((s.watched l).map Watch.ref).count r +
        (if a = l ∧ n = r then 1 else 0) + (if b = l ∧ n = r then 1 else 0) := by
      rw [hw, watched_addWatch, watched_addWatch]
      have hmk : ∀ c, (mkWatch n c).ref = n := fun _ => rfl
      have e1 : (l = a) = (a = l) := propext eq_comm
      have e2 : (l = b) = (b = l) := propext eq_comm
      simp only [e1, e2]
      by_cases h1 : a = l <;> by_cases h2 : b = l <;>
        simp only [h1, h2, if_true, if_false, true_and, false_and, List.map_append, List.map_cons,
          List.map_nil, hmk, List.count_append, List.count_cons, List.count_nil, beq_iff_eq] <;> omega
    rcases Nat.lt_or_eq_of_le (Nat.lt_succ_iff.1 hr) with hlt | rfl
    · rw [hcount, h.count r hlt l, hcl r hlt]
      have : ¬ n = r := by omega
      simp [this]
    · rw [hcount, count_eq_zero_of_ref h.ref l, hn]
      simp [List.count_cons]; omega
  · intro l w hlw
    rcases hmem l w hlw with h1 | rfl
    · have := h.ref l w h1; omega
    · simp [mkWatch]
  · intro l w hlw
    rcases hmem l w hlw with h1 | rfl
    · rw [hcl _ (h.ref l w h1)]; exact h.idx l w h1
    · simp only [mkWatch, hn, List.length_cons]
      intro hl; omega
  · intro e
    rw [hsat, h.ent e]
    constructor
    · rintro ⟨r, hr, h1, h2⟩; exact ⟨r, by omega, by rw [hcl r hr]; exact h1, h2⟩
    · rintro ⟨r, hr, h1, h2⟩
      rcases Nat.lt_or_eq_of_le (Nat.lt_succ_iff.1 hr) with hlt | rfl
      · exact ⟨r, hlt, by rw [← hcl r hlt]; exact h1, h2⟩
      · rw [hn] at h1; simp at h1

theorem initClause_pw {n : Nat} {s : BS} {c : Clause} (h : PW n s) (hc : s.clause n = c)
    (hne : c ≠ []) :
    PW (n + 1) (s.initClause n c) ∧ (s.initClause n c).cls = s.cls ∧
    (s.initClause n c).t = s.t ∧ (s.initClause n c).na = s.na ∧
    (s.initClause n c).phase = s.phase ∧ (s.initClause n c).mode = s.mode ∧
    (s.initClause n c).nextIndex = s.nextIndex ∧ (s.initClause n c).curLevel = s.curLevel := by
  match c, hne with
  | [a], _ =>
    refine ⟨?_, rfl, rfl, rfl, rfl, rfl, rfl, rfl⟩
    have hcl : ∀ r, (s.initClause n [a]).clause r = s.clause r := fun r => rfl
    have hw : (s.initClause n [a]).watched = (s.addWatch a (mkWatch n [a])).watched := rfl
    have hmem : ∀ l w, w ∈ (s.initClause n [a]).watched l → w ∈ s.watched l ∨ w = mkWatch n [a] := by
      intro l w hlw
      rw [hw, watched_addWatch] at hlw
      split at hlw <;> (try simp only [List.mem_append, List.mem_singleton] at hlw) <;> tauto
    refine ⟨?_, ?_, ?_, ?_⟩
    · intro r hr l
      rw [hcl, hw, watched_addWatch]
      rcases Nat.lt_or_eq_of_le (Nat.lt_succ_iff.1 hr) with hlt | rfl
      · rw [← h.count r hlt l]
        have : ¬ n = r := by omega
        split <;> simp [mkWatch, this]
      · rw [hc]
        have h0 := count_eq_zero_of_ref h.ref l
        by_cases e : l = a
        · subst e; simp [mkWatch, h0]
        · simp [e, h0, Ne.symm e]
    · intro l w hlw
      rcases hmem l w hlw with h1 | rfl
      · have := h.ref l w h1; omega
      · simp [mkWatch]
    · intro l w hlw
      rw [hcl]
      rcases hmem l w hlw with h1 | rfl
      · exact h.idx l w h1
      · simp [mkWatch, hc]
    · intro e
      show e ∈ (a, some n) :: s.sat ↔ _
      rw [List.mem_cons, h.ent e]
      simp only [hcl]
      constructor
      · rintro (rfl | ⟨r, hr, h1, h2⟩)
        · exact ⟨n, by omega, hc, rfl⟩
        · exact ⟨r, by omega, h1, h2⟩
      · rintro ⟨r, hr, h1, h2⟩
        rcases Nat.lt_or_eq_of_le (Nat.lt_succ_iff.1 hr) with hlt | rfl
        · exact Or.inr ⟨r, hlt, h1, h2⟩
        · left
          rw [hc] at h1
          simp only [List.cons.injEq, and_true] at h1
          exact Prod.ext h1.symm h2
  | a :: b :: rest, _ =>
    exact ⟨pw_addTwo h rfl hc (fun _ _ => rfl) rfl rfl, rfl, rfl, rfl, rfl, rfl, rfl, rfl⟩

theorem initClauses_pw (cs : List Clause) (n : Nat) (s : BS) (h : PW n s)
    (hcs : s.cls.drop n = cs) (hn : n ≤ s.cls.length) (hne : ∀ c ∈ cs, c ≠ []) :
    PW s.cls.length (initClauses cs n s) ∧ (initClauses cs n s).cls = s.cls ∧
    (initClauses cs n s).t = s.t ∧ (initClauses cs n s).na = s.na ∧
    (initClauses cs n s).phase = s.phase ∧ (initClauses cs n s).mode = s.mode ∧
    (initClauses cs n s).nextIndex = s.nextIndex ∧ (initClauses cs n s).curLevel = s.curLevel := by
  induction cs generalizing n s with
  | nil =>
    have : n = s.cls.length := by
      have := List.drop_eq_nil_iff.1 hcs; omega
    exact ⟨this ▸ h, rfl, rfl, rfl, rfl, rfl, rfl, rfl⟩
  | cons c cs ih =>
    have hlt : n < s.cls.length := by
      by_contra hge
      rw [List.drop_eq_nil_of_le (by omega)] at hcs; cases hcs
    have hc : s.clause n = c := by
      rw [← List.getElem_cons_drop hlt] at hcs
      simp only [List.cons.injEq] at hcs
      simp [clause, List.getD_eq_getElem?_getD, List.getElem?_eq_getElem hlt, hcs.1]
    have hd : s.cls.drop (n + 1) = cs := by
      rw [← List.getElem_cons_drop hlt] at hcs
      simp only [List.cons.injEq] at hcs
      exact hcs.2
    obtain ⟨h1, h2, h3, h4, h5, h6, h7, h8⟩ := initClause_pw h hc (hne c (by simp))
    obtain ⟨g1, g2, g3, g4, g5, g6, g7, g8⟩ := ih (n + 1) (s.initClause n c) h1
      (by rw [h2]; exact hd) (by rw [h2]; omega) (fun c' hc' => hne c' (List.mem_cons_of_mem _ hc'))
    rw [h2] at g1
    exact ⟨g1, g2.trans h2, g3.trans h3, g4.trans h4, g5.trans h5, g6.trans h6, g7.trans h7,
      g8.trans h8⟩

/-- The elements of the current level that were not processed yet. -/
def unprocessed (s : BS) : List (Asg Nat) := s.assigned.1

theorem foldl_pushAssigned (as : List (Asg Nat)) (s : BS) :
    (as.foldl pushAssigned s).cls = s.cls ∧ (as.foldl pushAssigned s).t = s.t ∧
    (as.foldl pushAssigned s).watched = s.watched ∧ (as.foldl pushAssigned s).na = s.na ∧
    (as.foldl pushAssigned s).phase = s.phase ∧ (as.foldl pushAssigned s).mode = s.mode ∧
    (as.foldl pushAssigned s).nextIndex = s.nextIndex ∧
    (as.foldl pushAssigned s).curLevel = s.curLevel ∧
    (∀ e, e ∈ (as.foldl pushAssigned s).sat ↔ e ∈ s.sat ∨ ∃ a ∈ as, a.var.type = .boolean ∧
      e = (Lit.ofVal a.var.ord (s.t.bools.value a.var.ord), a.reason)) := by
  induction as generalizing s with
  | nil => simp
  | cons a as ih =>
    rw [List.foldl_cons]
    obtain ⟨h1, h2, h3, h4, h5, h6, h7, h8, h9⟩ := ih (s.pushAssigned a)
    have hp : (s.pushAssigned a).cls = s.cls ∧ (s.pushAssigned a).t = s.t ∧
        (s.pushAssigned a).watched = s.watched ∧ (s.pushAssigned a).na = s.na ∧
        (s.pushAssigned a).phase = s.phase ∧ (s.pushAssigned a).mode = s.mode ∧
        (s.pushAssigned a).nextIndex = s.nextIndex ∧ (s.pushAssigned a).curLevel = s.curLevel := by
      unfold pushAssigned; split <;> exact ⟨rfl, rfl, rfl, rfl, rfl, rfl, rfl, rfl⟩
    obtain ⟨p1, p2, p3, p4, p5, p6, p7, p8⟩ := hp
    refine ⟨h1.trans p1, h2.trans p2, h3.trans p3, h4.trans p4, h5.trans p5, h6.trans p6,
      h7.trans p7, h8.trans p8, ?_⟩
    intro e
    rw [h9 e, p2]
    unfold pushAssigned
    split
    · rename_i hb
      simp only [List.mem_cons]
      constructor
      · rintro ((rfl | h) | ⟨x, hx, h⟩)
        · exact Or.inr ⟨a, Or.inl rfl, hb, rfl⟩
        · exact Or.inl h
        · exact Or.inr ⟨x, Or.inr hx, h⟩
      · rintro (h | ⟨x, rfl | hx, h⟩)
        · exact Or.inl (Or.inr h)
        · exact Or.inl (Or.inl h.2)
        · exact Or.inr ⟨x, hx, h⟩
    · rename_i hb
      simp only [List.mem_cons]
      constructor
      · rintro (h | ⟨x, hx, h⟩)
        · exact Or.inl h
        · exact Or.inr ⟨x, Or.inr hx, h⟩
      · rintro (h | ⟨x, rfl | hx, h⟩)
        · exact Or.inl h
        · exact absurd h.1 hb
        · exact Or.inr ⟨x, hx, h⟩

theorem WS.db {s : BS} (h : WS s) : DbOk s := ⟨h.ne, h.range⟩

theorem isEmpty_levels {t : Trail Nat} (h : t.isEmpty = true) : t.levels = [[]] := by
  simp only [Trail.isEmpty, Bool.and_eq_true, beq_iff_eq, List.isEmpty_iff] at h
  obtain ⟨h1, h2⟩ := h
  obtain ⟨x, hx⟩ := List.length_eq_one_iff.1 h1
  simp [Trail.assigned, hx] at h2
  rw [hx, h2]

theorem isEmpty_level {t : Trail Nat} (hi : t.Inv) (h : t.isEmpty = true) (v : Var) :
    t.level v = none := by
  rcases hl : t.level v with _ | k
  · rfl
  · obtain ⟨xs, h1, a, ha, -⟩ := hi.own v k hl
    rw [isEmpty_levels h] at h1
    rcases k with _ | k <;> simp at h1
    subst h1; cases ha

/-- `initialize` establishes the loop invariant. -/
theorem initProp_spec {s : BS} {Q : Lit → Prop} (hi : s.t.Inv) (hdb : DbOk s)
    (hws : s.t.isEmpty = false → WS s) (hqt : ∀ l, Q l → evalLit s.t.bools l = some true)
    (hq : s.t.isEmpty = false → ∀ r < s.cls.length, ∀ w ∈ (s.clause r).take 2, Q w.neg →
      Fine s.t (s.clause r) w) :
    LI s.initProp Q ∧ s.initProp.cls = s.cls ∧ s.initProp.t = s.t ∧ s.initProp.na = s.na ∧
    s.initProp.phase = s.phase ∧ s.initProp.mode = s.mode ∧
    s.initProp.nextIndex = (s.t.assigned s.t.decisionLevel).length ∧
    s.initProp.curLevel = s.t.decisionLevel ∧
    (∀ l : Lit, evalLit s.t.bools l = some true → (∃ a ∈ s.unprocessed, a.var = l.var) →
      ∃ e ∈ s.initProp.sat, e.1 = l) ∧
    (s.t.isEmpty = true → ∀ r l, r < s.cls.length → s.clause r = [l] →
      ∃ e ∈ s.initProp.sat, e.1 = l) := by
  -- the state after the first part
  obtain ⟨s1, hs1⟩ : ∃ s1, s1 = (if s.t.isEmpty then initClauses s.cls 0
    { s with sat := [], watched := fun _ => [] } else { s with sat := [] }) := ⟨_, rfl⟩
  have hdl0 : s.t.isEmpty = true → s.t.decisionLevel = 0 := by
    intro he; simp [Trail.decisionLevel, isEmpty_levels he]
  have hone : s1.cls = s.cls ∧ s1.t = s.t ∧ s1.na = s.na ∧ s1.phase = s.phase ∧ s1.mode = s.mode ∧
      s1.nextIndex = s.nextIndex ∧ s1.curLevel = s.curLevel ∧ WS s1 ∧
      (∀ e ∈ s1.sat, s.t.isEmpty = true ∧ ∃ r < s.cls.length, s.clause r = [e.1] ∧ e.2 = some r) ∧
      (s.t.isEmpty = true → ∀ r l, r < s.cls.length → s.clause r = [l] → (l, some r) ∈ s1.sat) := by
    by_cases he : s.t.isEmpty = true
    · rw [if_pos he] at hs1
      have hpw0 : PW 0 { s with sat := [], watched := fun _ => [] } :=
        ⟨by intro r hr; omega, by simp, by simp, by simp⟩
      obtain ⟨g1, g2, g3, g4, g5, g6, g7, g8⟩ := initClauses_pw s.cls 0
        { s with sat := [], watched := fun _ => [] } hpw0 rfl (Nat.zero_le _) (by
          intro c hc
          obtain ⟨r, hr, rfl⟩ := List.getElem_of_mem hc
          have := hdb.ne r hr
          simpa [clause, List.getD_eq_getElem?_getD, List.getElem?_eq_getElem hr] using this)
      rw [← hs1] at g1 g2 g3 g4 g5 g6 g7 g8
      simp only at g1 g2 g3 g4 g5 g6 g7 g8
      have hcl : s1.clause = s.clause := by funext r; simp [clause, g2]
      refine ⟨g2, g3, g4, g5, g6, g7, g8, ⟨?_, ?_, ?_, ?_, g1.idx⟩, ?_, ?_⟩
      · rw [g2, hcl]; exact hdb.ne
      · rw [g2, hcl, g3]; exact hdb.range
      · rw [g2]; exact g1.count
      · rw [g2]; exact g1.ref
      · intro e hem
        obtain ⟨r, hr, h1, h2⟩ := (g1.ent e).1 hem
        exact ⟨he, r, hr, by rw [← hcl]; exact h1, h2⟩
      · intro _ r l hr hrl
        exact (g1.ent _).2 ⟨r, hr, by rw [hcl]; exact hrl, rfl⟩
    · rw [if_neg he] at hs1
      have he' : s.t.isEmpty = false := by simpa using he
      have hw := hws he'
      subst hs1
      refine ⟨rfl, rfl, rfl, rfl, rfl, rfl, rfl, ⟨hw.ne, hw.range, hw.count, hw.ref, hw.idx⟩,
        by simp, fun h => absurd h he⟩
  obtain ⟨o1, o2, o3, o4, o5, o6, o7, o8, o9, o10⟩ := hone
  have heq : s.initProp = (s1.assigned.1).foldl pushAssigned s1.assigned.2 := by
    rw [hs1]
    simp only [initProp]
  have hun : s1.assigned.1 = s.unprocessed := by
    simp only [unprocessed, assigned, o2, o6, o7]
  have has2 : s1.assigned.2 = { s1 with
    curLevel := s.t.decisionLevel, nextIndex := (s.t.assigned s.t.decisionLevel).length } := by
    simp only [assigned, o2]
  rw [hun, has2] at heq
  obtain ⟨f1, f2, f3, f4, f5, f6, f7, f8, f9⟩ := foldl_pushAssigned s.unprocessed { s1 with
    curLevel := s.t.decisionLevel, nextIndex := (s.t.assigned s.t.decisionLevel).length }
  rw [← heq] at f1 f2 f3 f4 f5 f6 f7 f8 f9
  simp only at f1 f2 f3 f4 f5 f6 f7 f8 f9
  generalize s.initProp = s2 at *
  have c1 : s2.cls = s.cls := f1.trans o1
  have c2 : s2.t = s.t := f2.trans o2
  have hcl : s2.clause = s.clause := by funext r; simp [clause, c1]
  have hcl1 : s1.clause = s.clause := by funext r; simp [clause, o1]
  have hsub : ∀ a ∈ s.unprocessed, a ∈ s.t.assigned s.t.decisionLevel := by
    intro a ha
    simp only [unprocessed, assigned] at ha
    exact List.mem_of_mem_drop ha
  have hget : s.t.levels[s.t.decisionLevel]? = some (s.t.assigned s.t.decisionLevel) := by
    have hdl : s.t.decisionLevel < s.t.levels.length := by
      have := hi.length_pos; simp only [Trail.decisionLevel]; omega
    simp [Trail.assigned, List.getD_eq_getElem?_getD, List.getElem?_eq_getElem hdl]
  refine ⟨⟨by rw [c2]; exact hi, ?_, ?_, by rw [c2]; exact hqt, ?_⟩, c1, c2, f4.trans o3,
    f5.trans o4, f6.trans o5, f7, f8, ?_, ?_⟩
  · refine ⟨?_, ?_, ?_, ?_, ?_⟩
    · rw [c1, hcl]; exact hdb.ne
    · rw [c1, hcl, c2]; exact hdb.range
    · intro r hr l
      rw [c1, ← o1] at hr
      rw [f3, hcl, ← hcl1]; exact o8.count r hr l
    · rw [c1, f3, ← o1]; exact o8.ref
    · rw [f3, hcl, ← hcl1]; exact o8.idx
  · intro e he
    unfold EntryOk
    rw [c2, c1, hcl]
    rcases (f9 e).1 he with h1 | ⟨a, ha, hb, h1⟩
    · obtain ⟨hem, r, hr, h2, h3⟩ := o9 e h1
      refine ⟨hdb.range r hr e.1 (by rw [h2]; simp), Or.inr ⟨?_, r, [], h3, hr, h2, by simp,
        Or.inl (hdl0 hem)⟩⟩
      exact (evalLit_none hi _).2 (isEmpty_level hi hem _)
    · have ha' := hsub a ha
      obtain ⟨k, hk, -, -⟩ := hi.listed _ _ a hget ha'
      have hvar : e.1.var = a.var := by
        rw [h1]
        rcases hv : a.var with ⟨ty, o⟩
        rw [hv] at hb
        simp only at hb; subst hb
        simp [Lit.var]
      refine ⟨?_, Or.inl ⟨?_, a, ha', hvar.symm⟩⟩
      · have := hi.range _ _ hk
        rw [hb] at this
        rw [h1, Lit.ord_ofVal]; exact this
      · have := trueLit_eval hi hb hk
        rw [h1, o2]; exact this
  · intro r hr w hw hqw
    rw [c1] at hr
    rw [hcl] at hw ⊢
    left
    rw [c2]
    rcases he : s.t.isEmpty with _ | _
    · exact hq he r hr w hw hqw
    · exfalso
      have := hqt _ hqw
      have h0 : evalLit s.t.bools w.neg = none := (evalLit_none hi _).2 (isEmpty_level hi he _)
      rw [this] at h0; cases h0
  · rintro l hl ⟨a, ha, hav⟩
    refine ⟨(Lit.ofVal a.var.ord (s1.t.bools.value a.var.ord), a.reason), (f9 _).2 (Or.inr ⟨a, ha, ?_, rfl⟩), ?_⟩
    · rw [hav]; rfl
    · rw [hav, o2]
      rw [evalLit_true_iff] at hl
      exact hl.2.symm
  · intro he r l hr hrl
    exact ⟨(l, some r), (f9 _).2 (Or.inl (o10 he r l hr hrl)), rfl⟩

end BS
end Yaga
