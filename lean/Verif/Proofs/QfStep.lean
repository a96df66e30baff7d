/-
The check loop for QF_LRA: the invariant for the answer `sat` holds after backtracking, restarts and
decisions.
-/
import Verif.Proofs.QfSat
import Verif.Proofs.QfAnalysis
import Mathlib.Data.List.TakeWhile

set_option linter.unusedSectionVars false
set_option linter.unusedVariables false

namespace Yaga
open LinStore (Kept)
namespace Qf
open Spec BS Check

variable {hv : Nat → Nat} {hc : ℚ → Nat} {op : LaOpts} {S : LinStore} {A : List Clause}
  {b : Bool} {O : Type} {W : QOrder O} {Q : (Nat → ℚ) → Prop} {Th : Assignment → Prop}

/-- The part of the invariant that does not depend on the stage. -/
structure BoolT (A : List Clause) (s : BS) : Prop where
  late : NoLateW s
  tight : Tight s.clause s.t
  zero : ZeroReason s.t
  asr : Asr A s

theorem BoolOk.trl {st : BS.Stage} {s : BS} (h : BoolOk A st s) : BoolT A s := ⟨h.late, h.tight, h.zero, h.asr⟩

theorem BoolT.ok {st : BS.Stage} {s : BS} (h : BoolT A s) (hs : StageInv st s) : BoolOk A st s :=
  ⟨hs, h.late, h.tight, h.zero, h.asr⟩

/-- A decision. -/
theorem boolT_decide {s : BS} (hG : Check.Good Th A true s) (h : BoolT A s) {v : Var} {x : Val}
    (hp : s.t.Pre (.decide v x)) : BoolT A (s.decideOther v x) := by
  have hi := hG.base.inv
  have hg := grow_decide hi hp
  have hpos := hi.length_pos
  have hdl : (s.decideOther v x).t.decisionLevel = s.t.decisionLevel + 1 := by
    simp [decideOther, Trail.decisionLevel, Trail.decide]; omega
  have hlevel : ∀ w, (s.decideOther v x).t.level w = if w = v then some s.t.levels.length else s.t.level w := by
    intro w; simp [decideOther, Trail.decide, Function.update_apply]
  refine ⟨noLateW_of h.late hg.inv ?_, tight_decide hG.rok h.tight v x hp.2.1, zeroReason_decide hi h.zero v x,
    ⟨h.asr.na, h.asr.le, h.asr.perm⟩⟩
  intro r hr w hw hf k hk hlt
  have hne : w.var ≠ v := by
    intro e
    rw [hlevel, if_pos e] at hk
    cases hk
    rw [hdl] at hlt
    simp only [Trail.decisionLevel] at hlt
    omega
  have hk0 : s.t.level w.var = some k := by rw [hlevel, if_neg hne] at hk; exact hk
  refine ⟨hr, hw, false_of_grow hi hg hf hk0, hk0, ?_⟩
  intro j hj a ha e
  refine ⟨a, ?_, e⟩
  simp only [decideOther, Trail.assigned, Trail.levels_setValue, Trail.decide, List.getD_eq_getElem?_getD] at ha ⊢
  rcases Nat.lt_or_ge j s.t.levels.length with hjl | hjl
  · rwa [List.getElem?_append_left hjl] at ha
  · rw [List.getElem?_append_right hjl] at ha
    rcases hj' : j - s.t.levels.length with _ | n
    · rw [hj'] at ha; simp at ha; rw [ha] at e; exact absurd e.symm hne
    · rw [hj'] at ha; simp at ha

theorem bool_decide {s : BS} (hG : Check.Good Th A true s) (h : BoolOk A .complete s) {v : Var} {x : Val}
    (hp : s.t.Pre (.decide v x)) : BoolOk A .ready (s.decideOther v x) :=
  (boolT_decide hG h.trl hp).ok (stage_decide h.stage hp)

theorem asr_learnAll {s : BS} (hG : Check.Good Th A true s) (h : Asr A s) {ls : List Clause}
    (hl : ∀ c ∈ ls, ClauseOk s c ∧ Ent Th A c) : Asr A (s.learnAll ls) := by
  obtain ⟨-, h2, h3, h4⟩ := good_learnAll hG hl
  refine ⟨h4.trans h.na, by rw [h3, List.length_append]; have := h.le; omega, ?_⟩
  intro r hr
  rw [clause_append_lt h3 (by have := h.le; omega)]
  exact h.perm r hr

theorem backtrack_low {t : Trail Nat} (hi : t.Inv) {L : Nat} (hL : L ≤ t.decisionLevel) {v : Var} {k : Nat}
    (h : (t.backtrack L).level v = some k) : t.level v = some k ∧ k ≤ L := by
  obtain ⟨-, h2, h3, -, -⟩ := Trail.backtrack_spec hi L hL
  rcases hl : t.level v with _ | n
  · rw [(h3 v (by simp [hl])).1, hl] at h; cases h
  · rcases Nat.lt_or_ge L n with hlt | hge
    · rw [(h2 v n hl hlt).1] at h; cases h
    · rw [(h3 v (by intro l hl'; rw [hl] at hl'; cases hl'; exact hge)).1, hl] at h
      cases h; exact ⟨rfl, hge⟩

/-- Learned clauses whose watched literals are not below the new level. -/
theorem boolT_backtrack {s : BS} (hG : Check.Good Th A true s) (h : BoolT A s) {ls : List Clause} {L : Nat}
    (hl : ∀ c ∈ ls, ClauseOk s c ∧ Ent Th A c) (hL : L ≤ s.t.decisionLevel)
    (hw : ∀ c ∈ ls, ∀ w ∈ c.take 2, ∀ k, s.t.level w.var = some k → L ≤ k) :
    BoolT A ((s.learnAll ls).backtrackTo L) := by
  obtain ⟨h1, h2, h3, h4⟩ := good_learnAll hG hl
  have hi := hG.base.inv
  have ha := asr_learnAll hG h.asr hl
  have hib := Trail.backtrack_inv hi L hL
  have hbt : ((s.learnAll ls).backtrackTo L).t = s.t.backtrack L := by
    show (s.learnAll ls).t.backtrack L = _
    rw [h2]
  have hcl : ∀ r, r < s.cls.length → ((s.learnAll ls).backtrackTo L).clause r = s.clause r :=
    fun r hr => clause_append_lt h3 hr
  have htl : Tight (s.learnAll ls).clause (s.learnAll ls).t := by
    rw [h2]
    exact tight_congr h.tight fun v r hv => clause_append_lt h3 (hG.head v r hv).1
  refine ⟨noLateW_of h.late (by rw [hbt]; exact hib) ?_, tight_backtrack h1.base.inv h1.rok htl L (by rw [h2]; exact hL), ?_,
    ⟨ha.na, ha.le, ha.perm⟩⟩
  · rw [hbt, Trail.decisionLevel_backtrack hi L hL]
    intro r hr w hwm hf k hk hlt
    obtain ⟨hk0, hkL⟩ := backtrack_low hi hL hk
    have hr' : r < (s.cls ++ ls).length := by rw [← h3]; exact hr
    rcases Nat.lt_or_ge r s.cls.length with hlt' | hge
    · rw [hcl r hlt'] at hwm
      refine ⟨hlt', hwm, ?_, hk0, ?_⟩
      · rwa [evalLit_backtrack_low hi hL hk0 hkL] at hf
      · intro j hj a ha e
        exact ⟨a, (assigned_backtrack hi hL j a ha).1, e⟩
    · exfalso
      have hmem : ((s.learnAll ls).backtrackTo L).clause r ∈ ls := by
        have : ((s.learnAll ls).backtrackTo L).cls = s.cls ++ ls := h3
        rw [List.length_append] at hr'
        simp only [clause, this, List.getD_eq_getElem?_getD, List.getElem?_append_right hge]
        rw [List.getElem?_eq_getElem (by omega)]
        simp
      have := hw _ hmem w hwm k hk0
      omega
  · rw [hbt]; exact zeroReason_backtrack hi h.zero L hL

theorem asserting_watch {s : BS} {L : Nat} {c : Clause} (h : Asserting s L c) :
    ∀ w ∈ c.take 2, ∀ k, s.t.level w.var = some k → L ≤ k := by
  obtain ⟨x, rest, rfl, ⟨k, hk, hkL⟩, -, -, h4⟩ := h
  intro w hw j hj
  cases rest with
  | nil => simp at hw; subst hw; rw [hk] at hj; cases hj; omega
  | cons y ys =>
    simp at hw
    rcases hw with rfl | rfl
    · rw [hk] at hj; cases hj; omega
    · rw [h4 _ _ rfl] at hj; cases hj; omega

theorem splitAt_watch {s : BS} {L : Nat} {c : Clause} (h : SplitAt s L c) :
    ∀ w ∈ c.take 2, ∀ k, s.t.level w.var = some k → L ≤ k := by
  obtain ⟨x, y, rest, rfl, h1, h2, -⟩ := h
  intro w hw j hj
  simp at hw
  rcases hw with rfl | rfl
  · rw [h1] at hj; cases hj; omega
  · rw [h2] at hj; cases hj; omega

/-- The state after the propagation of one learned literal. -/
theorem boolT_assign {s : BS} (hG : Check.Good Th A true s) (h : BoolT A s) {x : Lit} {r : Nat} {rest : Clause}
    (hx : x.ord < s.t.bools.num) (hu : s.t.level x.var = none) (hc : s.clause r = x :: rest)
    (ht : 0 < s.t.decisionLevel → ∃ m ∈ rest, s.t.level m.var = some s.t.decisionLevel) :
    BoolT A (s.assignLit x (some r) s.t.decisionLevel) := by
  have hi := hG.base.inv
  have hxo : Lit.ofVal x.ord (!x.isNeg) = x := Lit.ofVal_self x
  have hg := grow_propagate hi (v := x.var) (r := some r) (lvl := s.t.decisionLevel)
    (x := .b (!x.isNeg)) ⟨hx, hu, rfl, le_refl _⟩
  have hlevel : ∀ v, (s.assignLit x (some r) s.t.decisionLevel).t.level v =
      if v = x.var then some s.t.decisionLevel else s.t.level v := by
    intro v; simp [assignLit, Trail.propagate, Function.update_apply]
  have hdl : (s.assignLit x (some r) s.t.decisionLevel).t.decisionLevel = s.t.decisionLevel := by
    simp [assignLit, Trail.decisionLevel, Trail.propagate]
  refine ⟨noLateW_of h.late hg.inv ?_, tight_propagate hG.rok h.tight x.ord r _ (!x.isNeg) hu ?_,
    zeroReason_propagate h.zero x.var r s.t.decisionLevel (.b (!x.isNeg)), ⟨h.asr.na, h.asr.le, h.asr.perm⟩⟩
  · rw [hdl]
    intro r' hr w hw hf k hk hlt
    have hne : w.var ≠ x.var := by
      intro e
      rw [hlevel, if_pos e] at hk
      cases hk; omega
    have hk0 : s.t.level w.var = some k := by rw [hlevel, if_neg hne] at hk; exact hk
    refine ⟨hr, hw, false_of_grow hi hg hf hk0, hk0, ?_⟩
    intro j hj a ha e
    refine ⟨a, ?_, e⟩
    simp only [assignLit, Trail.assigned, Trail.levels_setValue, Trail.propagate,
      List.getD_eq_getElem?_getD, Trail.getElem?_pushFrom] at ha ⊢
    rcases hx : s.t.levels[j]? with _ | xs
    · rw [hx] at ha; simp at ha
    · rw [hx] at ha
      simp only [Option.map_some, Option.getD_some] at ha ⊢
      split at ha
      · rcases List.mem_append.1 ha with ha | ha
        · exact ha
        · rw [List.mem_singleton.1 ha] at e; exact absurd e.symm hne
      · exact ha
  · rw [hxo]
    intro hpos
    obtain ⟨m, hm, hml⟩ := ht hpos
    refine ⟨m, by rw [hc]; simp [hm], ?_, hml⟩
    rintro rfl
    rw [hu] at hml; cases hml

/-- What `propHeads` needs to know of a clause. -/
def Jump (t : Trail Nat) (L : Nat) (c : Clause) : Prop :=
  ∃ x rest, c = x :: rest ∧ (∀ m ∈ rest, evalLit t.bools m = some false ∧ ∃ k ≤ L, t.level m.var = some k) ∧
    (0 < L → ∃ m ∈ rest, t.level m.var = some L)

theorem boolT_propHeads (L : Nat) (cs : List Clause) (r : Nat) (s : BS) (hG : Check.Good Th A true s)
    (h : BoolT A s) (hdl : s.t.decisionLevel = L) (hr : ∀ i c, cs[i]? = some c → r + i < s.cls.length ∧
      s.clause (r + i) = c) (hc : ∀ c ∈ cs, Jump s.t L c) : BoolT A (propHeads L cs r s) := by
  induction cs generalizing r s with
  | nil => exact h
  | cons c cs ih =>
    obtain ⟨x, rest, rfl, hx, ht⟩ := hc c (by simp)
    unfold propHeads
    obtain ⟨hr1, hr2⟩ := hr 0 _ rfl
    rw [Nat.add_zero] at hr1 hr2
    have hrs : ∀ i c, cs[i]? = some c → r + 1 + i < s.cls.length ∧ s.clause (r + 1 + i) = c := by
      intro i c hi
      have := hr (i + 1) c (by simpa using hi)
      rw [show r + 1 + i = r + (i + 1) by omega]; exact this
    by_cases hd : s.t.bools.defined x.ord = true
    · rw [if_pos hd]
      exact ih (r + 1) s hG h hdl hrs fun c hc' => hc c (by simp [hc'])
    · rw [if_neg hd]
      have hu : s.t.level x.var = none := by
        rcases hl : s.t.level x.var with _ | k
        · rfl
        · exact absurd ((hG.base.inv.defined x.var).2 ⟨k, hl⟩) hd
      have hxr : x.ord < s.t.bools.num := hG.base.db.range r hr1 x (by rw [hr2]; simp)
      have hg := grow_propagate hG.base.inv (v := x.var) (r := some r) (lvl := L)
        (x := .b (!x.isNeg)) ⟨hxr, hu, rfl, hdl.ge⟩
      have h1 := boolT_assign hG h hxr hu hr2 (by rw [hdl]; exact ht)
      rw [hdl] at h1
      refine ih (r + 1) _ (good_assignLit hG hxr hu hdl.ge hr1 hr2 hx) h1 ?_ hrs ?_
      · simpa [assignLit, Trail.decisionLevel, Trail.propagate] using hdl
      · intro c hc'
        obtain ⟨y, rest', rfl, hy, hty⟩ := hc c (by simp [hc'])
        refine ⟨y, rest', rfl, ?_, ?_⟩
        · intro m hm
          obtain ⟨g1, k, hk, e⟩ := hy m hm
          exact ⟨hg.keep _ _ g1, k, hk, hg.old _ _ e⟩
        · intro hpos
          obtain ⟨m, hm, e⟩ := hty hpos
          exact ⟨m, hm, hg.old _ _ e⟩

/-- Backtracking with asserting clauses. -/
theorem bool_uip {s : BS} (hG : Check.Good Th A true s) (h : BoolOk A .conflict s) {ls : List Clause} {L : Nat}
    (hl : ∀ c ∈ ls, ClauseOk s c ∧ Ent Th A c) (hL : L < s.t.decisionLevel) (ha : ∀ c ∈ ls, Asserting s L c) :
    BoolOk A .ready ((s.learnAll ls).backtrackUip ls L) := by
  obtain ⟨h1, h2, h3, -⟩ := good_learnAll hG hl
  have hi := hG.base.inv
  have hL' : L ≤ (s.learnAll ls).t.decisionLevel := by rw [h2]; exact hL.le
  have h4 := good_backtrackTo h1 hL'
  have hbt : ((s.learnAll ls).backtrackTo L).t = s.t.backtrack L := by
    show (s.learnAll ls).t.backtrack L = _
    rw [h2]
  have hbc : ((s.learnAll ls).backtrackTo L).cls = s.cls ++ ls := h3
  refine BoolT.ok ?_ (stage_jump h.stage hL fun c hc => ⟨(hl c hc).1, ha c hc⟩)
  unfold backtrackUip
  refine boolT_propHeads L ls _ _ h4
    (boolT_backtrack hG h.trl hl hL.le fun c hc => asserting_watch (ha c hc)) ?_ ?_ ?_
  · rw [hbt, Trail.decisionLevel_backtrack hi L hL.le]
  · intro i c hi
    have hlt : i < ls.length := by
      rcases Nat.lt_or_ge i ls.length with h | h
      · exact h
      · rw [List.getElem?_eq_none h] at hi; cases hi
    have e : (s.learnAll ls).cls.length - ls.length + i = s.cls.length + i := by
      rw [h3, List.length_append]; omega
    rw [e, hbc]
    refine ⟨by rw [List.length_append]; omega, ?_⟩
    simp [clause, List.getD_eq_getElem?_getD, hbc, List.getElem?_append_right, hi]
  · intro c hc
    obtain ⟨x, rest, rfl, ⟨k, hk, hkL⟩, a2, a3, a4⟩ := ha c hc
    obtain ⟨b1, b2, b3, b4, b5⟩ := Trail.backtrack_spec hi L hL.le
    have hlev : ∀ (v : Var) k, k ≤ L → s.t.level v = some k → (s.t.backtrack L).level v = some k := by
      intro v k hk hv
      rw [(b3 v (by intro l hl; rw [hv] at hl; cases hl; exact hk)).1]; exact hv
    refine ⟨x, rest, rfl, ?_, ?_⟩
    · rw [hbt]
      intro m hm
      obtain ⟨g1, k, hk, e⟩ := a2 m hm
      exact ⟨by rw [evalLit_backtrack_low hi hL.le e hk]; exact g1, k, hk, hlev _ _ hk e⟩
    · intro hpos
      cases rest with
      | nil => have := a3 rfl; omega
      | cons y ys => exact ⟨y, by simp, by rw [hbt]; exact hlev _ _ le_rfl (a4 y ys rfl)⟩

/-- Backtracking with semantic splits. -/
theorem bool_split {s : BS} (hG : Check.Good Th A true s) (h : BoolOk A .conflict s) {ls : List Clause} {L : Nat}
    (hl : ∀ c ∈ ls, ClauseOk s c ∧ Ent Th A c) (hL : L < s.t.decisionLevel) (ha : ∀ c ∈ ls, SplitAt s L c)
    {v : Var} {x : Val} (hp : ((s.learnAll ls).backtrackTo L).t.Pre (.decide v x)) :
    BoolOk A .ready (((s.learnAll ls).backtrackTo L).decideOther v x) := by
  obtain ⟨h1, h2, h3, -⟩ := good_learnAll hG hl
  refine bool_decide (good_backtrackTo h1 (by rw [h2]; exact hL.le)) (BoolT.ok
    (boolT_backtrack hG h.trl hl hL.le fun c hc => splitAt_watch (ha c hc)) (stage_split h.stage hL ?_ ?_)) hp
  · intro c hc
    obtain ⟨x, y, rest, rfl, g1, g2, -⟩ := ha c hc
    exact ⟨(hl _ hc).1, x, y, rest, rfl, ⟨_, g1, by omega⟩, _, g2, by omega⟩
  · intro r hr w hw hf k hk hkl a ha
    exact h.late r hr w hw hf k hkl (L + 1) (by omega) a ha

/-- A restart. -/
theorem bool_restart {s : BS} (hG : Check.Good Th A true s) (h : Asr A s) {ls : List Clause}
    (hl : ∀ c ∈ ls, ClauseOk s c ∧ Ent Th A c) (old : Nat) :
    BoolOk A .fresh (Check.restart (s.learnAll ls) old) := by
  obtain ⟨g1, g2, g3, g4⟩ := good_learnAll hG hl
  have t2 := asr_learnAll hG h hl
  have g5 := good_restart g1 old
  have hlev : ∀ v, (Check.restart (s.learnAll ls) old).t.level v = none := fun v => rfl
  have hre : ∀ v, (Check.restart (s.learnAll ls) old).t.reason v = none := fun v => rfl
  refine ⟨⟨g5.base.inv, rfl, g5.base.db⟩, ?_, tight_of_noReason hre, zeroReason_of_unassigned hlev, t2.na, ?_, ?_⟩
  · intro r hr w hw hf k hk
    rw [hlev] at hk; cases hk
  · have := t2.le
    simp only [Check.restart, List.length_append, List.length_take]
    rw [t2.na]
    omega
  · intro r hr
    have hle := t2.le
    have hc : (Check.restart (s.learnAll ls) old).clause r = (s.learnAll ls).clause r := by
      simp only [clause, Check.restart, List.getD_eq_getElem?_getD]
      rw [List.getElem?_append_left (by rw [List.length_take, t2.na]; omega), List.getElem?_take,
        if_pos (by rw [t2.na]; exact hr)]
    rw [hc]; exact t2.perm r hr

/-- The literals at the front of a split are assigned at the level above the one to backtrack to. -/
theorem topLits_level {s : BS} {L : Nat} {c : Clause} (h : SplitAt s L c) {x : Lit} (hx : x ∈ topLits s.t c) :
    s.t.level x.var = some (L + 1) := by
  obtain ⟨y, z, rest, rfl, h1, h2, -⟩ := h
  simp only [topLits, List.mem_cons] at hx
  rcases hx with rfl | hx
  · exact h1
  · have := List.mem_takeWhile_imp hx
    simp only [beq_iff_eq] at this
    rw [this]; exact h1

/-- Invariant of the loop. -/
def BoolInv (A : List Clause) (s : BS) : Prop := BoolOk A .ready s ∨ BoolOk A .fresh s

/-! ### The steps of an iteration after `propagate` -/

theorem bconf_restart {st' : Yaga.Stage} {q : QS} {cs : List Clause} (h1 : CoreQ Q hv hc op S A true st' q)
    (h2 : ∀ c ∈ cs, (∀ l ∈ c, evalLit q.s.t.bools l = some false) ∧
      ∀ F : LinStore, F.Inv → Kept q.la.store F → Ent (TheoryQ Q F) A c) (hB' : BoolOk A .conflict q.s) {ls : List Clause} {lvl : Int} (hl : Check.Learned q.s cs ls lvl) (old : Nat) :
    BoolOk A .fresh (restart q ls old).s := by
  obtain ⟨w, hg⟩ := h1.reach.good
  have hI := hg.keep.base.inv
  have hG := h1.good _ hI (Kept.refl _)
  exact (bool_restart hG hB'.asr
    (learned_spec hG (fun c hc => ⟨(h2 c hc).1, (h2 c hc).2 _ hI (Kept.refl _)⟩) hl).1 _)

theorem bconf_uip {st' : Yaga.Stage} {q : QS} {cs : List Clause} (h1 : CoreQ Q hv hc op S A true st' q)
    (h2 : ∀ c ∈ cs, (∀ l ∈ c, evalLit q.s.t.bools l = some false) ∧
      ∀ F : LinStore, F.Inv → Kept q.la.store F → Ent (TheoryQ Q F) A c) (hB' : BoolOk A .conflict q.s) (hne : cs ≠ []) {ls : List Clause} {L : Nat} (h0 : q.s.t.decisionLevel ≠ 0)
    (hl : Check.Learned q.s cs ls L) (hsp : ls.head?.any (isSemanticSplit q.s.t) = false) :
    BoolOk A .ready (uip q ls L).s := by
  obtain ⟨w, hg⟩ := h1.reach.good
  have hI := hg.keep.base.inv
  have hG := h1.good _ hI (Kept.refl _)
  obtain ⟨L', e, hL, hsh, hn⟩ := learned_shape hG.base.inv hG.rok hB'.tight hB'.zero hne
    (fun c hc => (h2 c hc).1) hl
  have e : L' = L := by omega
  subst e
  have hl1 := (learned_spec hG (fun c hc => ⟨(h2 c hc).1, (h2 c hc).2 _ hI (Kept.refl _)⟩) hl).1
  rcases hsh with hsh | hsh
  · exact bool_uip hG hB' hl1 hL hsh
  · exfalso
    obtain ⟨c0, cs0, rfl⟩ := List.exists_cons_of_ne_nil hn
    simp [splitAt_split (hsh c0 (by simp))] at hsp

theorem bconf_split {st' : Yaga.Stage} {q : QS} {cs : List Clause} (h1 : CoreQ Q hv hc op S A true st' q)
    (h2 : ∀ c ∈ cs, (∀ l ∈ c, evalLit q.s.t.bools l = some false) ∧
      ∀ F : LinStore, F.Inv → Kept q.la.store F → Ent (TheoryQ Q F) A c) (hB' : BoolOk A .conflict q.s) (hne : cs ≠ []) {ls : List Clause} {L : Nat} {c0 : Clause} {x : Lit}
    (h0 : q.s.t.decisionLevel ≠ 0) (hl : Check.Learned q.s cs ls L) (hc0 : ls.head? = some c0)
    (hsp : isSemanticSplit q.s.t c0 = true) (hx : x ∈ topLits q.s.t c0)
    (hu : (q.s.t.backtrack L).level x.var = none) : BoolOk A .ready (split q ls L x).s := by
  obtain ⟨w, hg⟩ := h1.reach.good
  have hI := hg.keep.base.inv
  have hG := h1.good _ hI (Kept.refl _)
  obtain ⟨L', e, hL, hsh, hn⟩ := learned_shape hG.base.inv hG.rok hB'.tight hB'.zero hne
    (fun c hc => (h2 c hc).1) hl
  have e : L' = L := by omega
  subst e
  have hl1 := (learned_spec hG (fun c hc => ⟨(h2 c hc).1, (h2 c hc).2 _ hI (Kept.refl _)⟩) hl).1
  have hmem := List.mem_of_mem_head? hc0
  rcases hsh with hsh | hsh
  · rw [asserting_noSplit (hsh c0 hmem)] at hsp; cases hsp
  · refine bool_split hG hB' hl1 hL hsh ?_
    have hb : ((q.s.learnAll ls).backtrackTo L').t = q.s.t.backtrack L' := by
      show (q.s.learnAll ls).t.backtrack L' = _
      rw [(good_learnAll hG hl1).2.1]
    rw [hb]
    refine ⟨?_, hu, rfl⟩
    show x.ord < (q.s.t.backtrack L').bools.num
    rw [numBools_backtrack hG.base.inv hL.le]
    exact (hl1 c0 hmem).1.2 x (topLits_mem hx)

theorem bool_decideBool {st' : Yaga.Stage} {q : QS} {n : Nat} (h1 : CoreQ Q hv hc op S A true st' q)
    (hB' : BoolOk A .complete q.s) (g1 : n < q.la.trail.bools.num) (g2 : q.la.trail.level (.bool n) = none) :
    BoolOk A .ready (q.s.decide (.bool n)) := by
  obtain ⟨w, hg⟩ := h1.reach.good
  have hG := h1.good _ hg.keep.base.inv (Kept.refl _)
  rw [h1.trail] at g1 g2
  obtain ⟨b, e⟩ := decide_eq_decideOther q.s n
  rw [e]
  exact bool_decide hG hB' ⟨g1, g2, rfl⟩

theorem bool_decideRat {q : QS} {la0 la : LA Nat} {n fuel : Nat} (h1 : CoreQ Q hv hc op S A true .settled q)
    (hpk : Queried q.la la0) (hB' : BoolOk A .complete q.s) (g1 : n < q.la.trail.rats.num)
    (g2 : q.la.trail.level (.rat n) = none) (hd : la0.decide fuel n = some la) :
    BoolOk A .ready { q.s with t := la.trail } := by
  rw [h1.trail] at g1 g2
  replace h1 := core_queried h1 hpk
  obtain ⟨w, hg⟩ := h1.reach.good
  have hG := h1.good _ hg.keep.base.inv (Kept.refl _)
  have hx : n < la0.trail.rats.num := by rw [h1.trail]; exact g1
  have hu : la0.level n = none := by
    show la0.trail.level ⟨.rational, n⟩ = none
    rw [h1.trail]; exact g2
  have hw := hg.normal (by rintro ⟨⟩)
  subst hw
  obtain ⟨_, _, _, e3, v, e4⟩ := LA.Keep.decide hg.keep (by
    rintro o (⟨h1, _⟩ | ⟨_, h2⟩ | h1)
    · omega
    · rw [hg.settled rfl] at h2; cases h2
    · exact absurd h1 LA.not_fresh) (fun k o => LA.not_fresh) hx hu hd
  have e5 : ({ q.s with t := la.trail } : BS) = q.s.decideOther (.rat n) (.q v) := by
    show _ = ({ q.s with t := _ } : BS)
    rw [e4, h1.trail]
  show BoolOk A .ready { q.s with t := la.trail }
  rw [e5]
  exact bool_decide hG hB' ⟨g1, g2, rfl⟩

theorem bool_iter {st : Yaga.Stage} {c : QC O} {out : Out O} (h : CoreQ Q hv hc op S A b st c.q)
    (hs : st ≠ .conflict) (hB : BoolInv A c.q.s) (hP : PicksFree hv hc op W c) (hi : Iter hv hc op W c out) :
    (∀ q, out = .sat q → BoolOk A .complete q.s) ∧ ∀ c', out = .run c' → BoolInv A c'.q.s := by
  cases hi with
  | unsatZero => exact ⟨by simp, by simp⟩
  | unsatEmpty => exact ⟨by simp, by simp⟩
  | @restart cs q ls lvl o hp hne h0 hl he =>
    refine ⟨by simp, ?_⟩
    rintro c' h'
    cases h'
    obtain ⟨st', h1, _, h2⟩ := core_prop hp h hs
    have hB' := bool_prop hp h hs hB
    rw [if_neg hne] at hB'
    exact Or.inr (bconf_restart h1 h2 hB' hl c.old)
  | @uip cs q ls L o hp hne h0 hl he hsp =>
    refine ⟨by simp, ?_⟩
    rintro c' h'
    cases h'
    obtain ⟨st', h1, _, h2⟩ := core_prop hp h hs
    have hB' := bool_prop hp h hs hB
    rw [if_neg hne] at hB'
    exact Or.inl (bconf_uip h1 h2 hB' hne h0 hl hsp)
  | @split cs q ls L o c0 x hp hne h0 hl he hc0 hsp hx hu =>
    refine ⟨by simp, ?_⟩
    rintro c' h'
    cases h'
    obtain ⟨st', h1, _, h2⟩ := core_prop hp h hs
    have hB' := bool_prop hp h hs hB
    rw [if_neg hne] at hB'
    exact Or.inl (bconf_split h1 h2 hB' hne h0 hl hc0 hsp hx hu)
  | @sat q o la0 hp hpk =>
    refine ⟨?_, by simp⟩
    intro q' e
    cases e
    simpa using bool_prop hp h hs hB
  | @decideBool q o la0 n hp hpk =>
    refine ⟨by simp, ?_⟩
    rintro c' h'
    cases h'
    obtain ⟨st', h1, h3, _⟩ := core_prop hp h hs
    have hB' := bool_prop hp h hs hB
    rw [if_pos rfl] at hB'
    obtain ⟨g1, g2⟩ := hP _ _ _ _ hp hpk
    exact Or.inl (bool_decideBool h1 hB' g1 g2)
  | @decideRat q o la0 n fuel la hp hpk hd =>
    refine ⟨by simp, ?_⟩
    rintro c' h'
    cases h'
    obtain ⟨st', h1, h3, _⟩ := core_prop hp h hs
    rw [h3 rfl] at h1
    have hB' := bool_prop hp h hs hB
    rw [if_pos rfl] at hB'
    obtain ⟨g1, g2⟩ := hP _ _ _ _ hp hpk
    exact Or.inl (bool_decideRat h1 (W.queried hpk) hB' g1 g2 hd)

end Qf
end Yaga
