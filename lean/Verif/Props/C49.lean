/-
C49: Boolean value selection and phase saving.
-/
import Verif.Proofs.BoolExample
import Verif.Proofs.BoolHist

set_option linter.unusedVariables false

namespace Yaga
open BS

/-- The value the plugin must choose for variable `n`. -/
def Spec.phaseValue (mode : Phase) (cached : Bool) : Bool :=
  match mode with
  | .positive => true
  | .negative => false
  | .cache => cached

/-- C49, decisions. Deciding a declared unassigned Boolean variable opens a new level that contains
this variable only, without a reason, with the value prescribed by the phase; nothing else changes.
Other variables are ignored. -/
theorem C49_decide (s : BS) (hi : s.t.Inv) (n : Nat) (hn : n < s.t.bools.num)
    (hu : s.t.level (.bool n) = none) :
    let s' := s.decide (.bool n)
    s'.t.Inv ∧ s'.t.decisionLevel = s.t.decisionLevel + 1 ∧
    s'.t.assigned s'.t.decisionLevel = [⟨.bool n, none⟩] ∧
    (∀ i ≤ s.t.decisionLevel, s'.t.assigned i = s.t.assigned i) ∧
    s'.t.level (.bool n) = some s'.t.decisionLevel ∧ s'.t.reason (.bool n) = none ∧
    s'.t.bools.defined n = true ∧
    s'.t.bools.value n = Spec.phaseValue s.mode (s.phase n) ∧
    (∀ v ≠ .bool n, s'.t.level v = s.t.level v ∧ s'.t.reason v = s.t.reason v ∧
      s'.t.isDefined v = s.t.isDefined v ∧ s'.t.valueOf v = s.t.valueOf v) ∧
    s'.cls = s.cls ∧ s'.watched = s.watched ∧ s'.phase = s.phase ∧ s'.mode = s.mode ∧
    ∀ m, s.decide (.rat m) = s := by
  intro s'
  have hs' : s' = s.decideOther (.bool n) (.b (Spec.phaseValue s.mode (s.phase n))) := by
    show s.decide (.bool n) = _
    unfold BS.decide
    rw [if_pos rfl]
    rfl
  have hlen := hi.length_pos
  have hdl : s'.t.decisionLevel = s.t.decisionLevel + 1 := by
    rw [hs']; simp [decideOther, Trail.decisionLevel, Trail.decide]; omega
  have hlv : s'.t.levels = s.t.levels ++ [[⟨.bool n, none⟩]] := by
    rw [hs']; simp [decideOther, Trail.decide]
  have hinv : s'.t.Inv := by
    rw [hs']; exact Trail.decide_inv hi (.bool n) (.b _) hn hu rfl
  refine ⟨hinv, hdl, ?_, ?_, ?_, ?_, ?_, ?_, ?_, by rw [hs']; rfl, by rw [hs']; rfl, by rw [hs']; rfl, by rw [hs']; rfl,
    fun m => by simp [BS.decide]⟩
  · have : s.t.decisionLevel + 1 = s.t.levels.length := by simp [Trail.decisionLevel]; omega
    simp [Trail.assigned, hdl, hlv, this]
  · intro i hle
    have : i < s.t.levels.length := by simp only [Trail.decisionLevel] at hle; omega
    simp [Trail.assigned, List.getD_eq_getElem?_getD, hlv, List.getElem?_append_left this]
  · have : s.t.decisionLevel + 1 = s.t.levels.length := by simp [Trail.decisionLevel]; omega
    rw [hdl, hs']; simp [decideOther, Trail.decide, this]
  · have := hi.noReason _ hu
    rw [hs']; simp [decideOther, Trail.decide]
  · rw [hs']; simp [decideOther, Trail.setValue, Trail.decide, PModel.setValue, Var.bool]
  · rw [hs']; simp [decideOther, Trail.setValue, Trail.decide, PModel.setValue, Var.bool]
  · intro v hv
    rw [hs']
    refine ⟨by simp [decideOther, Trail.decide, hv], by simp [decideOther, Trail.decide, hv], ?_, ?_⟩
    · rcases v with ⟨tv, ov⟩
      cases tv
      · have : ov ≠ n := by rintro rfl; exact hv rfl
        simp [decideOther, Trail.isDefined, Trail.setValue, Trail.decide, PModel.setValue, Var.bool, this]
      · simp [decideOther, Trail.isDefined, Trail.setValue, Trail.decide, PModel.setValue, Var.bool]
    · rcases v with ⟨tv, ov⟩
      cases tv
      · have : ov ≠ n := by rintro rfl; exact hv rfl
        simp [decideOther, Trail.valueOf, Trail.setValue, Trail.decide, PModel.setValue, Var.bool, this]
      · simp [decideOther, Trail.valueOf, Trail.setValue, Trail.decide, PModel.setValue, Var.bool]

/-- Value of variable `n` in the last of the given states (newest first) in which it was assigned;
`true` if there is none. -/
def Spec.lastValue (n : Nat) (past : List BS) : Bool :=
  match past.find? fun s => s.t.bools.defined n with
  | some s => s.t.bools.value n
  | none => true

/-- Runs of the solver with the states passed on the way (newest first). The solver starts with an
empty trail and all phases true. Backtracking is `on_before_backtrack` followed by
`Trail::backtrack`, a restart is `on_before_backtrack` for level 0, `Trail::clear` and possibly a
change of the database. The last parameter of a restart is a condition on the variable `n`: it is not
assigned at level 0. -/
inductive Spec.PhaseRun (n : Nat) : Bool → List BS → BS → Prop where
  | start (s : BS) : s.t = s.t.clear → DbOk s → (∀ i, s.phase i = true) → PhaseRun n false [] s
  | propagate {b : Bool} {past : List BS} {s s' : BS} {c : Option Clause} :
      PhaseRun n b past s → Propagates s c s' → PhaseRun n true (s :: past) s'
  | assign {past : List BS} {s : BS} {v : Var} {r : Option Nat} {lvl : Nat} {x : Val} :
      PhaseRun n true past s → s.t.Pre (.propagate v r lvl x) →
      PhaseRun n true (s :: past) { s with t := s.t.step (.propagate v r lvl x) }
  | decide {past : List BS} {s : BS} {v : Var} {x : Val} :
      PhaseRun n true past s → s.t.Pre (.decide v x) →
      PhaseRun n true (s :: past) { s with t := s.t.step (.decide v x) }
  | learn {past : List BS} {s : BS} {c : Clause} :
      PhaseRun n true past s → ClauseOk s c → PhaseRun n true (s :: past) (s.learnClause c)
  | backtrack {past : List BS} {s : BS} {lvl : Nat} :
      PhaseRun n true past s → lvl ≤ s.t.decisionLevel →
      PhaseRun n true (s :: past) (s.backtrackTo lvl)
  | resize {past : List BS} {s : BS} {k : Nat} :
      PhaseRun n true past s → s.t.bools.num ≤ k → PhaseRun n true (s :: past) (s.resizeBool k)
  | resizeRat {past : List BS} {s : BS} {k : Nat} :
      PhaseRun n true past s → s.t.rats.num ≤ k →
      PhaseRun n true (s :: past) { s with t := s.t.resize .rational k }
  | restart {past : List BS} {s s' : BS} {cs : List Clause} :
      PhaseRun n true past s → s' = { s.onBeforeBacktrack 0 with t := s.t.clear, cls := cs } →
      DbOk s' → s.t.level (.bool n) ≠ some 0 → PhaseRun n false (s :: past) s'

open Spec

theorem phaseRun_any {n : Nat} {b : Bool} {past : List BS} {s : BS} (h : PhaseRun n b past s) :
    AnyHist b s := by
  induction h with
  | start s h1 h2 => exact .start s h1 h2
  | propagate _ hp ih => exact .propagate ih hp
  | assign _ hp ih => exact .assign ih hp
  | decide _ hp ih => exact .decide ih hp
  | learn _ hp ih => exact .learn ih hp
  | backtrack _ hp ih => exact .backtrack ih hp
  | resize _ hp ih => exact .resizeBool ih hp
  | resizeRat _ hp ih => exact .resizeRat ih hp
  | restart _ e hdb _ ih => exact .start _ (by rw [e]; rfl) hdb

theorem foldl_savePhase (m : PModel Bool) (as : List (Asg Nat)) (ph : Nat → Bool) (n : Nat) :
    as.foldl (savePhase m) ph n =
      if ∃ a ∈ as, a.var = .bool n then m.value n else ph n := by
  induction as generalizing ph with
  | nil => simp
  | cons a as ih =>
    rw [List.foldl_cons, ih]
    have key : savePhase m ph a n = if a.var = .bool n then m.value n else ph n := by
      unfold savePhase
      rcases ha : a.var with ⟨ty, o⟩
      cases ty
      · by_cases ho : o = n
        · subst ho; simp [Var.bool]
        · simp [Var.bool, ho, Function.update_of_ne (Ne.symm ho)]
      · simp [Var.bool]
    by_cases h1 : ∃ a ∈ as, a.var = .bool n
    · rw [if_pos h1, if_pos (by obtain ⟨b, hb, e⟩ := h1; exact ⟨b, by simp [hb], e⟩)]
    · rw [if_neg h1, key]
      by_cases h2 : a.var = .bool n
      · rw [if_pos h2, if_pos ⟨a, by simp, h2⟩]
      · rw [if_neg h2, if_neg]
        rintro ⟨b, hb, e⟩
        rcases List.mem_cons.1 hb with rfl | hb
        · exact h2 e
        · exact h1 ⟨b, hb, e⟩

open Classical in
/-- What `on_before_backtrack` writes to the cache: the current value of every variable listed above
the level. -/
theorem phase_onBeforeBacktrack (s : BS) (lvl n : Nat) : (s.onBeforeBacktrack lvl).phase n =
    if ∃ i, lvl < i ∧ i ≤ s.t.decisionLevel ∧ ∃ a ∈ s.t.assigned i, a.var = .bool n
    then s.t.bools.value n else s.phase n := by
  have key : ∀ (ls : List (List (Asg Nat))) (ph : Nat → Bool),
      ls.foldl (fun ph as => as.foldl (savePhase s.t.bools) ph) ph n =
        if ∃ as ∈ ls, ∃ a ∈ as, a.var = .bool n then s.t.bools.value n else ph n := by
    intro ls
    induction ls with
    | nil => simp
    | cons as ls ih =>
      intro ph
      rw [List.foldl_cons, ih, foldl_savePhase]
      by_cases h1 : ∃ as ∈ ls, ∃ a ∈ as, a.var = .bool n
      · rw [if_pos h1, if_pos (by obtain ⟨b, hb, e⟩ := h1; exact ⟨b, by simp [hb], e⟩)]
      · rw [if_neg h1]
        by_cases h2 : ∃ a ∈ as, a.var = .bool n
        · rw [if_pos h2, if_pos ⟨as, by simp, h2⟩]
        · rw [if_neg h2, if_neg]
          rintro ⟨b, hb, e⟩
          rcases List.mem_cons.1 hb with rfl | hb
          · exact h2 e
          · exact h1 ⟨b, hb, e⟩
  show (((List.range' (lvl + 1) (s.t.decisionLevel - lvl)).reverse.map s.t.assigned).foldl
      (fun ph as => as.foldl (savePhase s.t.bools) ph) s.phase) n = _
  rw [key]
  refine if_congr ?_ rfl rfl
  constructor
  · rintro ⟨as, has, a, ha, e⟩
    simp only [List.mem_map, List.mem_reverse, List.mem_range'_1] at has
    obtain ⟨i, ⟨h1, h2⟩, rfl⟩ := has
    exact ⟨i, by omega, by omega, a, ha, e⟩
  · rintro ⟨i, h1, h2, a, ha, e⟩
    refine ⟨s.t.assigned i, ?_, a, ha, e⟩
    simp only [List.mem_map, List.mem_reverse, List.mem_range'_1]
    exact ⟨i, ⟨by omega, by omega⟩, rfl⟩

theorem defined_iff_level {t : Trail Nat} (hi : t.Inv) (n : Nat) :
    t.bools.defined n = true ↔ ∃ l, t.level (.bool n) = some l := hi.defined (.bool n)

theorem not_defined_iff_level {t : Trail Nat} (hi : t.Inv) (n : Nat) :
    t.bools.defined n = false ↔ t.level (.bool n) = none := by
  have := defined_iff_level hi n
  rcases h1 : t.bools.defined n with _ | _ <;> rcases h2 : t.level (.bool n) with _ | l <;> simp_all

/-- The value saved for a variable that backtracking unassigns; other unassigned variables keep
theirs. -/
theorem phase_onBeforeBacktrack_level {s : BS} (hi : s.t.Inv) (lvl n : Nat) :
    (∀ l, s.t.level (.bool n) = some l → lvl < l →
      (s.onBeforeBacktrack lvl).phase n = s.t.bools.value n) ∧
    (s.t.level (.bool n) = none → (s.onBeforeBacktrack lvl).phase n = s.phase n) := by
  rw [phase_onBeforeBacktrack]
  constructor
  · intro l hl hlt
    obtain ⟨xs, h1, a, ha, e⟩ := hi.own _ _ hl
    rw [if_pos ⟨l, hlt, hi.bound _ _ hl, a, by simpa [Trail.assigned, h1] using ha, e⟩]
  · intro hl
    rw [if_neg]
    rintro ⟨i, h1, h2, a, ha, e⟩
    have hlen := hi.length_pos
    have hi' : i < s.t.levels.length := by simp only [Trail.decisionLevel] at h2; omega
    obtain ⟨l, h3, -⟩ := hi.listed i _ a (List.getElem?_eq_getElem hi')
      (by simpa [Trail.assigned, hi'] using ha)
    rw [e, hl] at h3; cases h3

/-- C49, phase saving. In every run, a Boolean variable that is not assigned has as cached phase the
value it had when it was last assigned, or `true` if it never was. The variable must not be assigned
at level 0 when the solver restarts. -/
theorem C49_phase_saving_partial {n : Nat} {b : Bool} {past : List BS} {s : BS} (h : PhaseRun n b past s)
    (hu : s.t.bools.defined n = false) : s.phase n = lastValue n past := by
  -- undeclared variables were never assigned
  have hnum : ∀ {b past s}, PhaseRun n b past s → s.t.bools.num ≤ n →
      ∀ s' ∈ past, s'.t.bools.defined n = false := by
    intro b past s h
    have hundef : ∀ {s : BS}, s.t.Inv → s.t.bools.num ≤ n → s.t.bools.defined n = false := by
      intro s hi hn
      rw [not_defined_iff_level hi]
      rcases hl : s.t.level (.bool n) with _ | l
      · rfl
      · have : n < s.t.bools.num := hi.range _ _ hl
        omega
    have step : ∀ {s s' : BS} {past : List BS}, s.t.Inv → s.t.bools.num ≤ s'.t.bools.num →
        (s.t.bools.num ≤ n → ∀ s' ∈ past, s'.t.bools.defined n = false) →
        s'.t.bools.num ≤ n → ∀ x ∈ s :: past, x.t.bools.defined n = false := by
      intro s s' past hi hle ih hn x hx
      rcases List.mem_cons.1 hx with rfl | hx
      · exact hundef hi (by omega)
      · exact ih (by omega) x hx
    induction h with
    | start => simp
    | @propagate b past s s' c h hp ih =>
      have hb := anyHist_base (phaseRun_any h)
      obtain ⟨s0, -, e2, -, -, -, -, -, hx, -⟩ := propagates_spec (Q := fun _ => False) hb.inv hb.db
        (fun h => hb.ws (Or.inr h)) (by simp) (by simp) hp
      have : s'.t.bools.num = s.t.bools.num := by
        rw [← e2]; exact congrFun hx.num .boolean
      exact step hb.inv (by omega) ih
    | @assign past s v r lvl x h hp ih =>
      exact step (anyHist_base (phaseRun_any h)).inv (le_of_eq (by
        show _ = ((s.t.propagate v r lvl).setValue v x).bools.num
        rw [numBools_setValue]; rfl)) ih
    | @decide past s v x h hp ih =>
      exact step (anyHist_base (phaseRun_any h)).inv (le_of_eq (by
        show _ = ((s.t.decide v).setValue v x).bools.num
        rw [numBools_setValue]; rfl)) ih
    | @learn past s c h hc ih =>
      have ht : (s.learnClause c).t = s.t := by
        unfold learnClause; rcases c with _ | ⟨a, _ | ⟨b, c⟩⟩ <;> rfl
      exact step (anyHist_base (phaseRun_any h)).inv (by rw [ht]) ih
    | @backtrack past s lvl h hl ih =>
      have hi := (anyHist_base (phaseRun_any h)).inv
      exact step hi (le_of_eq (numBools_backtrack hi hl).symm) ih
    | @resize past s k h hk ih =>
      exact step (anyHist_base (phaseRun_any h)).inv hk ih
    | @resizeRat past s k h hk ih =>
      exact step (anyHist_base (phaseRun_any h)).inv le_rfl ih
    | @restart past s s' cs h e _ _ ih =>
      exact step (anyHist_base (phaseRun_any h)).inv (by rw [e]; rfl) ih
  -- if the variable is not assigned before and the phase does not change, nothing changes
  have same : ∀ {s s' : BS} {past : List BS}, s.t.Inv →
      (s.t.bools.defined n = false → s.phase n = lastValue n past) →
      (s'.t.bools.defined n = false → s.t.bools.defined n = false) →
      s'.phase n = s.phase n → s'.t.bools.defined n = false →
      s'.phase n = lastValue n (s :: past) := by
    intro s s' past hi ih hd hp hu
    have h1 := hd hu
    rw [hp, ih h1]
    simp [lastValue, h1]
  induction h with
  | start s h1 h2 h3 => simp [lastValue, h3]
  | @propagate b past s s' c h hp ih =>
    have hb := anyHist_base (phaseRun_any h)
    obtain ⟨s0, -, e2, -, e4, -, -, -, hx, b1, -⟩ := propagates_spec (Q := fun _ => False) hb.inv hb.db
      (fun h => hb.ws (Or.inr h)) (by simp) (by simp) hp
    refine same hb.inv ih (fun hd => ?_) (by rw [hx.phase, e4]) hu
    rw [not_defined_iff_level hb.inv]
    rw [not_defined_iff_level b1] at hd
    rcases hl : s.t.level (.bool n) with _ | l
    · rfl
    · rw [← e2] at hl; rw [(hx.old _ _ hl).1] at hd; cases hd
  | @assign past s v r lvl x h hp ih =>
    refine same (anyHist_base (phaseRun_any h)).inv ih (fun hd => ?_) rfl hu
    rcases v with ⟨tv, ov⟩
    cases tv <;> cases x <;> simp [Trail.step, Trail.setValue, Trail.propagate, PModel.setValue,
      Function.update_apply] at hd
    · exact hd.2
    all_goals exact hd
  | @decide past s v x h hp ih =>
    refine same (anyHist_base (phaseRun_any h)).inv ih (fun hd => ?_) rfl hu
    rcases v with ⟨tv, ov⟩
    cases tv <;> cases x <;> simp [Trail.step, Trail.setValue, Trail.decide, PModel.setValue,
      Function.update_apply] at hd
    · exact hd.2
    all_goals exact hd
  | @learn past s c h hc ih =>
    have ht : (s.learnClause c).t = s.t ∧ (s.learnClause c).phase = s.phase := by
      unfold learnClause; rcases c with _ | ⟨a, _ | ⟨b, c⟩⟩ <;> exact ⟨rfl, rfl⟩
    exact same (anyHist_base (phaseRun_any h)).inv ih (fun hd => by rwa [ht.1] at hd) (by rw [ht.2]) hu
  | @backtrack past s lvl h hl ih =>
    have hi := (anyHist_base (phaseRun_any h)).inv
    obtain ⟨p1, p2⟩ := phase_onBeforeBacktrack_level hi lvl n
    obtain ⟨b1, b2, b3, -⟩ := Trail.backtrack_spec hi lvl hl
    rcases hlv : s.t.level (.bool n) with _ | l
    · exact same hi ih (fun _ => (not_defined_iff_level hi n).2 hlv) (p2 hlv) hu
    · have hlt : lvl < l := by
        by_contra hle
        have h1 := (b3 (.bool n) (by intro l' h'; rw [hlv] at h'; cases h'; omega)).1
        have hu : (s.t.backtrack lvl).bools.defined n = false := hu
        rw [not_defined_iff_level (Trail.backtrack_inv hi lvl hl)] at hu
        rw [h1, hlv] at hu; cases hu
      have hd : s.t.bools.defined n = true := (defined_iff_level hi n).2 ⟨l, hlv⟩
      show (s.onBeforeBacktrack lvl).phase n = _
      rw [p1 l hlv hlt]
      simp [lastValue, hd]
  | @resize past s k h hk ih =>
    have hi := (anyHist_base (phaseRun_any h)).inv
    by_cases hn : n < s.t.bools.num
    · refine same hi ih (fun hd => ?_) ?_ hu
      · have hd : (if n < s.t.bools.num ∧ n < k then s.t.bools.defined n else false) = false := hd
        rwa [if_pos ⟨hn, by omega⟩] at hd
      · show (if n < s.t.bools.num ∧ n < k then s.phase n else true) = _
        rw [if_pos ⟨hn, by omega⟩]
    · have h1 : ∀ x ∈ s :: past, x.t.bools.defined n = false := by
        intro x hx
        rcases List.mem_cons.1 hx with rfl | hx
        · rw [not_defined_iff_level hi]
          rcases hl : x.t.level (.bool n) with _ | l
          · rfl
          · have : n < x.t.bools.num := hi.range _ _ hl
            omega
        · exact hnum h (by omega) x hx
      show (if n < s.t.bools.num ∧ n < k then s.phase n else true) = _
      rw [if_neg (by omega)]
      have : (s :: past).find? (fun s => s.t.bools.defined n) = none := by
        rw [List.find?_eq_none]; intro x hx; simp [h1 x hx]
      simp [lastValue, this]
  | @resizeRat past s k h hk ih =>
    exact same (anyHist_base (phaseRun_any h)).inv ih id rfl hu
  | @restart past s s' cs h e _ hz ih =>
    have hi := (anyHist_base (phaseRun_any h)).inv
    obtain ⟨p1, p2⟩ := phase_onBeforeBacktrack_level hi 0 n
    have hp : s'.phase n = (s.onBeforeBacktrack 0).phase n := by rw [e]
    rcases hlv : s.t.level (.bool n) with _ | l
    · exact same hi ih (fun _ => (not_defined_iff_level hi n).2 hlv) (hp.trans (p2 hlv)) hu
    · have hd : s.t.bools.defined n = true := (defined_iff_level hi n).2 ⟨l, hlv⟩
      have hl0 : 0 < l := by
        rcases Nat.eq_zero_or_pos l with h0 | h0
        · rw [hlv, h0] at hz; simp at hz
        · exact h0
      rw [hp, p1 l hlv hl0]
      simp [lastValue, hd]

/-- The condition on restarts is needed: `Solver::restart` saves phases above level 0 only, but
clears the whole trail. A variable that is false at level 0 has phase `true` after the restart. -/
theorem C49_restart_loses_level_zero :
    ∃ (s s' : BS) (n : Nat), AnyHist true s ∧ s' = { s.onBeforeBacktrack 0 with t := s.t.clear } ∧
      s.t.bools.defined n = true ∧ s.t.bools.value n = false ∧ s'.phase n = true := by
  refine ⟨((propLoop 5 (Ex.state 1 [[(Lit.pos 0).neg]]).initProp).getD (none, Ex.s0)).2, _, 0,
    .propagate (c := none) (.start (Ex.state 1 [[(Lit.pos 0).neg]]) rfl ⟨by decide, by decide⟩)
      ⟨5, rfl⟩, rfl, by decide, by decide, by decide⟩

/-- Not vacuous: decide x2 false, backtrack; the cached phase of x2 is false. -/
example : ∃ past s, PhaseRun 2 true past s ∧ s.t.bools.defined 2 = false ∧ s.phase 2 = false :=
  ⟨_, _, .backtrack (lvl := 0) (.decide (v := .bool 2) (x := .b false)
    (.propagate (c := none) (.start Ex.s0 rfl ⟨by decide, by decide⟩ (fun _ => rfl)) Ex.s0_s1)
    (by simp only [Trail.Pre]; decide)) (by decide), by decide, by decide⟩

example : Ex.s1.t.Inv ∧ 2 < Ex.s1.t.bools.num ∧ Ex.s1.t.level (.bool 2) = none :=
  ⟨(anyHist_base (.propagate Ex.s0_start Ex.s0_s1)).inv, by decide, by decide⟩

#print axioms C49_decide
#print axioms C49_phase_saving_partial
#print axioms C49_restart_loses_level_zero

end Yaga
