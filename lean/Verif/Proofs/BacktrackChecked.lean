/-
`backtrackWithC` does not reach `none` after an analysis.
-/
import Verif.Model.BacktrackChecked
import Verif.Model.QfLra
import Verif.Proofs.Check
import Verif.Proofs.AnalysisChecked

namespace Yaga
open Spec
variable {R : Type}

theorem pickTopC_mem (before : Var → Var → Bool) (t : Trail Nat) (top : Nat) : ∀ (ys : List Lit) (best : Lit),
    (∀ y ∈ ys.takeWhile (fun y => t.level y.var == some top), t.reason y.var = none) →
    ∃ z, pickTopC before t top ys best = some z ∧
      (z = best ∨ z ∈ ys.takeWhile fun y => t.level y.var == some top)
  | [], best, _ => ⟨best, rfl, Or.inl rfl⟩
  | y :: ys, best, h => by
    unfold pickTopC
    by_cases hy : t.level y.var = some top
    · rw [List.takeWhile_cons_of_pos (by simpa using hy)] at h ⊢
      rw [if_pos hy, if_pos (by rw [h y List.mem_cons_self]; rfl)]
      obtain ⟨z, h1, h2⟩ := pickTopC_mem before t top ys (if before y.var best.var then y else best)
        fun z hz => h z (List.mem_cons_of_mem _ hz)
      refine ⟨z, h1, ?_⟩
      rcases h2 with h2 | h2
      · split at h2
        · exact Or.inr (by rw [h2]; exact List.mem_cons_self)
        · exact Or.inl h2
      · exact Or.inr (List.mem_cons_of_mem _ h2)
    · rw [if_neg hy]; exact ⟨best, rfl, Or.inl rfl⟩

theorem allSplitC_eq {t : Trail Nat} {b : Bool} : ∀ (ls : List Clause),
    (∀ c ∈ ls, isSemanticSplitC t c = some b) → allSplitC t b ls = some ()
  | [], _ => rfl
  | c :: cs, h => by
    unfold allSplitC
    rw [if_pos (h c List.mem_cons_self)]
    exact allSplitC_eq cs fun d hd => h d (List.mem_cons_of_mem _ hd)

theorem propHeadsC_eq (L : Nat) : ∀ (ls : List Clause) (r : Nat) (s : BS), L ≤ s.t.decisionLevel →
    (∀ d ∈ ls, ∃ x rest, d = x :: rest ∧ x.ord < s.t.bools.num) →
    propHeadsC L ls r s.t = some (BS.propHeads L ls r s).t
  | [], _, _, _, _ => rfl
  | d :: ls, r, s, hL, h => by
    obtain ⟨x, rest, rfl, hx⟩ := h d List.mem_cons_self
    have h' : ∀ d ∈ ls, ∃ x rest, d = x :: rest ∧ x.ord < s.t.bools.num := fun d hd =>
      h d (List.mem_cons_of_mem _ hd)
    unfold propHeadsC BS.propHeads
    rw [if_pos hx]
    by_cases hd : s.t.bools.defined x.ord = true
    · rw [if_pos hd, if_pos hd]
      exact propHeadsC_eq L ls (r + 1) s hL h'
    · rw [if_neg hd, if_neg hd]
      have : s.t.propagateC x.var (some r) (L : Int) = some (s.t.propagate x.var (some r) L) := by
        unfold Trail.propagateC
        rw [if_pos ⟨by omega, by exact_mod_cast hL, by simpa [Trail.numVars, Lit.var] using hx⟩]
        simp
      rw [this]
      simp only [Option.bind_some]
      refine propHeadsC_eq L ls (r + 1) (s.assignLit x (some r) L) ?_ ?_
      · simpa [BS.assignLit, Trail.setValue, Lit.var, Trail.decisionLevel, Trail.propagate] using hL
      · simpa [BS.assignLit, Trail.setValue, Lit.var, Trail.propagate, PModel.setValue] using h'

theorem backtrackC_eq {t : Trail Nat} (hi : t.Inv) {L : Nat} (hL : L ≤ t.decisionLevel) :
    t.backtrackC (L : Int) = some (t.backtrack L) := by
  unfold Trail.backtrackC
  rw [if_pos (by omega)]
  simp [Trail.decisionLevel_backtrack hi L hL]

/-- The facts about learned clauses that C60 and C67 prove are enough. -/
theorem backtrackWithC_spec {s : BS} (hi : s.t.Inv) {ls : List Clause} (hne : ls ≠ []) {L r : Nat}
    (hlev : ∀ c ∈ ls, ∀ l ∈ c, ∃ n, s.t.level l.var = some n) (hL : L + 1 ≤ s.t.decisionLevel)
    (h : ((∀ d ∈ ls, isSemanticSplit s.t d = true) ∧
        (∀ d ∈ ls, Qf.topLits s.t d ≠ [] ∧ ∀ x ∈ Qf.topLits s.t d, s.t.reason x.var = none ∧
          x.ord < s.t.bools.num ∧ (s.t.backtrack L).level x.var = none) ∧
        (∃ a, (s.t.assigned (L + 1)).head? = some a ∧ a.var.type ≠ .boolean) ∨
      (∀ d ∈ ls, isSemanticSplit s.t d = false) ∧
        ∀ d ∈ ls, ∃ x rest, d = x :: rest ∧ x.ord < s.t.bools.num ∧ (s.t.backtrack L).level x.var = none ∧
          ∀ y ∈ rest, evalLit (s.t.backtrack L).bools y = some false)) (before : Var → Var → Bool) :
    ∃ t', backtrackWithC before s.t ls r (L : Int) = some t' ∧
      ((∃ d ∈ ls.head?, isSemanticSplit s.t d = true ∧ ∃ y ∈ Qf.topLits s.t d,
          t' = ((s.t.backtrack L).decide y.var).setValue y.var (.b (!y.isNeg))) ∨
        ((∀ d ∈ ls, isSemanticSplit s.t d = false) ∧ t' = (BS.propHeads L ls r (s.backtrackTo L)).t)) := by
  have hL' : L ≤ s.t.decisionLevel := by omega
  obtain ⟨-, -, -, -, hnum⟩ := Trail.backtrack_spec hi L hL'
  have hnum' : (s.t.backtrack L).bools.num = s.t.bools.num := congrFun hnum .boolean
  rcases ls with _ | ⟨d, ls⟩
  · exact absurd rfl hne
  have hsp : ∀ c ∈ d :: ls, isSemanticSplitC s.t c = some (isSemanticSplit s.t c) := fun c hc =>
    isSemanticSplitC_eq (hlev c hc)
  unfold backtrackWithC
  simp only
  rw [hsp d List.mem_cons_self]
  simp only [Option.bind_some]
  rcases h with ⟨h1, h2, a, ha, hty⟩ | ⟨h1, h2⟩
  · rw [h1 d List.mem_cons_self, allSplitC_eq (d :: ls) fun c hc => by rw [hsp c hc, h1 c hc]]
    simp only [Option.bind_some, if_true]
    obtain ⟨k1, k2⟩ := h2 d List.mem_cons_self
    rcases d with _ | ⟨x, xs⟩
    · exact absurd rfl k1
    obtain ⟨top, htop⟩ := hlev _ List.mem_cons_self x List.mem_cons_self
    simp only [htop]
    have htl : Qf.topLits s.t (x :: xs) = x :: xs.takeWhile fun y => s.t.level y.var == some top := by
      simp [Qf.topLits, htop]
    rw [htl] at k2
    obtain ⟨z, hz, hm⟩ := pickTopC_mem before s.t top xs x fun y hy => (k2 y (List.mem_cons_of_mem _ hy)).1
    rw [hz]
    simp only [Option.bind_some]
    have hzm : z ∈ x :: xs.takeWhile fun y => s.t.level y.var == some top := by
      rcases hm with rfl | hm
      · exact List.mem_cons_self
      · exact List.mem_cons_of_mem _ hm
    have hLi : (L : Int) + 1 ≤ (s.t.decisionLevel : Int) := by exact_mod_cast hL
    have hto : ((L : Int) + 1).toNat = L + 1 := by omega
    rw [if_pos hLi, hto, ha]
    simp only
    rw [if_neg hty, backtrackC_eq hi hL']
    simp only [Option.bind_some]
    have : (s.t.backtrack L).decideC z.var = some ((s.t.backtrack L).decide z.var) := by
      unfold Trail.decideC
      rw [if_pos]
      show z.ord < (s.t.backtrack L).bools.num
      rw [hnum']; exact (k2 z hzm).2.1
    rw [this]
    exact ⟨_, rfl, Or.inl ⟨_, rfl, h1 _ List.mem_cons_self, z, by rw [htl]; exact hzm, rfl⟩⟩
  · rw [h1 d List.mem_cons_self, allSplitC_eq (d :: ls) fun c hc => by rw [hsp c hc, h1 c hc]]
    simp only [Option.bind_some, Bool.false_eq_true, if_false]
    rw [backtrackC_eq hi hL']
    simp only [Option.bind_some]
    refine ⟨_, propHeadsC_eq L (d :: ls) r (s.backtrackTo L) ?_ ?_, Or.inr ⟨h1, rfl⟩⟩
    · show L ≤ (s.t.backtrack L).decisionLevel
      rw [Trail.decisionLevel_backtrack hi L hL']
    · intro c hc
      obtain ⟨x, rest, e, hx, -⟩ := h2 c hc
      refine ⟨x, rest, e, ?_⟩
      show x.ord < (s.t.backtrack L).bools.num
      rw [hnum']; exact hx

/-- The whole conflict branch. -/
theorem conflictC_spec {s : BS} (hi : s.t.Inv) (hr : ReasonsOk s.clause s.t) {cs : List Clause}
    (hf : ∀ c ∈ cs, ∀ l ∈ c, evalLit s.t.bools l = some false)
    (ha : ∃ learned lvl, analyzeConflicts s.clause s.t cs = some (learned, some lvl) ∧
      ([] ∈ learned ∨ learnSelect s.t learned ≠ [] ∧ ∃ L : Nat, lvl = L ∧ L < s.t.decisionLevel))
    (hb : ∀ (ls : List Clause) (L : Nat), Check.Learned s cs ls L → L + 1 ≤ s.t.decisionLevel ∧
      ((∀ d ∈ ls, isSemanticSplit s.t d = true) ∧
        (∀ d ∈ ls, Qf.topLits s.t d ≠ [] ∧ ∀ x ∈ Qf.topLits s.t d, s.t.reason x.var = none ∧
          x.ord < s.t.bools.num ∧ (s.t.backtrack L).level x.var = none) ∧
        (∃ a, (s.t.assigned (L + 1)).head? = some a ∧ a.var.type ≠ .boolean) ∨
      (∀ d ∈ ls, isSemanticSplit s.t d = false) ∧
        ∀ d ∈ ls, ∃ x rest, d = x :: rest ∧ x.ord < s.t.bools.num ∧ (s.t.backtrack L).level x.var = none ∧
          ∀ y ∈ rest, evalLit (s.t.backtrack L).bools y = some false))
    (before : Var → Var → Bool) (r : Nat) :
    conflictC before (s.t.bools.num * 2) s cs r = some none ∨
      ∃ t ls, ∃ L : Nat, conflictC before (s.t.bools.num * 2) s cs r = some (some t) ∧
        Check.Learned s cs ls L ∧ AfterBacktrack s ls L r t := by
  unfold conflictC
  by_cases h0 : s.t.decisionLevel = 0
  · rw [if_pos h0]; exact Or.inl rfl
  rw [if_neg h0]
  obtain ⟨learned, lvl, e1, e2⟩ := ha
  obtain ⟨a, a1, a2, a3⟩ := analyzeConflictsC_eq hi hr hf
  rw [e1] at a2
  obtain rfl : a = (learned, some lvl) := (Option.some.inj a2).symm
  rw [a1]
  simp only [Option.bind_some]
  by_cases hm : [] ∈ learned
  · rw [if_pos hm]; exact Or.inl rfl
  rw [if_neg hm]
  rcases e2 with e2 | ⟨e2, L, rfl, hL⟩
  · exact absurd e2 hm
  have hlev : ∀ c ∈ learned, ∀ l ∈ c, ∃ n, s.t.level l.var = some n := fun c hc l hl =>
    false_level hi (a3 c hc l hl)
  rw [learnSelectC_eq hlev]
  simp only [Option.bind_some]
  have hl : Check.Learned s cs (learnSelect s.t learned) L := ⟨learned, e1, hm, rfl⟩
  obtain ⟨b1, b2⟩ := hb _ _ hl
  obtain ⟨t, c1, c2⟩ := backtrackWithC_spec (r := r) hi e2
    (fun c hc => hlev c (Check.learnSelect_mem hc)) b1 b2 before
  rw [c1]
  exact Or.inr ⟨t, _, L, rfl, hl, c2⟩

end Yaga
