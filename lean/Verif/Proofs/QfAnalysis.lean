/-
Shape of the clauses that the analysis of conflicts returns.
-/
import Verif.Proofs.QfIter
import Verif.Proofs.CheckProp

namespace Yaga
namespace Qf
open Spec BS Check

/-- The first two literals were assigned at the level above `L`, and literals of that level have no
reason. -/
def SplitAt (s : BS) (L : Nat) (c : Clause) : Prop :=
  ∃ x y rest, c = x :: y :: rest ∧ s.t.level x.var = some (L + 1) ∧ s.t.level y.var = some (L + 1) ∧ x ≠ y ∧
    (∀ l ∈ c, s.t.level l.var = some (L + 1) → s.t.reason l.var = none) ∧
    ∀ l ∈ c, evalLit s.t.bools l = some false

/-- The analysed and minimised clause is empty, asserting or a semantic split. -/
theorem analysed_shape {s : BS} (hi : s.t.Inv) (hr : ReasonsOk s.clause s.t) (ht : Tight s.clause s.t)
    (hz : ZeroReason s.t) {c : Clause} (hf : ∀ l ∈ c, evalLit s.t.bools l = some false) :
    ∃ c' lvl, analyzeOne s.clause s.t c = some (c', lvl) ∧
      ((c' = [] ∧ lvl = -1) ∨ ∃ L : Nat, lvl = L ∧ L < s.t.decisionLevel ∧ (Asserting s L c' ∨ SplitAt s L c')) := by
  obtain ⟨c0, lvl, e1, e2, e3, e4, e5⟩ := analyze_spec hi hr ht hz c hf
  refine ⟨if c0 = [] then c0 else minimize s.clause s.t c0, lvl, by simp [analyzeOne, e1], ?_⟩
  rcases e5 with ⟨rfl, e⟩ | ⟨L, rfl, e5⟩
  · left; simp [e]
  · right
    refine ⟨L, rfl, ?_⟩
    rcases e5 with ⟨x, rest, n, rfl, g2, g3, g4, g5⟩ | ⟨x, y, rest, rfl, g2, g3, g4⟩
    · have hb := hi.bound _ _ g2
      refine ⟨by omega, Or.inl ?_⟩
      rw [if_neg (by simp)]
      set c1 := minimize s.clause s.t (x :: rest) with hc1
      have hsub : c1.Sublist (x :: rest) := minimize_sublist _ _ _
      have hlv : ∀ k, 0 < k → (∃ l ∈ x :: rest, s.t.level l.var = some k) →
          ∃ l ∈ c1, s.t.level l.var = some k := fun k hk he =>
        minimize_levels hi hr ht _ k hk he
      obtain ⟨l, hl, hln⟩ := hlv n (by omega) ⟨x, by simp, g2⟩
      have hlx : l = x := by
        rcases List.mem_cons.1 (hsub.subset hl) with e | e
        · exact e
        · obtain ⟨k, hk, hkL⟩ := g4 l e
          rw [hln] at hk; cases hk; omega
      subst hlx
      have hnd : c1.Nodup := hsub.nodup e3
      have hsort : c1.Pairwise (fun a b => levelOr s.t b ≤ levelOr s.t a) := e4.sublist hsub
      obtain ⟨rest1, hr1, hsub1⟩ : ∃ rest1, c1 = l :: rest1 ∧ rest1.Sublist rest := by
        cases hcc : c1 with
        | nil => rw [hcc] at hl; simp at hl
        | cons z zs =>
          rw [hcc] at hsub hl
          cases hsub with
          | cons _ hs =>
            exfalso
            have := hs.subset hl
            exact (List.nodup_cons.1 e3).1 this
          | cons_cons _ hs => exact ⟨zs, rfl, hs⟩
      refine ⟨l, rest1, hr1, ⟨n, g2, g3⟩, ?_, ?_, ?_⟩
      · intro m hm
        have hm' := hsub1.subset hm
        obtain ⟨k, hk, hkL⟩ := g4 m hm'
        exact ⟨e2 m (by simp [hm']), k, hkL, hk⟩
      · intro he
        rcases g5 with ⟨-, g5⟩ | ⟨y, ys, g5, g6⟩
        · exact g5
        · by_contra hL0
          obtain ⟨l', hl', hl'L⟩ := hlv L (by omega) ⟨y, by simp [g5], g6⟩
          rw [hr1, he] at hl'
          rw [List.mem_singleton] at hl'
          subst hl'
          rw [g2] at hl'L; cases hl'L; omega
      · intro y ys he
        have hy' := hsub1.subset (show y ∈ rest1 by rw [he]; simp)
        obtain ⟨k, hk, hkL⟩ := g4 y hy'
        rcases Nat.eq_zero_or_pos L with hL0 | hLpos
        · rw [hk]; congr 1; omega
        · rcases g5 with ⟨g5, -⟩ | ⟨z, zs, g5, g6⟩
          · rw [g5] at hy'; simp at hy'
          · obtain ⟨l', hl', hl'L⟩ := hlv L hLpos ⟨z, by simp [g5], g6⟩
            rw [hr1] at hl'
            rcases List.mem_cons.1 hl' with rfl | hl'
            · rw [g2] at hl'L; cases hl'L; omega
            · rw [he] at hl'
              rcases List.mem_cons.1 hl' with rfl | hl'
              · exact hl'L
              · rw [hr1, he] at hsort
                have := (List.pairwise_cons.1 (List.pairwise_cons.1 hsort).2).1 l' hl'
                rw [levelOr_of_level hl'L, levelOr_of_level hk] at this
                rw [hk]; congr 1; omega
    · have hb := hi.bound _ _ g2
      refine ⟨by omega, Or.inr ?_⟩
      rw [if_neg (by simp)]
      have hkeep : ∀ l ∈ x :: y :: rest, s.t.level l.var = some (L + 1) →
          l ∈ minimize s.clause s.t (x :: y :: rest) := by
        intro l hl hlv
        by_contra hn
        obtain ⟨-, r, h1, -⟩ := minimize_removed _ _ _ l hl hn
        rw [g4 l hl hlv] at h1; cases h1
      have hx := hkeep x (by simp) g2
      have hy := hkeep y (by simp) g3
      have hsub := minimize_sublist s.clause s.t (x :: y :: rest)
      generalize minimize s.clause s.t (x :: y :: rest) = c1 at *
      have hxn := (List.nodup_cons.1 e3).1
      have hyn := (List.nodup_cons.1 (List.nodup_cons.1 e3).2).1
      cases hsub with
      | cons _ hs => exact absurd (hs.subset hx) hxn
      | cons_cons _ hs =>
        cases hs with
        | cons _ hs =>
          rcases List.mem_cons.1 hy with e | e
          · rw [e] at hxn; simp at hxn
          · exact absurd (hs.subset e) hyn
        | @cons_cons zs _ _ hs =>
          refine ⟨x, y, _, rfl, g2, g3, ?_, fun l hl => g4 l ?_, fun l hl => e2 l ?_⟩
          · rintro rfl; simp at hxn
          · exact ((hs.cons_cons y).cons_cons x).subset hl
          · exact ((hs.cons_cons y).cons_cons x).subset hl

theorem asserting_noSplit {s : BS} {L : Nat} {c : Clause} (h : Asserting s L c) : isSemanticSplit s.t c = false := by
  obtain ⟨x, rest, rfl, ⟨k, hk, hkL⟩, -, -, h4⟩ := h
  cases rest with
  | nil => rfl
  | cons y ys =>
    have := h4 y ys rfl
    simp [isSemanticSplit, hk, this]; omega

theorem splitAt_split {s : BS} {L : Nat} {c : Clause} (h : SplitAt s L c) : isSemanticSplit s.t c = true := by
  obtain ⟨x, y, rest, rfl, h1, h2, -⟩ := h
  simp [isSemanticSplit, h1, h2]

theorem selectLowest_level (rs : List (Clause × Int)) (P : Clause → Int → Prop) (hr : ∀ p ∈ rs, P p.1 p.2) :
    ∀ (acc : List Clause × Option Int), (∀ c ∈ acc.1, ∃ l, acc.2 = some l ∧ P c l) →
      ∀ c ∈ (selectLowest rs acc).1, ∃ l, (selectLowest rs acc).2 = some l ∧ P c l := by
  induction rs with
  | nil => intro acc h; exact h
  | cons p rs ih =>
    intro acc h
    obtain ⟨c, l⟩ := p
    obtain ⟨cs, o⟩ := acc
    have hp := hr (c, l) (by simp)
    have ih' := ih (fun p hp => hr p (by simp [hp]))
    cases o with
    | none =>
      rw [selectLowest]
      refine ih' _ ?_
      intro d hd; simp at hd; subst hd; exact ⟨l, rfl, hp⟩
    | some lvl =>
      rw [selectLowest]
      split
      · refine ih' _ ?_
        intro d hd; simp at hd; subst hd; exact ⟨l, rfl, hp⟩
      · split
        · rename_i e
          refine ih' _ ?_
          intro d hd
          rcases List.mem_append.1 hd with hd | hd
          · exact h d hd
          · simp at hd; subst hd; exact ⟨lvl, rfl, by rw [← e]; exact hp⟩
        · exact ih' _ h

theorem mapM_spec {α β : Type} {f : α → Option β} {P : β → Prop} (xs : List α) (h : ∀ x ∈ xs, ∃ y, f x = some y ∧ P y) :
    ∃ ys, xs.mapM f = some ys ∧ (∀ y ∈ ys, P y) ∧ (xs ≠ [] → ys ≠ []) := by
  induction xs with
  | nil => exact ⟨[], rfl, by simp, by simp⟩
  | cons x xs ih =>
    obtain ⟨y, h1, h2⟩ := h x (by simp)
    obtain ⟨ys, h3, h4, -⟩ := ih fun x hx => h x (by simp [hx])
    refine ⟨y :: ys, by simp [List.mapM_cons, h1, h3], ?_, by simp⟩
    intro z hz
    rcases List.mem_cons.1 hz with rfl | hz
    · exact h2
    · exact h4 z hz

/-- The analysis of conflicts does not throw; the clauses it returns are asserting or semantic splits at
the level to backtrack to, or empty. -/
theorem conflicts_shape {s : BS} (hi : s.t.Inv) (hr : ReasonsOk s.clause s.t) (ht : Tight s.clause s.t)
    (hz : ZeroReason s.t) {cs : List Clause} (hne : cs ≠ [])
    (hf : ∀ c ∈ cs, ∀ l ∈ c, evalLit s.t.bools l = some false) :
    ∃ learned lvl, analyzeConflicts s.clause s.t cs = some (learned, some lvl) ∧ learned ≠ [] ∧
      ∀ c ∈ learned, (c = [] ∧ lvl = -1) ∨ ∃ L : Nat, lvl = L ∧ L < s.t.decisionLevel ∧
        (Asserting s L c ∨ SplitAt s L c) := by
  obtain ⟨rs, h1, h2, h3⟩ := mapM_spec (P := fun p : Clause × Int => (p.1 = [] ∧ p.2 = -1) ∨ ∃ L : Nat, p.2 = L ∧
    L < s.t.decisionLevel ∧ (Asserting s L p.1 ∨ SplitAt s L p.1)) cs (f := analyzeOne s.clause s.t) (by
      intro c hc
      obtain ⟨c', lvl, e1, e2⟩ := analysed_shape hi hr ht hz (hf c hc)
      exact ⟨_, e1, e2⟩)
  have hsl := selectLowest_level rs (fun c l => (c = [] ∧ l = -1) ∨ ∃ L : Nat, l = L ∧
    L < s.t.decisionLevel ∧ (Asserting s L c ∨ SplitAt s L c)) h2 ([], none) (by simp)
  have hnn : (selectLowest rs ([], none)).1 ≠ [] := by
    cases rs with
    | nil => exact absurd rfl (h3 hne)
    | cons p rs => obtain ⟨c, l⟩ := p; rw [selectLowest]; exact selectLowest_ne _ _ _ (by simp)
  obtain ⟨c, hc⟩ := List.exists_mem_of_ne_nil _ hnn
  obtain ⟨l, hl, -⟩ := hsl c hc
  refine ⟨(selectLowest rs ([], none)).1, l, ?_, hnn, ?_⟩
  · simp only [analyzeConflicts, h1, Option.map_some]
    rw [← hl]
  · intro d hd
    obtain ⟨l', e1, e2⟩ := hsl d hd
    rw [hl] at e1; cases e1; exact e2

/-- The clauses to learn. -/
theorem learned_shape {s : BS} (hi : s.t.Inv) (hr : ReasonsOk s.clause s.t) (ht : Tight s.clause s.t)
    (hz : ZeroReason s.t) {cs ls : List Clause} {lvl : Int} (hne : cs ≠ [])
    (hf : ∀ c ∈ cs, ∀ l ∈ c, evalLit s.t.bools l = some false) (hl : Learned s cs ls lvl) :
    ∃ L : Nat, lvl = L ∧ L < s.t.decisionLevel ∧
      ((∀ c ∈ ls, Asserting s L c) ∨ ∀ c ∈ ls, SplitAt s L c) ∧ ls ≠ [] := by
  obtain ⟨learned, h1, h2, rfl⟩ := hl.analysed
  obtain ⟨learned', lvl', g1, g2, g3⟩ := conflicts_shape hi hr ht hz hne hf
  rw [h1] at g1
  cases g1
  have hall : ∀ c ∈ learned, ∃ L : Nat, lvl = L ∧ L < s.t.decisionLevel ∧ (Asserting s L c ∨ SplitAt s L c) := by
    intro c hc
    rcases g3 c hc with ⟨rfl, -⟩ | h
    · exact absurd hc h2
    · exact h
  obtain ⟨c, hc⟩ := List.exists_mem_of_ne_nil _ g2
  obtain ⟨L, rfl, hL, -⟩ := hall c hc
  have hall' : ∀ c ∈ learned, Asserting s L c ∨ SplitAt s L c := by
    intro c hc
    obtain ⟨L', e, -, h⟩ := hall c hc
    have : L' = L := by omega
    subst this; exact h
  have hmem := fun c => (uniq_sort_clauses learned).2 c
  refine ⟨L, rfl, hL, ?_⟩
  unfold learnSelect
  simp only
  split
  · rename_i hany
    refine ⟨Or.inl ?_, ?_⟩
    · intro c hc
      obtain ⟨k1, k2⟩ := List.mem_filter.1 hc
      rcases hall' c ((hmem c).1 k1) with h | h
      · exact h
      · rw [splitAt_split h] at k2; cases k2
    · obtain ⟨c, k1, k2⟩ := List.any_eq_true.1 hany
      exact List.ne_nil_of_mem (List.mem_filter.2 ⟨k1, k2⟩)
  · rename_i hany
    refine ⟨Or.inr ?_, List.ne_nil_of_mem ((hmem c).2 hc)⟩
    intro c hc
    rcases hall' c ((hmem c).1 hc) with h | h
    · exfalso
      apply hany
      exact List.any_eq_true.2 ⟨c, hc, by rw [asserting_noSplit h]; rfl⟩
    · exact h

end Qf
end Yaga
