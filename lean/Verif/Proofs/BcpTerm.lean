/-
Unit propagation terminates.
-/
import Verif.Proofs.Eval
import Verif.Model.BoolTheory
import Mathlib.Data.Finset.Card
import Mathlib.Data.Finset.Range

set_option linter.unusedVariables false

namespace Yaga
namespace BS

/-- All variables in the database and on the stack are smaller than `N`. -/
structure Small (N : Nat) (s : BS) : Prop where
  cls : ∀ c ∈ s.cls, ∀ l ∈ c, l.ord < N
  sat : ∀ e ∈ s.sat, e.1.ord < N

theorem small_clause {N : Nat} {s : BS} (h : Small N s) {r : Nat} : ∀ l ∈ s.clause r, l.ord < N := by
  intro l hl
  simp only [clause, List.getD_eq_getElem?_getD] at hl
  rcases hr : s.cls[r]? with _ | c
  · rw [hr] at hl; simp at hl
  · rw [hr] at hl
    exact h.cls c (List.mem_of_getElem? hr) l (by simpa using hl)

theorem small_setClause {N : Nat} {s : BS} (h : Small N s) {r : Nat} {c : Clause}
    (hc : ∀ l ∈ c, l.ord < N) : Small N (s.setClause r c) := by
  refine ⟨fun d hd => ?_, h.sat⟩
  rcases List.mem_or_eq_of_mem_set hd with hd | rfl
  · exact h.cls d hd
  · exact hc

/-- What a call of `falsified` does to the stack. -/
structure Pushed (N : Nat) (s s' : BS) : Prop where
  t : s'.t = s.t
  small : Small N s'
  top : s'.sat = s.sat ∨ ∃ x r rest, s'.sat = (x, some r) :: rest ∧ s.t.bools.defined x.ord = false

theorem falsifiedLoop_pushed {N : Nat} {f : Lit} (fuel i : Nat) (s : BS) (h : Small N s) :
    Pushed N s (falsifiedLoop f fuel i s).2 := by
  induction fuel generalizing i s with
  | zero => exact ⟨rfl, h, Or.inl rfl⟩
  | succ fuel ih =>
    rw [falsifiedLoop]
    rcases hw : (s.watched f)[i]? with _ | w
    · exact ⟨rfl, h, Or.inl rfl⟩
    simp only
    rcases hc : s.clause w.ref with _ | ⟨a, _ | ⟨b, rest⟩⟩
    · exact ⟨rfl, h, Or.inl rfl⟩
    · exact ⟨rfl, h, Or.inl rfl⟩
    simp only
    have hcl : ∀ l ∈ a :: b :: rest, l.ord < N := hc ▸ small_clause h
    generalize hx : (if a = f then b else a) = x
    generalize hy : (if a = f then a else b) = y
    have hxN : x.ord < N := by
      rw [← hx]; split
      · exact hcl b (by simp)
      · exact hcl a (by simp)
    have hyN : y.ord < N := by
      rw [← hy]; split
      · exact hcl a (by simp)
      · exact hcl b (by simp)
    have hrN : ∀ l ∈ rest, l.ord < N := fun l hl => hcl l (by simp [hl])
    have h1 : Small N (s.setClause w.ref (x :: y :: rest)) := small_setClause h (by
      intro l hl; simp at hl; rcases hl with rfl | rfl | hl
      · exact hxN
      · exact hyN
      · exact hrN l hl)
    have ht1 : (s.setClause w.ref (x :: y :: rest)).t = s.t := rfl
    by_cases hxt : evalLit (s.setClause w.ref (x :: y :: rest)).t.bools x = some true
    · rw [if_pos hxt]
      obtain ⟨g1, g2, g3⟩ := ih (i + 1) _ h1
      exact ⟨g1, g2, g3⟩
    rw [if_neg hxt]
    rcases hk : findWatch (s.setClause w.ref (x :: y :: rest)).t.bools rest (w.idx - 2) rest.length
      (w.idx - 2) with _ | k
    · simp only
      by_cases hxf : evalLit (s.setClause w.ref (x :: y :: rest)).t.bools x = some false
      · rw [if_pos hxf]; exact ⟨rfl, h1, Or.inl rfl⟩
      · rw [if_neg hxf]
        have hnone : s.t.bools.defined x.ord = false := by
          rw [ht1] at hxt hxf
          unfold evalLit at hxt hxf
          rcases hd : s.t.bools.defined x.ord with _ | _
          · rfl
          · exfalso
            rw [hd] at hxt hxf
            rcases hv : s.t.bools.value x.ord with _ | _ <;> rcases hn : x.isNeg with _ | _ <;>
              simp_all
        obtain ⟨g1, g2, g3⟩ := ih (i + 1)
          { s.setClause w.ref (x :: y :: rest) with
            sat := (x, some w.ref) :: (s.setClause w.ref (x :: y :: rest)).sat }
          ⟨h1.cls, by
            intro e he
            rcases List.mem_cons.1 he with rfl | he
            · exact hxN
            · exact h1.sat e he⟩
        refine ⟨g1, g2, Or.inr ?_⟩
        rcases g3 with g3 | ⟨x', r', rest', g3, g4⟩
        · exact ⟨x, _, _, g3, hnone⟩
        · exact ⟨x', r', rest', g3, g4⟩
    · simp only
      have h2 : Small N ((s.setClause w.ref (x :: y :: rest)).setClause w.ref
          (x :: rest.getD k y :: rest.set k y)) := small_setClause h1 (by
        intro l hl
        simp only [List.mem_cons] at hl
        rcases hl with rfl | rfl | hl
        · exact hxN
        · rw [List.getD_eq_getElem?_getD]
          rcases hz : rest[k]? with _ | z
          · simpa using hyN
          · exact hrN _ (by simpa using List.mem_of_getElem? hz)
        · rcases List.mem_or_eq_of_mem_set hl with hl | rfl
          · exact hrN l hl
          · exact hyN)
      obtain ⟨g1, g2, g3⟩ := ih i _ (⟨h2.cls, h2.sat⟩ : Small N
        { ((s.setClause w.ref (x :: y :: rest)).setClause w.ref
            (x :: rest.getD k y :: rest.set k y)).addWatch (rest.getD k y) ⟨w.ref, k + 2⟩ with
          watched := Function.update (((s.setClause w.ref (x :: y :: rest)).setClause w.ref
            (x :: rest.getD k y :: rest.set k y)).addWatch (rest.getD k y) ⟨w.ref, k + 2⟩).watched f
            (swapRemove ((((s.setClause w.ref (x :: y :: rest)).setClause w.ref
            (x :: rest.getD k y :: rest.set k y)).addWatch (rest.getD k y) ⟨w.ref, k + 2⟩).watched f)
            i) })
      exact ⟨g1, g2, g3⟩

/-- Number of unassigned variables smaller than `N`. -/
def free (N : Nat) (m : PModel Bool) : Nat :=
  ((Finset.range N).filter fun n => m.defined n = false).card

/-- The next pop assigns a variable. -/
def willAssign (s : BS) : Bool :=
  match s.sat with
  | (l, some _) :: _ => !s.t.bools.defined l.ord
  | _ => false

/-- First component of the measure. -/
def work (N : Nat) (s : BS) : Nat := 2 * free N s.t.bools + if willAssign s then 0 else 1

theorem propLoop_ends (N : Nat) : ∀ m k (s : BS), work N s = m → s.sat.length = k → Small N s →
    ∃ fuel res, propLoop fuel s = some res := by
  intro m
  induction m using Nat.strong_induction_on with
  | _ m ihm =>
  intro k
  induction k using Nat.strong_induction_on with
  | _ k ihk =>
  intro s hm hk hs
  rcases hsat : s.sat with _ | ⟨⟨lit, reason⟩, rest⟩
  · exact ⟨1, (none, s), by simp [propLoop, hsat]⟩
  generalize hs1 : assignPopped { s with sat := rest } lit reason = s1
  have hlN : lit.ord < N := hs.sat (lit, reason) (by simp [hsat])
  have hs0 : Small N { s with sat := rest } := ⟨hs.cls, fun e he => hs.sat e (by simp [hsat, he])⟩
  have hs1sat : s1.sat = rest := by
    rw [← hs1]; unfold assignPopped; split
    · rfl
    · split <;> rfl
  have hs1cls : s1.cls = s.cls := by
    rw [← hs1]; unfold assignPopped; split
    · rfl
    · split <;> rfl
  have hs1N : Small N s1 := ⟨by rw [hs1cls]; exact hs.cls, by rw [hs1sat]; exact hs0.sat⟩
  have hp := falsifiedLoop_pushed (f := lit.neg) (s1.watched lit.neg).length 0 s1 hs1N
  rcases hr : s1.falsified lit.neg with ⟨_ | c, s2⟩
  · have hs2 : s2 = (falsifiedLoop lit.neg (s1.watched lit.neg).length 0 s1).2 := by
      rw [show falsifiedLoop lit.neg (s1.watched lit.neg).length 0 s1 = s1.falsified lit.neg from rfl,
        hr]
    rw [← hs2] at hp
    -- the rest of the loop terminates
    have hrec : ∃ fuel res, propLoop fuel s2 = some res := by
      by_cases hw : willAssign s = true
      · -- a variable was assigned
        have hlt : work N s2 < m := by
          rw [← hm]
          have hfree : free N s1.t.bools < free N s.t.bools := by
            simp only [willAssign, hsat] at hw
            rcases reason with _ | r
            · simp at hw
            · simp only [Bool.not_eq_true'] at hw
              have : s1.t.bools.defined = Function.update s.t.bools.defined lit.ord true := by
                rw [← hs1]
                simp [assignPopped, hw, Trail.setValue, Trail.propagate, Lit.var, PModel.setValue]
              apply Finset.card_lt_card
              rw [Finset.ssubset_iff_of_subset]
              · exact ⟨lit.ord, by simp [hlN, hw], by simp [this]⟩
              · intro n hn
                simp only [Finset.mem_filter, this, Function.update_apply] at hn ⊢
                refine ⟨hn.1, ?_⟩
                split at hn
                · simp at hn
                · exact hn.2
          simp only [work, hw, if_true, hp.t]
          split <;> omega
        exact ihm _ hlt _ s2 rfl rfl hp.small
      · have ht : s1.t = s.t := by
          rw [← hs1]; unfold assignPopped
          rcases reason with _ | r
          · rfl
          · simp only [willAssign, hsat, Bool.not_eq_true, Bool.not_eq_false'] at hw
            simp only [hw, if_true]
        have hwk : work N s = 2 * free N s.t.bools + 1 := by simp [work, hw]
        rcases hp.top with htop | ⟨x, r, rest', htop, hx⟩
        · have hle : work N s2 ≤ m := by
            rw [← hm, hwk]
            simp only [work, hp.t, ht]
            split <;> omega
          rcases Nat.lt_or_eq_of_le hle with hlt | heq
          · exact ihm _ hlt _ s2 rfl rfl hp.small
          · refine ihk s2.sat.length ?_ s2 heq rfl hp.small
            rw [htop, hs1sat, ← hk, hsat]; simp
        · have hlt : work N s2 < m := by
            rw [← hm, hwk]
            have : willAssign s2 = true := by
              simp only [willAssign, htop, hp.t]; simpa using hx
            simp [work, this, hp.t, ht]
          exact ihm _ hlt _ s2 rfl rfl hp.small
    obtain ⟨fuel, res, hf⟩ := hrec
    refine ⟨fuel + 1, res, ?_⟩
    simp only [propLoop, hsat, hs1, hr]
    exact hf
  · refine ⟨1, (some c, s2), ?_⟩
    simp only [propLoop, hsat, hs1, hr]

theorem exists_small (s : BS) : ∃ N, Small N s := by
  have hl : ∀ c : List Lit, ∃ N, ∀ l ∈ c, l.ord < N := by
    intro c
    induction c with
    | nil => exact ⟨0, by simp⟩
    | cons a c ih =>
      obtain ⟨N, hN⟩ := ih
      refine ⟨max N (a.ord + 1), ?_⟩
      intro l hl
      rcases List.mem_cons.1 hl with rfl | hl
      · omega
      · have := hN l hl; omega
  obtain ⟨N1, h1⟩ := hl s.cls.flatten
  obtain ⟨N2, h2⟩ := hl (s.sat.map Prod.fst)
  refine ⟨max N1 N2, fun c hc l hl => ?_, fun e he => ?_⟩
  · have := h1 l (List.mem_flatten.2 ⟨c, hc, hl⟩); omega
  · have := h2 e.1 (List.mem_map.2 ⟨e, he, rfl⟩); omega

theorem propagates_ends (s : BS) : ∃ c s', Propagates s c s' := by
  obtain ⟨N, hN⟩ := exists_small s.initProp
  obtain ⟨fuel, ⟨c, s'⟩, h⟩ := propLoop_ends N _ _ s.initProp rfl rfl hN
  exact ⟨c, s', fuel, h⟩

end BS
end Yaga
