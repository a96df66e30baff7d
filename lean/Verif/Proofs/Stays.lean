/-
The term manager makes constants, functions and applications of functions only when it is asked to.
-/
import Verif.Proofs.ScriptMeaning

set_option linter.unusedSectionVars false

namespace Yaga

open Spec TermTable

variable {H : TermHash}

/-- A property of the terms of a table that new terms do not change, except constants, functions and applications. -/
class Closed (M : List TEntry → Prop) : Prop where
  append : ∀ l e, M l → e.kind ≠ .app → e.kind ≠ .uninterpreted → M (l ++ [e])

/-- The property holds. -/
def Stays (M : List TEntry → Prop) (s : TermTable) : Prop := M s.terms

namespace Stays

variable {M : List TEntry → Prop} [Closed M] {s : TermTable}

theorem construct (h : Stays M s) {e : TEntry} (he : e.kind ≠ .app ∧ e.kind ≠ .uninterpreted) :
    Stays M (s.construct e).1 :=
  Closed.append (M := M) s.terms e h he.1 he.2

theorem get (h : Stays M s) {n : Nat} {e : TEntry} (he : e.kind ≠ .app ∧ e.kind ≠ .uninterpreted) :
    Stays M (s.get n e).1 := by
  unfold TermTable.get
  split
  · exact h
  · exact h.construct he

theorem composite (h : Stays M s) {k : Kind} (hk : k ≠ .app ∧ k ≠ .uninterpreted) (ty : Ty) (as : List Tm) :
    Stays M (s.composite H k ty as).1 := h.get hk

theorem arithConstant (h : Stays M s) (q : ℚ) : Stays M (s.arithConstant H q).1 := h.get ⟨nofun, nofun⟩

theorem arithProduct (h : Stays M s) (q : ℚ) (t : Tm) : Stays M (s.arithProduct H q t).1 :=
  (h.arithConstant q).composite (by decide) _ _

theorem mkOr (h : Stays M s) (as : List Tm) : Stays M (s.mkOr H as).1 := by
  unfold TermTable.mkOr
  split
  · exact h
  split
  · exact h
  split
  · exact h
  split
  · exact h
  · exact h.composite (by decide) _ _

theorem mkAnd (h : Stays M s) (as : List Tm) : Stays M (s.mkAnd H as).1 := h.mkOr _

theorem mkBinaryOr (h : Stays M s) (x y : Tm) : Stays M (s.mkBinaryOr H x y).1 := by
  unfold TermTable.mkBinaryOr
  split_ifs <;> first | exact h | exact h.composite (by decide) _ _

theorem mkBinaryAnd (h : Stays M s) (x y : Tm) : Stays M (s.mkBinaryAnd H x y).1 := h.mkBinaryOr _ _

theorem mkImplies (h : Stays M s) (x y : Tm) : Stays M (s.mkImplies H x y).1 := h.mkBinaryOr _ _

theorem mkIff (h : Stays M s) (x y : Tm) : Stays M (s.mkIff H x y).1 :=
  ((h.mkImplies x y).mkImplies y x).mkBinaryAnd _ _

theorem mkXor (h : Stays M s) (x y : Tm) : Stays M (s.mkXor H x y).1 :=
  ((h.mkBinaryOr x y).mkBinaryAnd x y).mkBinaryAnd _ _

theorem ite_ {c : Prop} [Decidable c] {x y : TermTable × Tm} (hx : Stays M x.1) (hy : Stays M y.1) :
    Stays M (if c then x else y).1 := by
  by_cases hc : c
  · rw [if_pos hc]; exact hx
  · rw [if_neg hc]; exact hy

theorem mkBoolIte (h : Stays M s) (c t e : Tm) : Stays M (s.mkBoolIte H c t e).1 := by
  unfold TermTable.mkBoolIte
  refine ite_ h (ite_ h (ite_ h (ite_ (h.mkIff _ _) (ite_ (h.mkBinaryOr _ _) (ite_ (h.mkBinaryAnd _ _)
    (ite_ (h.mkBinaryAnd _ _) (ite_ (h.mkBinaryOr _ _) (ite_ (h.mkBinaryOr _ _) (ite_ (h.mkBinaryAnd _ _)
      (ite_ (h.mkBinaryAnd _ _) (ite_ (h.mkBinaryOr _ _) ?_)))))))))))
  exact ((h.mkImplies _ _).mkImplies _ _).mkBinaryAnd _ _

theorem monoToTerm (h : Stays M s) (m : Option Tm × ℚ) : Stays M (s.monoToTerm H m).1 := by
  unfold TermTable.monoToTerm
  split
  · exact h.arithConstant _
  · split
    · exact h
    · exact h.arithProduct _ _

theorem monosToTerms : ∀ (ms : APoly) {s : TermTable}, Stays M s → Stays M (s.monosToTerms H ms).1
  | [], _, h => h
  | m :: ms, _, h => monosToTerms ms (h.monoToTerm m)

theorem polyToTerm (h : Stays M s) (p : APoly) : Stays M (s.polyToTerm H p).1 := by
  unfold TermTable.polyToTerm
  split
  · exact h
  · exact h.monoToTerm _
  · exact (monosToTerms _ h).composite (by decide) _ _

/-- What a function that may fail returns. -/
def Res (M : List TEntry → Prop) (x : Option (TermTable × Tm)) : Prop := ∀ q, x = some q → Stays M q.1

theorem res_some {q : TermTable × Tm} (h : Stays M q.1) : Res M (some q) := by
  rintro _ ⟨⟩; exact h

theorem res_none : Res M none := by rintro _ ⟨⟩

theorem res_map {α : Type} {x : Option α} {f : α → TermTable × Tm} (h : ∀ a, Stays M (f a).1) : Res M (x.map f) := by
  intro q hq
  obtain ⟨a, _, rfl⟩ := map_some hq
  exact h a

theorem res_bind {α : Type} {x : Option α} {f : α → Option (TermTable × Tm)} (h : ∀ a, Res M (f a)) :
    Res M (x.bind f) := by
  intro q hq
  obtain ⟨a, _, ha⟩ := bind_some hq
  exact h a q ha

theorem mkPlus (h : Stays M s) (as : List Tm) : Res M (s.mkPlus H as) := res_map fun _ => h.polyToTerm _

theorem mkMinus (h : Stays M s) (a b : Tm) : Res M (s.mkMinus H a b) :=
  res_bind fun _ => res_map fun _ => h.polyToTerm _

theorem mkUnaryMinus (h : Stays M s) (a : Tm) : Res M (s.mkUnaryMinus H a) := res_map fun _ => h.polyToTerm _

theorem timesConst (h : Stays M s) (q : ℚ) (t : Tm) : Res M (s.timesConst H q t) := by
  unfold TermTable.timesConst
  split <;> first | exact res_some (h.arithProduct _ _) | exact res_map fun _ => h.polyToTerm _ | exact res_none

theorem mkTimes (h : Stays M s) (as : List Tm) : Res M (s.mkTimes H as) := by
  unfold TermTable.mkTimes
  split
  · exact res_some (h.arithConstant _)
  · exact res_some h
  · dsimp only
    split
    · split
      · exact res_some h
      · exact res_some (h.arithConstant _)
    · split
      · exact res_some h
      · split
        · exact res_some h
        · exact h.timesConst _ _
    · exact res_none
  · exact res_none

theorem mkDivides (h : Stays M s) (a b : Tm) : Res M (s.mkDivides H a b) := by
  unfold TermTable.mkDivides
  split
  · exact res_none
  · split
    · exact res_some (h.arithConstant _)
    · exact (h.arithConstant _).mkTimes _

theorem directEq (h : Stays M s) (a b : Tm) : Stays M (s.directEq H a b).1 := by
  unfold TermTable.directEq
  split <;> exact h.composite (by decide) _ _

theorem eqOfPoly (h : Stays M s) (p : APoly) : Res M (s.eqOfPoly H p) := by
  unfold TermTable.eqOfPoly
  split
  · exact res_none
  · split
    · exact res_some h
    · exact res_some (h.composite (by decide) _ _)
  · split
    · exact res_some ((h.arithConstant _).directEq _ _)
    · split
      · exact res_some (h.directEq _ _)
      · exact res_some ((h.polyToTerm _).composite (by decide) _ _)
    · exact res_none
  · exact res_some ((h.polyToTerm _).composite (by decide) _ _)

theorem mkArithEq (h : Stays M s) (a b : Tm) : Res M (s.mkArithEq H a b) := by
  unfold TermTable.mkArithEq
  split
  · exact res_some h
  · exact res_bind fun _ => res_bind fun _ => h.eqOfPoly _

theorem mkGeq (h : Stays M s) (a b : Tm) : Res M (s.mkGeq H a b) := by
  intro q hq
  obtain ⟨r, hr, rfl⟩ := map_some hq
  have := h.mkMinus a b r hr
  split
  · exact this
  · exact this.composite (by decide) _ _

theorem mkLt (h : Stays M s) (a b : Tm) : Res M (s.mkLt H a b) := by
  intro q hq
  obtain ⟨r, hr, rfl⟩ := map_some hq
  exact h.mkGeq a b r hr

theorem mkIte (h : Stays M s) (c t e : Tm) : Res M (s.mkIte H c t e) := by
  unfold TermTable.mkIte
  split
  · exact res_none
  · split
    · exact res_some (h.mkBoolIte _ _ _)
    · refine res_some ?_
      unfold TermTable.mkArithIte
      split_ifs <;> first | exact h | exact h.composite (by decide) _ _
    · exact res_none

theorem mkBinaryEq (h : Stays M s) (a b : Tm) : Res M (s.mkBinaryEq H a b) := by
  unfold TermTable.mkBinaryEq
  split
  · exact res_none
  · split
    · exact h.mkArithEq _ _
    · exact res_some (h.mkIff _ _)
    · exact res_none

theorem distinctFrom (a : Tm) : ∀ (bs : List Tm) {s : TermTable}, Stays M s → ∀ q, s.distinctFrom H a bs = some q → Stays M q.1
  | [], _, h, q, hq => by cases hq; exact h
  | b :: bs, s, h, q, hq => by
    obtain ⟨r, hr, h1⟩ := bind_some hq
    obtain ⟨r2, hr2, rfl⟩ := map_some h1
    exact distinctFrom a bs (h.mkBinaryEq a b r hr) r2 hr2

theorem distinctPairs : ∀ (as : List Tm) {s : TermTable}, Stays M s → ∀ q, s.distinctPairs H as = some q → Stays M q.1
  | [], _, h, q, hq => by cases hq; exact h
  | a :: as, s, h, q, hq => by
    obtain ⟨r, hr, h1⟩ := bind_some hq
    obtain ⟨r2, hr2, rfl⟩ := map_some h1
    exact distinctPairs as (distinctFrom a as h r hr) r2 hr2

theorem mkDistinct (h : Stays M s) (as : List Tm) : Res M (s.mkDistinct H as) := by
  intro q hq
  obtain ⟨r, hr, rfl⟩ := map_some hq
  exact (distinctPairs as h r hr).mkAnd _

theorem res_ite {c : Prop} [Decidable c] {x y : Option (TermTable × Tm)} (hx : Res M x) (hy : Res M y) :
    Res M (if c then x else y) := by
  by_cases hc : c
  · rw [if_pos hc]; exact hx
  · rw [if_neg hc]; exact hy

theorem mkTermOp (h : Stays M s) (op : String) (as : List Tm) : Res M (Names.mkTermOp H s op as) := by
  unfold Names.mkTermOp
  refine res_ite ?_ (res_ite ?_ (res_ite ?_ (res_ite ?_ (res_ite ?_ (res_ite (res_some (h.mkOr _))
    (res_ite (res_some (h.mkAnd _)) (res_ite ?_ (res_ite ?_ (res_ite ?_ (res_ite (h.mkPlus _)
      (res_ite (h.mkTimes _) (res_ite ?_ (res_ite ?_ (res_ite ?_
        (res_ite (h.mkDistinct _) res_none)))))))))))))))
  · split
    · exact h.mkGeq _ _
    · exact res_none
  · split
    · exact h.mkGeq _ _
    · exact res_none
  · split
    · exact h.mkLt _ _
    · exact res_none
  · split
    · exact h.mkLt _ _
    · exact res_none
  · split
    · exact h.mkBinaryEq _ _
    · exact res_none
  · split
    · exact res_some (h.mkImplies _ _)
    · exact res_none
  · split
    · exact res_some h
    · exact res_none
  · split
    · exact h.mkUnaryMinus _
    · exact h.mkMinus _ _
    · exact res_none
  · split
    · exact h.mkDivides _ _
    · exact res_none
  · split
    · exact h.mkIte _ _ _
    · exact res_none
  · split
    · exact res_some (h.mkXor _ _)
    · exact res_none

end Stays

end Yaga
