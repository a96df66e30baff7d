/-
Invariants of the watch lists of the Boolean plugin and the loop of `falsified`.
-/
import Verif.Model.BoolTheory
import Verif.Proofs.Reasons

set_option linter.unusedSectionVars false
set_option linter.unusedVariables false

namespace Yaga
namespace BS

/-! ### Lists -/

theorem swapRemove_spec {α : Type} (l : List α) (i : Nat) (x : α) (h : l[i]? = some x) :
    ∃ D, D.Perm (l.drop (i + 1)) ∧ swapRemove l i = l.take i ++ D := by
  obtain ⟨hi, hx⟩ := List.getElem?_eq_some_iff.1 h
  have hl : l = l.take i ++ x :: l.drop (i + 1) := by
    rw [← hx, List.getElem_cons_drop, List.take_append_drop]
  generalize hA : l.take i = A at *
  generalize hB : l.drop (i + 1) = B at *
  have hAl : A.length = i := by rw [← hA, List.length_take]; omega
  rcases List.eq_nil_or_concat B with rfl | ⟨B', y, rfl⟩
  · refine ⟨[], .refl _, ?_⟩
    rw [hl]
    simp [swapRemove, hAl]
  · refine ⟨y :: B', (List.perm_append_singleton y B').symm.trans (by simp), ?_⟩
    rw [hl]
    have h2 : A ++ x :: B'.concat y = (A ++ x :: B') ++ [y] := by simp
    have h1 : (A ++ x :: (B'.concat y)).getLast? = some y := by rw [h2, List.getLast?_concat]
    simp only [swapRemove, h1]
    have h3 : ((A ++ x :: B'.concat y).set i y) = (A ++ y :: B') ++ [y] := by
      rw [List.set_append]; simp [hAl]
    rw [h3, List.dropLast_concat]

theorem findWatch_some (m : PModel Bool) (rest : List Lit) (e fuel k j : Nat)
    (h : findWatch m rest e fuel k = some j) :
    ∃ l, rest[j]? = some l ∧ evalLit m l ≠ some false := by
  induction fuel generalizing k with
  | zero => simp [findWatch] at h
  | succ n ih =>
    unfold findWatch at h
    rcases hk : rest[k]? with _ | l
    · simp [hk] at h
    · simp only [hk] at h
      by_cases h1 : evalLit m l ≠ some false
      · rw [if_pos h1] at h; cases h; exact ⟨l, hk, h1⟩
      · rw [if_neg h1] at h
        split at h
        · split at h
          · cases h
          · exact ih _ h
        · split at h
          · cases h
          · exact ih _ h

theorem findWatch_none (m : PModel Bool) (rest : List Lit) (e fuel k : Nat)
    (he : e < rest.length) (hk : k < rest.length)
    (hfuel : if e ≤ k then rest.length - k + e ≤ fuel else e - k ≤ fuel)
    (hv : ∀ j l, rest[j]? = some l → (if e ≤ k then e ≤ j ∧ j < k else (e ≤ j ∨ j < k)) →
      evalLit m l = some false)
    (h : findWatch m rest e fuel k = none) : ∀ l ∈ rest, evalLit m l = some false := by
  induction fuel generalizing k with
  | zero => exfalso; split at hfuel <;> omega
  | succ n ih =>
    unfold findWatch at h
    have hk' : rest[k]? = some rest[k] := List.getElem?_eq_getElem hk
    simp only [hk'] at h
    by_cases h1 : evalLit m rest[k] ≠ some false
    · rw [if_pos h1] at h; cases h
    · rw [if_neg h1] at h
      push Not at h1
      generalize hk2 : (if k + 1 ≥ rest.length then 0 else k + 1) = k' at h
      have hcase : ∀ j l, rest[j]? = some l → (j = k ∨
          (if e ≤ k then e ≤ j ∧ j < k else (e ≤ j ∨ j < k))) → evalLit m l = some false := by
        intro j l hj hor
        rcases hor with rfl | hor
        · rw [hk'] at hj; cases hj; exact h1
        · exact hv j l hj hor
      by_cases hke : k' = e
      · intro l hl
        obtain ⟨j, hj, rfl⟩ := List.getElem_of_mem hl
        refine hcase j _ (List.getElem?_eq_getElem hj) ?_
        by_cases hjk : j = k
        · exact Or.inl hjk
        · right
          split at hk2 <;> split <;> omega
      · rw [if_neg hke] at h
        refine ih k' ?_ ?_ ?_ h
        · split at hk2 <;> omega
        · split at hk2 <;> split at hfuel <;> split <;> omega
        · intro j l hj hor
          refine hcase j l hj ?_
          have hjl : j < rest.length := (List.getElem?_eq_some_iff.1 hj).1
          by_cases hjk : j = k
          · exact Or.inl hjk
          · right
            split at hk2 <;> split at hor <;> split <;> omega

/-! ### Invariants -/

/-- The variable is in the list of the current decision level. -/
def InRecent (t : Trail Nat) (v : Var) : Prop := ∃ a ∈ t.assigned t.decisionLevel, a.var = v

/-- `o` is true, and `w` is listed at every level from its own up to the level of `o`. So whenever
backtracking undoes `o` but keeps `w`, then `w` is listed at the level to which the solver
backtracks. -/
def OtherTrue (t : Trail Nat) (w o : Lit) : Prop :=
  evalLit t.bools o = some true ∧ ∃ lo lw, t.level o.var = some lo ∧ t.level w.var = some lw ∧
    ∀ b, lw ≤ b → b ≤ lo → ∃ a ∈ t.assigned b, a.var = w.var

/-- `w` and `o` are the two watched literals of `c`. -/
def Pair (c : Clause) (w o : Lit) : Prop := ∃ rest, c = w :: o :: rest ∨ c = o :: w :: rest

/-- The other watched literal of the clause satisfies it. -/
def Fine (t : Trail Nat) (c : Clause) (w : Lit) : Prop := ∃ o, Pair c w o ∧ OtherTrue t w o

/-- The other watched literal waits on the stack. -/
def Esc (s : BS) (r : Nat) (w : Lit) : Prop :=
  InRecent s.t w.var ∧ ∃ o, Pair (s.clause r) w o ∧ (o, some r) ∈ s.sat

/-- The watch lists agree with the clauses. -/
structure WS (s : BS) : Prop where
  ne : ∀ r < s.cls.length, s.clause r ≠ []
  range : ∀ r < s.cls.length, ∀ l ∈ s.clause r, l.ord < s.t.bools.num
  count : ∀ r < s.cls.length, ∀ l, ((s.watched l).map Watch.ref).count r =
    ((s.clause r).take 2).count l
  ref : ∀ l, ∀ w ∈ s.watched l, w.ref < s.cls.length
  idx : ∀ l, ∀ w ∈ s.watched l, 2 < (s.clause w.ref).length →
    2 ≤ w.idx ∧ w.idx < (s.clause w.ref).length

/-- A waiting literal is true already or the only literal of its reason that is not false. -/
def EntryOk (s : BS) (e : Lit × Option Nat) : Prop :=
  e.1.ord < s.t.bools.num ∧
  ((evalLit s.t.bools e.1 = some true ∧ InRecent s.t e.1.var) ∨
   (evalLit s.t.bools e.1 = none ∧ ∃ r rest, e.2 = some r ∧ r < s.cls.length ∧
      s.clause r = e.1 :: rest ∧ (∀ m ∈ rest, evalLit s.t.bools m = some false) ∧
      (s.t.decisionLevel = 0 ∨ ∃ m ∈ rest.head?, InRecent s.t m.var)))

/-- Clauses are only permuted, clauses whose first literal is true stay as they are, and only literals
that are not false become watched. -/
structure ClsRel (m : PModel Bool) (s s' : BS) : Prop where
  len : s'.cls.length = s.cls.length
  perm : ∀ r, (s'.clause r).Perm (s.clause r)
  head : ∀ r l rest, s.clause r = l :: rest → evalLit m l = some true → s'.clause r = s.clause r
  two : ∀ r, ∀ l ∈ (s'.clause r).take 2, l ∈ (s.clause r).take 2 ∨ evalLit m l ≠ some false

theorem ClsRel.refl (m : PModel Bool) (s : BS) : ClsRel m s s :=
  ⟨rfl, fun _ => .refl _, fun _ _ _ _ _ => rfl, fun _ _ h => Or.inl h⟩

theorem ClsRel.trans {m : PModel Bool} {a b c : BS} (h1 : ClsRel m a b) (h2 : ClsRel m b c) :
    ClsRel m a c := by
  refine ⟨h2.len.trans h1.len, fun r => (h2.perm r).trans (h1.perm r), ?_, ?_⟩
  · intro r l rest e ht
    have := h1.head r l rest e ht
    rw [h2.head r l rest (this.trans e) ht, this]
  · intro r l hl
    rcases h2.two r l hl with h | h
    · exact h1.two r l h
    · exact Or.inr h

/-- Members that `falsified` does not change. -/
structure Same (s s' : BS) : Prop where
  t : s'.t = s.t
  na : s'.na = s.na
  phase : s'.phase = s.phase
  mode : s'.mode = s.mode
  nextIndex : s'.nextIndex = s.nextIndex
  curLevel : s'.curLevel = s.curLevel

theorem Same.refl (s : BS) : Same s s := ⟨rfl, rfl, rfl, rfl, rfl, rfl⟩
theorem Same.trans {a b c : BS} (h1 : Same a b) (h2 : Same b c) : Same a c :=
  ⟨h2.t.trans h1.t, h2.na.trans h1.na, h2.phase.trans h1.phase, h2.mode.trans h1.mode,
   h2.nextIndex.trans h1.nextIndex, h2.curLevel.trans h1.curLevel⟩

theorem clause_setClause (s : BS) (r r' : Nat) (c : Clause) (hr : r < s.cls.length) :
    (s.setClause r c).clause r' = if r' = r then c else s.clause r' := by
  simp only [clause, setClause, List.getD_eq_getElem?_getD, List.getElem?_set]
  split
  · rename_i h; subst h; simp
  · rename_i h; rw [if_neg (Ne.symm h)]

theorem otherTrue_of_recent {t : Trail Nat} (hi : t.Inv) {w o : Lit} (hw : InRecent t w.var)
    (ho : evalLit t.bools o = some true) : OtherTrue t w o := by
  obtain ⟨a, ha, hav⟩ := hw
  have hdl : t.decisionLevel < t.levels.length := by
    have := hi.length_pos; simp only [Trail.decisionLevel]; omega
  have hget : t.levels[t.decisionLevel]? = some (t.assigned t.decisionLevel) := by
    simp [Trail.assigned, List.getD_eq_getElem?_getD, List.getElem?_eq_getElem hdl]
  obtain ⟨lw, hlw, hle, -⟩ := hi.listed _ _ a hget ha
  rw [hav] at hlw
  obtain ⟨lo, hlo⟩ : ∃ n, t.level o.var = some n := by
    have : evalLit t.bools o.neg = some false := by rw [evalLit_neg, ho]; rfl
    obtain ⟨n, hn⟩ := false_level hi this
    exact ⟨n, by simpa using hn⟩
  refine ⟨ho, lo, lw, hlo, hlw, ?_⟩
  intro b hb1 hb2
  have hblo := hi.bound _ _ hlo
  have hb : t.levels[b]? = some (t.assigned b) := by
    simp [Trail.assigned, List.getD_eq_getElem?_getD, List.getElem?_eq_getElem (show b < t.levels.length by omega)]
  exact hi.interval w.var lw b t.decisionLevel _ _ hlw hb1 (by omega) hget ⟨a, ha, hav⟩ hb

theorem Pair.symm {c : Clause} {w o : Lit} (h : Pair c w o) : Pair c o w := by
  obtain ⟨rest, h⟩ := h; exact ⟨rest, h.symm⟩

theorem pair_swap {f x : Lit} {rest : List Lit} {w o : Lit} :
    Pair (f :: x :: rest) w o ↔ Pair (x :: f :: rest) w o := by
  constructor <;>
  · rintro ⟨rest', h⟩
    simp only [List.cons.injEq] at h
    refine ⟨rest, ?_⟩
    simp only [List.cons.injEq, and_true]
    rcases h with ⟨h1, h2, -⟩ | ⟨h1, h2, -⟩
    · exact Or.inr ⟨h2, h1⟩
    · exact Or.inl ⟨h2, h1⟩

theorem pair_cons {x y : Lit} {rest : List Lit} {w o : Lit} :
    Pair (x :: y :: rest) w o ↔ (w = x ∧ o = y) ∨ (w = y ∧ o = x) := by
  constructor
  · rintro ⟨rest', h⟩
    simp only [List.cons.injEq] at h
    rcases h with ⟨h1, h2, -⟩ | ⟨h1, h2, -⟩
    · exact Or.inl ⟨h1.symm, h2.symm⟩
    · exact Or.inr ⟨h2.symm, h1.symm⟩
  · rintro (⟨rfl, rfl⟩ | ⟨rfl, rfl⟩)
    · exact ⟨rest, Or.inl rfl⟩
    · exact ⟨rest, Or.inr rfl⟩

/-- Invariant of the loop of `falsified` at index `i` without the stack. -/
structure FC (f : Lit) (Q : Lit → Prop) (i : Nat) (s : BS) : Prop where
  ws : WS s
  w : ∀ r < s.cls.length, ∀ w ∈ (s.clause r).take 2, w ≠ f → Q w.neg →
    Fine s.t (s.clause r) w ∨ Esc s r w
  v : ∀ r ∈ ((s.watched f).take i).map Watch.ref, Fine s.t (s.clause r) f ∨ Esc s r f

/-- Invariant of the loop of `falsified` at index `i`: the stack. -/
def FE (f : Lit) (i : Nat) (s : BS) : Prop :=
  ∀ e ∈ s.sat, EntryOk s e ∨ ∃ r rest, e = (f, some r) ∧ r < s.cls.length ∧
    s.clause r = f :: rest ∧ (∀ m ∈ rest, evalLit s.t.bools m = some false) ∧
    r ∈ ((s.watched f).drop i).map Watch.ref

/-- The clause of the watch at index `i` contains `f` as one of the first two literals. -/
theorem WS.watched_mem {s : BS} (h : WS s) {f : Lit} {w : Watch} (hw : w ∈ s.watched f) :
    f ∈ (s.clause w.ref).take 2 := by
  have h1 := h.count w.ref (h.ref f w hw) f
  have h2 : 0 < ((s.watched f).map Watch.ref).count w.ref :=
    List.count_pos_iff.2 (List.mem_map_of_mem hw)
  rw [h1] at h2
  exact List.count_pos_iff.1 h2

theorem WS.mem_watched {s : BS} (h : WS s) {f : Lit} {r : Nat} (hr : r < s.cls.length)
    (hf : f ∈ (s.clause r).take 2) : r ∈ (s.watched f).map Watch.ref := by
  have h1 := h.count r hr f
  rw [← List.count_pos_iff, h1]
  exact List.count_pos_iff.2 hf

/-- Reordering the two watched literals keeps everything but the order. -/
theorem fc_reorder {f x : Lit} {rest : List Lit} {Q : Lit → Prop} {i r : Nat} {s : BS}
    (h : FC f Q i s) (hr : r < s.cls.length)
    (hc : s.clause r = f :: x :: rest ∨ s.clause r = x :: f :: rest)
    (hf : evalLit s.t.bools f = some false) :
    FC f Q i (s.setClause r (x :: f :: rest)) ∧
    ClsRel s.t.bools s (s.setClause r (x :: f :: rest)) := by
  have hcl : ∀ r', (s.setClause r (x :: f :: rest)).clause r' =
      if r' = r then x :: f :: rest else s.clause r' := fun r' => clause_setClause s r r' _ hr
  have hlen : (s.setClause r (x :: f :: rest)).cls.length = s.cls.length := by simp [setClause]
  have hpair : ∀ r' w o, Pair ((s.setClause r (x :: f :: rest)).clause r') w o ↔
      Pair (s.clause r') w o := by
    intro r' w o
    rw [hcl]
    split
    · rename_i e; subst e
      rcases hc with hc | hc <;> rw [hc]
      exact pair_swap.symm
    · rfl
  have hperm : ∀ r', ((s.setClause r (x :: f :: rest)).clause r').Perm (s.clause r') := by
    intro r'
    rw [hcl]
    split
    · rename_i e; subst e
      rcases hc with hc | hc <;> rw [hc]
      exact .swap _ _ _
    · exact .refl _
  have htake : ∀ r', (((s.setClause r (x :: f :: rest)).clause r').take 2).Perm
      ((s.clause r').take 2) := by
    intro r'
    rw [hcl]
    split
    · rename_i e; subst e
      rcases hc with hc | hc <;> rw [hc]
      exact .swap _ _ _
    · exact .refl _
  have hfine : ∀ r' w, Fine s.t ((s.setClause r (x :: f :: rest)).clause r') w ↔
      Fine s.t (s.clause r') w := by
    intro r' w; simp only [Fine, hpair]
  have hesc : ∀ r' w, Esc (s.setClause r (x :: f :: rest)) r' w ↔ Esc s r' w := by
    intro r' w
    unfold Esc
    simp only [hpair]
    rfl
  have hws := h.ws
  refine ⟨⟨⟨?_, ?_, ?_, ?_, ?_⟩, ?_, ?_⟩, ?_⟩
  · intro r' hr'
    rw [hlen] at hr'
    intro e
    have := hperm r'
    rw [e] at this
    exact hws.ne r' hr' (List.nil_perm.1 this)
  · intro r' hr' l hl
    rw [hlen] at hr'
    exact hws.range r' hr' l ((hperm r').subset hl)
  · intro r' hr' l
    rw [hlen] at hr'
    rw [(htake r').count_eq l]
    exact hws.count r' hr' l
  · intro l w hw; rw [hlen]; exact hws.ref l w hw
  · intro l w hw
    rw [(hperm w.ref).length_eq]
    exact hws.idx l w hw
  · intro r' hr' w hw hwf hq
    rw [hlen] at hr'
    rcases h.w r' hr' w ((htake r').subset hw) hwf hq with h1 | h1
    · left; exact (hfine r' w).2 h1
    · right; exact (hesc r' w).2 h1
  · intro r' hr'
    rcases h.v r' hr' with h1 | h1
    · left; exact (hfine r' f).2 h1
    · right; exact (hesc r' f).2 h1
  · refine ⟨hlen, hperm, ?_, fun r' l hl => Or.inl ((htake r').subset hl)⟩
    intro r' l rest' e ht
    rw [hcl]
    split
    · rename_i er; subst er
      rcases hc with hc | hc
      · rw [hc] at e
        simp only [List.cons.injEq] at e
        rw [← e.1, hf] at ht; cases ht
      · exact hc.symm
    · rfl

theorem fe_reorder {f x : Lit} {rest : List Lit} {i r : Nat} {s : BS}
    (h : FE f i s) (hr : r < s.cls.length)
    (hc : s.clause r = f :: x :: rest ∨ s.clause r = x :: f :: rest)
    (hf : evalLit s.t.bools f = some false)
    (hx : evalLit s.t.bools x ≠ some false) :
    FE f i (s.setClause r (x :: f :: rest)) := by
  have hcl : ∀ r', (s.setClause r (x :: f :: rest)).clause r' =
      if r' = r then x :: f :: rest else s.clause r' := fun r' => clause_setClause s r r' _ hr
  have hlen : (s.setClause r (x :: f :: rest)).cls.length = s.cls.length := by simp [setClause]
  intro e he
  rcases h e he with hok | ⟨r', rest', e1, e2, e3, e4, e5⟩
  · left
    obtain ⟨h0, h1⟩ := hok
    refine ⟨h0, h1.imp id ?_⟩
    rintro ⟨h2, r', rest', e1, e2, e3, e4, e5⟩
    refine ⟨h2, r', rest', e1, by rw [hlen]; exact e2, ?_, e4, e5⟩
    rw [hcl]
    split
    · rename_i er; subst er
      rcases hc with hc | hc
      · -- the head would be `f`
        rw [hc] at e3
        simp only [List.cons.injEq] at e3
        rw [← e3.1, hf] at h2
        cases h2
      · rw [← hc, e3]
    · exact e3
  · right
    refine ⟨r', rest', e1, by rw [hlen]; exact e2, ?_, e4, e5⟩
    rw [hcl]
    split
    · rename_i er; subst er
      exfalso
      rcases hc with hc | hc
      · rw [hc] at e3
        simp only [List.cons.injEq, true_and] at e3
        exact hx (e4 x (by rw [← e3]; simp))
      · rw [hc] at e3
        simp only [List.cons.injEq] at e3
        rw [e3.1] at hx; exact hx hf
    · exact e3

/-- The state after moving the watch of `f` in clause `r` (at index `i` of the list) to the literal
`z` at index `k` of the rest. -/
def moveWatch (s : BS) (f x z : Lit) (rest : List Lit) (i r k : Nat) : BS :=
  { s with
    cls := s.cls.set r (x :: z :: rest.set k f)
    watched := Function.update (Function.update s.watched z (s.watched z ++ [⟨r, k + 2⟩])) f
      (swapRemove (s.watched f) i) }

theorem set_perm {rest : List Lit} {k : Nat} {z f : Lit} (hz : rest[k]? = some z) :
    (z :: rest.set k f).Perm (f :: rest) := by
  obtain ⟨hk, hz'⟩ := List.getElem?_eq_some_iff.1 hz
  have h1 : rest = rest.take k ++ z :: rest.drop (k + 1) := by
    rw [← hz', List.getElem_cons_drop, List.take_append_drop]
  have h2 : rest.set k f = rest.take k ++ f :: rest.drop (k + 1) := List.set_eq_take_append_cons_drop .. |>.trans (by simp [hk])
  rw [h2]
  conv_rhs => rw [h1]
  exact ((List.perm_middle.cons z).trans (.swap _ _ _)).trans (List.perm_middle.symm.cons f)

theorem fc_move {f x z : Lit} {rest : List Lit} {Q : Lit → Prop} {i k : Nat} {w : Watch} {s : BS}
    (h : FC f Q i s) (hw : (s.watched f)[i]? = some w)
    (hc : s.clause w.ref = f :: x :: rest ∨ s.clause w.ref = x :: f :: rest)
    (hf : evalLit s.t.bools f = some false) (hx : evalLit s.t.bools x ≠ some true)
    (hz : rest[k]? = some z) (hzf : evalLit s.t.bools z ≠ some false)
    (hQ : ∀ l, Q l → evalLit s.t.bools l = some true) (he : FE f i s) :
    FC f Q i (moveWatch s f x z rest i w.ref k) ∧ FE f i (moveWatch s f x z rest i w.ref k) ∧
    ClsRel s.t.bools s (moveWatch s f x z rest i w.ref k) ∧
    ((moveWatch s f x z rest i w.ref k).watched f).length + 1 = (s.watched f).length := by
  have hws := h.ws
  have hwm : w ∈ s.watched f := List.mem_of_getElem? hw
  have hr : w.ref < s.cls.length := hws.ref f w hwm
  obtain ⟨i', hi'⟩ := List.getElem?_eq_some_iff.1 hw
  generalize hs' : moveWatch s f x z rest i w.ref k = s'
  have hzne : z ≠ f := by rintro rfl; exact hzf hf
  have hcl : ∀ r', s'.clause r' = if r' = w.ref then x :: z :: rest.set k f else s.clause r' := by
    intro r'; rw [← hs']; exact clause_setClause s w.ref r' _ hr
  have hlen : s'.cls.length = s.cls.length := by rw [← hs']; simp [moveWatch]
  have ht : s'.t = s.t := by rw [← hs']; rfl
  have hsat : s'.sat = s.sat := by rw [← hs']; rfl
  have hwf : s'.watched f = swapRemove (s.watched f) i := by rw [← hs']; simp [moveWatch]
  have hwz : s'.watched z = s.watched z ++ [⟨w.ref, k + 2⟩] := by
    rw [← hs']; simp [moveWatch, Function.update_of_ne hzne]
  have hwo : ∀ l, l ≠ f → l ≠ z → s'.watched l = s.watched l := by
    intro l h1 h2; rw [← hs']; simp [moveWatch, Function.update_of_ne h1, Function.update_of_ne h2]
  obtain ⟨D, hD, hsw⟩ := swapRemove_spec (s.watched f) i w hw
  have hsplit : s.watched f = (s.watched f).take i ++ w :: (s.watched f).drop (i + 1) := by
    rw [← hi', List.getElem_cons_drop, List.take_append_drop]
  have hperm : ∀ r', (s'.clause r').Perm (s.clause r') := by
    intro r'
    rw [hcl]
    split
    · rename_i e; subst e
      have h1 : (x :: z :: rest.set k f).Perm (x :: f :: rest) := (set_perm hz).cons x
      rcases hc with hc | hc <;> rw [hc]
      · exact h1.trans (.swap _ _ _)
      · exact h1
    · exact .refl _
  have hzr : z ∈ rest := List.mem_of_getElem? hz
  have hcount : ∀ l, ((s.clause w.ref).take 2).count l = (if x = l then 1 else 0) + (if f = l then 1 else 0) := by
    intro l
    rcases hc with hc | hc <;> rw [hc] <;> simp [List.count_cons]; omega
  have htk : (s'.watched f).take i = (s.watched f).take i := by
    rw [hwf, hsw, List.take_append_of_le_length (by simp; omega), List.take_take]; simp
  have hdr : ((s'.watched f).drop i).Perm ((s.watched f).drop (i + 1)) := by
    have : i = ((s.watched f).take i).length := by simp; omega
    rw [hwf, hsw]
    have h2 : ((s.watched f).take i ++ D).drop i = D := List.drop_left' this.symm
    rw [h2]
    exact hD
  have hmem : ∀ l w', w' ∈ s'.watched l → w' ∈ s.watched l ∨ w' = ⟨w.ref, k + 2⟩ := by
    intro l w' hw'
    by_cases h1 : l = f
    · subst h1
      left
      rw [hwf, hsw, List.mem_append] at hw'
      rcases hw' with hw' | hw'
      · exact List.mem_of_mem_take hw'
      · exact List.mem_of_mem_drop (hD.subset hw')
    · by_cases h2 : l = z
      · subst h2; rw [hwz] at hw'; simpa using hw'
      · rw [hwo l h1 h2] at hw'; exact Or.inl hw'
  have hkl : k < rest.length := (List.getElem?_eq_some_iff.1 hz).1
  have hnoent : ∀ e ∈ s.sat, e.2 = some w.ref → evalLit s.t.bools e.1 = some true ∨
      (evalLit s.t.bools e.1 ≠ none ∧ e.1 ≠ f) := by
    intro e hem her
    rcases he e hem with ⟨-, h1⟩ | ⟨r', rest', e1, e2, e3, e4, e5⟩
    · rcases h1 with h1 | ⟨h2, r', rest', e1, e2, e3, e4, -⟩
      · exact Or.inl h1.1
      · exfalso
        rw [her] at e1; cases e1
        rcases hc with hc | hc
        · rw [hc] at e3; simp only [List.cons.injEq] at e3
          rw [← e3.1, hf] at h2; cases h2
        · rw [hc] at e3; simp only [List.cons.injEq] at e3
          exact hzf (e4 z (by rw [← e3.2]; simp [hzr]))
    · exfalso
      subst e1; simp only [Option.some.injEq] at her; subst her
      rcases hc with hc | hc
      · rw [hc] at e3; simp only [List.cons.injEq, true_and] at e3
        exact hzf (e4 z (by rw [← e3]; simp [hzr]))
      · rw [hc] at e3; simp only [List.cons.injEq] at e3
        exact hzf (e4 z (by rw [← e3.2]; simp [hzr]))
  have hnopair : ∀ o, Pair (s.clause w.ref) x o → evalLit s.t.bools x = some false → o = f := by
    intro o ho hxf
    rcases hc with hc | hc <;> rw [hc, pair_cons] at ho
    · rcases ho with ⟨h1, h2⟩ | ⟨-, h2⟩
      · rw [h2, h1]
      · exact h2
    · rcases ho with ⟨-, h2⟩ | ⟨h1, h2⟩
      · exact h2
      · rw [h2, h1]
  refine ⟨⟨⟨?_, ?_, ?_, ?_, ?_⟩, ?_, ?_⟩, ?_, ⟨hlen, hperm, ?_, ?_⟩, ?_⟩
  · intro r' hr'
    rw [hlen] at hr'
    intro e
    have := hperm r'
    rw [e] at this
    exact hws.ne r' hr' (List.nil_perm.1 this)
  · intro r' hr' l hl
    rw [hlen] at hr'
    rw [ht]
    exact hws.range r' hr' l ((hperm r').subset hl)
  · intro r' hr' l
    rw [hlen] at hr'
    have hold := hws.count r' hr' l
    have hfc : ((s'.watched f).map Watch.ref).count r' + (if w.ref = r' then 1 else 0) =
        ((s.watched f).map Watch.ref).count r' := by
      rw [hwf, hsw]
      conv_rhs => rw [hsplit]
      simp only [List.map_append, List.map_cons, List.count_append, List.count_cons]
      rw [(hD.map Watch.ref).count_eq]
      simp only [beq_iff_eq]
      omega
    have hnew : ((s'.clause r').take 2).count l + (if r' = w.ref ∧ f = l then 1 else 0) =
        ((s.clause r').take 2).count l + (if r' = w.ref ∧ z = l then 1 else 0) := by
      rw [hcl]
      by_cases e : r' = w.ref
      · subst e
        rw [hcount]
        simp [List.count_cons]; omega
      · simp [e]
    by_cases h1 : l = f
    · subst h1
      rw [hold] at hfc
      have : (if w.ref = r' then 1 else 0) = (if r' = w.ref ∧ l = l then 1 else 0 : Nat) := by
        simp [eq_comm]
      generalize (if r' = w.ref ∧ l = l then 1 else 0 : Nat) = q at *
      rw [this] at hfc
      simp only [hzne, and_false, if_false] at hnew this
      omega
    · by_cases h2 : l = z
      · subst h2
        rw [hwz]
        simp only [List.map_append, List.map_cons, List.map_nil, List.count_append, List.count_cons,
          List.count_nil, beq_iff_eq, hold]
        simp only [Ne.symm h1, and_false, if_false, and_true] at hnew
        have : (if w.ref = r' then 1 else 0) = (if r' = w.ref then 1 else 0 : Nat) := by
          simp [eq_comm]
        omega
      · rw [hwo l h1 h2, hold]
        simp only [Ne.symm h1, Ne.symm h2, and_false, if_false] at hnew
        omega
  · intro l w' hw'
    rw [hlen]
    rcases hmem l w' hw' with h1 | rfl
    · exact hws.ref l w' h1
    · exact hr
  · intro l w' hw'
    rw [(hperm w'.ref).length_eq]
    rcases hmem l w' hw' with h1 | rfl
    · exact hws.idx l w' h1
    · intro _
      refine ⟨by simp, ?_⟩
      rcases hc with hc | hc <;> (simp only [hc, List.length_cons]; omega)
  · intro r' hr' w' hw' hwf' hq
    rw [hlen] at hr'
    have hwtrue := hQ _ hq
    have hwfalse : evalLit s.t.bools w' = some false := by
      rw [evalLit_neg] at hwtrue
      rcases hv : evalLit s.t.bools w' with _ | b
      · rw [hv] at hwtrue; cases hwtrue
      · cases b
        · rfl
        · rw [hv] at hwtrue; simp at hwtrue
    rw [hcl] at hw'
    by_cases e : r' = w.ref
    · subst e
      exfalso
      simp only [if_true, List.take_succ_cons, List.take_zero, List.mem_cons, List.not_mem_nil,
        or_false] at hw'
      rcases hw' with rfl | rfl
      · have hin : w' ∈ (s.clause w.ref).take 2 := by rcases hc with hc | hc <;> rw [hc] <;> simp
        rcases h.w _ hr' w' hin hwf' hq with ⟨o, ho, hot, -⟩ | ⟨-, o, ho, hos⟩
        · rw [hnopair o ho hwfalse, hf] at hot; cases hot
        · have := hnopair o ho hwfalse
          subst this
          rcases hnoent _ hos rfl with h1 | ⟨-, h1⟩
          · rw [hf] at h1; cases h1
          · exact h1 rfl
      · exact hzf hwfalse
    · rw [if_neg e] at hw'
      have hcl' : s'.clause r' = s.clause r' := by rw [hcl, if_neg e]
      rcases h.w r' hr' w' hw' hwf' hq with h1 | h1
      · left; rw [hcl', ht]; exact h1
      · right; unfold Esc; rw [hcl', ht, hsat]; exact h1
  · intro r' hr'
    rw [htk] at hr'
    by_cases e : r' = w.ref
    · subst e
      exfalso
      rcases h.v _ hr' with ⟨o, ho, hot, -⟩ | ⟨-, o, ho, hos⟩
      · have : o = x := by
          rcases hc with hc | hc <;> rw [hc, pair_cons] at ho
          · rcases ho with ⟨-, h2⟩ | ⟨h1, h2⟩
            · exact h2
            · rw [h2, h1]
          · rcases ho with ⟨h1, h2⟩ | ⟨-, h2⟩
            · rw [h2, h1]
            · exact h2
        rw [this] at hot; exact hx hot
      · have hox : o = x := by
          rcases hc with hc | hc <;> rw [hc, pair_cons] at ho
          · rcases ho with ⟨-, h2⟩ | ⟨h1, h2⟩
            · exact h2
            · rw [h2, h1]
          · rcases ho with ⟨h1, h2⟩ | ⟨-, h2⟩
            · rw [h2, h1]
            · exact h2
        subst hox
        rcases he _ hos with ⟨-, h1⟩ | ⟨r2, rest', e1, e2, e3, e4, e5⟩
        · rcases h1 with h1 | ⟨h2, r2, rest', e1, e2, e3, e4, -⟩
          · exact hx h1.1
          · cases e1
            rcases hc with hc | hc
            · rw [hc] at e3; simp only [List.cons.injEq] at e3
              rw [← e3.1, hf] at h2; cases h2
            · rw [hc] at e3; simp only [List.cons.injEq] at e3
              exact hzf (e4 z (by rw [← e3.2]; simp [hzr]))
        · cases e1
          rcases hc with hc | hc <;>
          · rw [hc] at e3; simp only [List.cons.injEq] at e3
            exact hzf (e4 z (by rw [← e3.2]; simp [hzr]))
    · have hcl' : s'.clause r' = s.clause r' := by rw [hcl, if_neg e]
      rcases h.v r' hr' with h1 | h1
      · left; rw [hcl', ht]; exact h1
      · right; unfold Esc; rw [hcl', ht, hsat]; exact h1
  · intro e hem
    rw [hsat] at hem
    by_cases her : e.2 = some w.ref
    · rcases hnoent e hem her with h1 | ⟨h1, h1f⟩
      · rcases he e hem with ⟨h0, h2⟩ | ⟨r', rest', e1, e2, e3, e4, e5⟩
        · left
          refine ⟨by rw [ht]; exact h0, Or.inl ?_⟩
          rw [ht]
          rcases h2 with h2 | ⟨h2, -⟩
          · exact h2
          · rw [h1] at h2; cases h2
        · subst e1; rw [hf] at h1; cases h1
      · rcases he e hem with ⟨h0, h2⟩ | ⟨r', rest', e1, e2, e3, e4, e5⟩
        · left
          refine ⟨by rw [ht]; exact h0, Or.inl ?_⟩
          rw [ht]
          rcases h2 with h2 | ⟨h2, -⟩
          · exact h2
          · exact (h1 h2).elim
        · subst e1; exact (h1f rfl).elim
    · rcases he e hem with ⟨h0, h2⟩ | ⟨r', rest', e1, e2, e3, e4, e5⟩
      · left
        unfold EntryOk
        rw [ht]
        refine ⟨h0, h2.imp id ?_⟩
        rintro ⟨h3, r', rest', e1, e2, e3, e4, e5⟩
        have hne : r' ≠ w.ref := by rintro rfl; exact her e1
        exact ⟨h3, r', rest', e1, by rw [hlen]; exact e2, by rw [hcl, if_neg hne]; exact e3, e4, e5⟩
      · right
        have hne : r' ≠ w.ref := by rintro rfl; exact her (by rw [e1])
        refine ⟨r', rest', e1, by rw [hlen]; exact e2, by rw [hcl, if_neg hne]; exact e3,
          by rw [ht]; exact e4, ?_⟩
        rw [(hdr.map Watch.ref).mem_iff]
        have : (s.watched f).drop i = w :: (s.watched f).drop (i + 1) := by
          rw [← hi', List.getElem_cons_drop]
        rw [this, List.map_cons, List.mem_cons] at e5
        exact e5.resolve_left hne
  · intro r' l rest' e htr
    rw [hcl]
    split
    · rename_i er; subst er
      exfalso
      rcases hc with hc | hc
      · rw [hc] at e; simp only [List.cons.injEq] at e
        rw [← e.1, hf] at htr; cases htr
      · rw [hc] at e; simp only [List.cons.injEq] at e
        rw [← e.1] at htr; exact hx htr
    · rfl
  · intro r' l hl
    rw [hcl] at hl
    split at hl
    · rename_i er; subst er
      simp only [List.take_succ_cons, List.take_zero, List.mem_cons, List.not_mem_nil, or_false] at hl
      rcases hl with rfl | rfl
      · left; rcases hc with hc | hc <;> rw [hc] <;> simp
      · exact Or.inr hzf
    · exact Or.inl hl
  · rw [hwf, hsw, List.length_append, hD.length_eq]
    simp; omega

theorem fe_next {f x : Lit} {rest : List Lit} {i : Nat} {w : Watch} {s : BS} (h : FE f i s)
    (hw : (s.watched f)[i]? = some w) (hc : s.clause w.ref = x :: f :: rest)
    (hf : evalLit s.t.bools f = some false) (hx : evalLit s.t.bools x ≠ some false) :
    FE f (i + 1) s := by
  obtain ⟨hi, hi'⟩ := List.getElem?_eq_some_iff.1 hw
  intro e he
  refine (h e he).imp id ?_
  rintro ⟨r, rest', e1, e2, e3, e4, e5⟩
  refine ⟨r, rest', e1, e2, e3, e4, ?_⟩
  have hd : (s.watched f).drop i = w :: (s.watched f).drop (i + 1) := by
    rw [← hi', List.getElem_cons_drop]
  rw [hd, List.map_cons, List.mem_cons] at e5
  refine e5.resolve_left ?_
  rintro rfl
  rw [hc] at e3
  simp only [List.cons.injEq] at e3
  rw [e3.1] at hx
  exact hx hf

theorem mem_take_succ {s : BS} {f : Lit} {i r : Nat} {w : Watch}
    (hw : (s.watched f)[i]? = some w) (h : r ∈ ((s.watched f).take (i + 1)).map Watch.ref) :
    r ∈ ((s.watched f).take i).map Watch.ref ∨ r = w.ref := by
  rw [List.take_add_one, hw] at h
  simpa [or_comm, eq_comm] using h

theorem fc_skip {f x : Lit} {rest : List Lit} {Q : Lit → Prop} {i : Nat} {w : Watch} {s : BS}
    (h : FC f Q i s) (hi : s.t.Inv) (hw : (s.watched f)[i]? = some w)
    (hc : s.clause w.ref = x :: f :: rest) (hfr : InRecent s.t f.var)
    (hx : evalLit s.t.bools x = some true) : FC f Q (i + 1) s := by
  refine ⟨h.ws, h.w, ?_⟩
  intro r hr
  rcases mem_take_succ hw hr with h1 | rfl
  · exact h.v r h1
  · left
    exact ⟨x, by rw [hc, pair_cons]; exact Or.inr ⟨rfl, rfl⟩, otherTrue_of_recent hi hfr hx⟩

theorem fc_push {f x : Lit} {rest : List Lit} {Q : Lit → Prop} {i : Nat} {w : Watch} {s : BS}
    (h : FC f Q i s) (hw : (s.watched f)[i]? = some w)
    (hc : s.clause w.ref = x :: f :: rest) (hfr : InRecent s.t f.var) :
    FC f Q (i + 1) { s with sat := (x, some w.ref) :: s.sat } := by
  have hesc : ∀ r w', Esc s r w' → Esc { s with sat := (x, some w.ref) :: s.sat } r w' := by
    rintro r w' ⟨h1, o, h2, h3⟩
    exact ⟨h1, o, h2, List.mem_cons_of_mem _ h3⟩
  refine ⟨⟨h.ws.ne, h.ws.range, h.ws.count, h.ws.ref, h.ws.idx⟩, ?_, ?_⟩
  · intro r hr w' hw' hwf hq
    exact (h.w r hr w' hw' hwf hq).imp id (hesc r w')
  · intro r hr
    rcases mem_take_succ hw hr with h1 | rfl
    · exact (h.v r h1).imp id (hesc r f)
    · right
      refine ⟨hfr, x, ?_, List.mem_cons_self⟩
      show Pair (s.clause w.ref) f x
      rw [hc, pair_cons]; exact Or.inr ⟨rfl, rfl⟩

theorem fe_push {f x : Lit} {rest : List Lit} {i : Nat} {w : Watch} {s : BS} (h : FE f i s)
    (hws : WS s) (hw : (s.watched f)[i]? = some w) (hc : s.clause w.ref = x :: f :: rest)
    (hf : evalLit s.t.bools f = some false) (hx : evalLit s.t.bools x = none)
    (hrest : ∀ m ∈ rest, evalLit s.t.bools m = some false) (hfr : InRecent s.t f.var) :
    FE f (i + 1) { s with sat := (x, some w.ref) :: s.sat } := by
  have hr := hws.ref f w (List.mem_of_getElem? hw)
  intro e he
  rcases List.mem_cons.1 he with rfl | he
  · left
    refine ⟨hws.range w.ref hr x (by rw [hc]; simp), Or.inr ⟨hx, w.ref, f :: rest, rfl, hr, hc, ?_,
      Or.inr ⟨f, by simp, hfr⟩⟩⟩
    intro m hm
    rcases List.mem_cons.1 hm with rfl | hm
    · exact hf
    · exact hrest m hm
  · exact fe_next h hw hc hf (by rw [hx]; simp) e he

/-- What the loop of `falsified` achieves. -/
theorem falsifiedLoop_spec {f : Lit} {Q : Lit → Prop} (fuel i : Nat) (s : BS)
    (hfuel : (s.watched f).length ≤ fuel + i) (hi : s.t.Inv)
    (hf : evalLit s.t.bools f = some false) (hfr : InRecent s.t f.var)
    (hQ : ∀ l, Q l → evalLit s.t.bools l = some true) (hfc : FC f Q i s) (hfe : FE f i s) :
    ∃ c s', falsifiedLoop f fuel i s = (c, s') ∧ Same s s' ∧ ClsRel s.t.bools s s' ∧ WS s' ∧
      (∀ r < s'.cls.length, ∀ w ∈ (s'.clause r).take 2, (w ≠ f ∨ c = none) →
        (Q w.neg ∨ w = f) → Fine s'.t (s'.clause r) w ∨ Esc s' r w) ∧
      (c = none → ∀ e ∈ s'.sat, EntryOk s' e) ∧
      (∃ added, s'.sat = added ++ s.sat) ∧
      ∀ c', c = some c' → (∀ l ∈ c', evalLit s.t.bools l = some false) ∧ ∃ r < s'.cls.length,
        s'.clause r = c' := by
  have done : ∀ (i : Nat) (s : BS), FC f Q i s → FE f i s → (s.watched f).length ≤ i →
      (∀ r < s.cls.length, ∀ w ∈ (s.clause r).take 2, (Q w.neg ∨ w = f) →
        Fine s.t (s.clause r) w ∨ Esc s r w) ∧ (∀ e ∈ s.sat, EntryOk s e) := by
    intro i s hfc hfe hlen
    constructor
    · intro r hr w hw hor
      by_cases hwf : w = f
      · subst hwf
        refine hfc.v r ?_
        rw [List.take_of_length_le hlen]
        exact hfc.ws.mem_watched hr hw
      · exact hfc.w r hr w hw hwf (hor.resolve_right hwf)
    · intro e he
      rcases hfe e he with h | ⟨r, rest, -, -, -, -, h⟩
      · exact h
      · rw [List.drop_eq_nil_of_le hlen] at h; cases h
  induction fuel generalizing i s with
  | zero =>
    obtain ⟨h1, h2⟩ := done i s hfc hfe (by omega)
    exact ⟨none, s, rfl, .refl s, .refl _ s, hfc.ws, fun r hr w hw _ h => h1 r hr w hw h,
      fun _ => h2, ⟨[], rfl⟩, by simp⟩
  | succ n ih =>
    rcases hget : (s.watched f)[i]? with _ | w
    · have hlen : (s.watched f).length ≤ i := List.getElem?_eq_none_iff.1 hget
      obtain ⟨h1, h2⟩ := done i s hfc hfe hlen
      refine ⟨none, s, by simp only [falsifiedLoop, hget], .refl s, .refl _ s, hfc.ws,
        fun r hr w hw _ h => h1 r hr w hw h, fun _ => h2, ⟨[], rfl⟩, by simp⟩
    · have hwm : w ∈ s.watched f := List.mem_of_getElem? hget
      have hr := hfc.ws.ref f w hwm
      have hmem := hfc.ws.watched_mem hwm
      obtain ⟨hil, -⟩ := List.getElem?_eq_some_iff.1 hget
      rcases hcl : s.clause w.ref with _ | ⟨a, _ | ⟨b, rest⟩⟩
      · exact absurd hcl (hfc.ws.ne _ hr)
      · rw [hcl] at hmem
        simp only [List.take_succ_cons, List.take_nil, List.mem_singleton] at hmem
        refine ⟨some [a], s, by simp only [falsifiedLoop, hget, hcl], .refl s, .refl _ s, hfc.ws, ?_,
          by simp, ⟨[], rfl⟩, ?_⟩
        · intro r' hr' w' hw' hne hor
          have hne : w' ≠ f := hne.resolve_right (by simp)
          exact hfc.w r' hr' w' hw' hne (hor.resolve_right hne)
        · rintro c' hc'
          cases hc'
          exact ⟨by simp [← hmem, hf], w.ref, hr, hcl⟩
      · -- two literals or more
        rw [hcl] at hmem
        simp only [List.take_succ_cons, List.take_zero, List.mem_cons, List.not_mem_nil, or_false] at hmem
        generalize hxd : (if a = f then b else a) = x
        have hyd : (if a = f then a else b) = f := by
          by_cases e : a = f
          · simp [e]
          · rw [if_neg e]; exact (hmem.resolve_left (fun h => e h.symm)).symm
        have hc : s.clause w.ref = f :: x :: rest ∨ s.clause w.ref = x :: f :: rest := by
          by_cases e : a = f
          · left; rw [if_pos e] at hxd; rw [hcl, e, hxd]
          · right; rw [if_neg e] at hxd hyd; rw [hcl, hxd, hyd]
        generalize hs1 : s.setClause w.ref (x :: f :: rest) = s1
        have ht1 : s1.t = s.t := by rw [← hs1]; rfl
        have hsat1 : s1.sat = s.sat := by rw [← hs1]; rfl
        have hwat1 : s1.watched = s.watched := by rw [← hs1]; rfl
        have hsame1 : Same s s1 := by rw [← hs1]; exact ⟨rfl, rfl, rfl, rfl, rfl, rfl⟩
        have hlen1 : s1.cls.length = s.cls.length := by rw [← hs1]; simp [setClause]
        obtain ⟨hfc1, hrel1⟩ : FC f Q i s1 ∧ ClsRel s.t.bools s s1 := hs1 ▸ fc_reorder hfc hr hc hf
        have hc1 : s1.clause w.ref = x :: f :: rest := by
          rw [← hs1, clause_setClause _ _ _ _ hr, if_pos rfl]
        have hget1 : (s1.watched f)[i]? = some w := by rw [hwat1]; exact hget
        have heq : falsifiedLoop f (n + 1) i s =
            if evalLit s1.t.bools x = some true then falsifiedLoop f n (i + 1) s1
            else
              match findWatch s1.t.bools rest (w.idx - 2) rest.length (w.idx - 2) with
              | some k => falsifiedLoop f n i (moveWatch s f x (rest.getD k f) rest i w.ref k)
              | none =>
                if evalLit s1.t.bools x = some false then (some (x :: f :: rest), s1)
                else falsifiedLoop f n (i + 1) { s1 with sat := (x, some w.ref) :: s1.sat } := by
          conv_lhs => unfold falsifiedLoop
          simp only [hget, hcl, hxd, hyd, hs1]
          split
          · rfl
          · rcases hfw : findWatch s1.t.bools rest (w.idx - 2) rest.length (w.idx - 2) with _ | k
            · rfl
            · simp only
              congr 1
              have hzf : rest.getD k f ≠ f := by
                obtain ⟨l, hl1, hl2⟩ := findWatch_some _ _ _ _ _ _ hfw
                rw [List.getD_eq_getElem?_getD, hl1]
                intro e
                simp only [Option.getD_some] at e
                rw [ht1, e] at hl2; exact hl2 hf
              rw [← hs1]
              simp only [addWatch, setClause, moveWatch, List.set_set,
                Function.update_of_ne (Ne.symm hzf)]
        rw [heq]
        have hfR : InRecent s1.t f.var := by rw [ht1]; exact hfr
        by_cases hx1 : evalLit s1.t.bools x = some true
        · rw [if_pos hx1]
          have hfe1 : FE f i s1 := hs1 ▸ fe_reorder hfe hr hc hf (by rw [← ht1, hx1]; simp)
          obtain ⟨c, s', e1, e2, e3, e4, e5, e6, e7, e8⟩ := ih (i + 1) s1 (by rw [hwat1]; omega)
            (by rw [ht1]; exact hi) (by rw [ht1]; exact hf) hfR (by rw [ht1]; exact hQ)
            (fc_skip hfc1 (by rw [ht1]; exact hi) hget1 hc1 hfR hx1)
            (fe_next hfe1 hget1 hc1 (by rw [ht1]; exact hf) (by rw [hx1]; simp))
          refine ⟨c, s', e1, hsame1.trans e2, hrel1.trans (ht1 ▸ e3), e4, e5, e6, ?_, ?_⟩
          · rw [← hsat1]; exact e7
          · rw [← ht1]; exact e8
        · rw [if_neg hx1]
          rcases hfw : findWatch s1.t.bools rest (w.idx - 2) rest.length (w.idx - 2) with _ | k
          · simp only
            have hall : ∀ m ∈ rest, evalLit s.t.bools m = some false := by
              rw [← ht1]
              rcases rest with _ | ⟨z, zs⟩
              · simp
              · have hidx := hfc.ws.idx f w hwm (by rw [hcl]; simp)
                rw [hcl] at hidx
                simp only [List.length_cons] at hidx
                refine findWatch_none _ _ (w.idx - 2) _ (w.idx - 2) (by simp; omega) (by simp; omega)
                  ?_ ?_ hfw
                · simp; omega
                · intro j l _ hj; simp at hj; omega
            by_cases hxf : evalLit s1.t.bools x = some false
            · rw [if_pos hxf]
              refine ⟨_, s1, rfl, hsame1, hrel1, hfc1.ws, ?_, by simp, ⟨[], by simp [hsat1]⟩, ?_⟩
              · intro r' hr' w' hw' hne hor
                have hne : w' ≠ f := hne.resolve_right (by simp)
                exact hfc1.w r' hr' w' hw' hne (hor.resolve_right hne)
              · rintro c' hc'
                cases hc'
                refine ⟨?_, w.ref, by rw [hlen1]; exact hr, hc1⟩
                intro l hl
                simp only [List.mem_cons] at hl
                rcases hl with rfl | rfl | hl
                · rw [← ht1]; exact hxf
                · exact hf
                · exact hall l hl
            · rw [if_neg hxf]
              have hxn : evalLit s1.t.bools x = none := by
                rcases hv : evalLit s1.t.bools x with _ | bv
                · rfl
                · cases bv
                  · exact absurd hv hxf
                  · exact absurd hv hx1
              have hfe1 : FE f i s1 := hs1 ▸ fe_reorder hfe hr hc hf (by rw [← ht1]; exact hxf)
              obtain ⟨c, s', e1, e2, e3, e4, e5, e6, ⟨added, e7⟩, e8⟩ :=
                ih (i + 1) { s1 with sat := (x, some w.ref) :: s1.sat }
                (by show (s1.watched f).length ≤ _; rw [hwat1]; omega)
                (by show s1.t.Inv; rw [ht1]; exact hi)
                (by show evalLit s1.t.bools f = _; rw [ht1]; exact hf) hfR
                (by show ∀ l, Q l → evalLit s1.t.bools l = _; rw [ht1]; exact hQ)
                (fc_push hfc1 hget1 hc1 hfR)
                (fe_push hfe1 hfc1.ws hget1 hc1 (by rw [ht1]; exact hf) hxn
                  (by rw [ht1]; exact hall) hfR)
              refine ⟨c, s', e1, hsame1.trans ⟨e2.t, e2.na, e2.phase, e2.mode, e2.nextIndex,
                e2.curLevel⟩, hrel1.trans ?_, e4, e5, e6, ?_, ?_⟩
              · have := (ht1 ▸ e3 : ClsRel s.t.bools { s1 with sat := (x, some w.ref) :: s1.sat } s')
                exact ⟨this.len, this.perm, this.head, this.two⟩
              · exact ⟨added ++ [(x, some w.ref)], by rw [e7, ← hsat1]; simp⟩
              · rw [← ht1]; exact e8
          · simp only
            obtain ⟨z, hz1, hz2⟩ := findWatch_some _ _ _ _ _ _ hfw
            have hzd : rest.getD k f = z := by rw [List.getD_eq_getElem?_getD, hz1]; rfl
            rw [hzd]
            obtain ⟨m1, m2, m3, m4⟩ := fc_move hfc hget hc hf (by rw [← ht1]; exact hx1) hz1
              (by rw [← ht1]; exact hz2) hQ hfe
            obtain ⟨c, s', e1, e2, e3, e4, e5, e6, e7, e8⟩ :=
              ih i (moveWatch s f x z rest i w.ref k) (by omega) hi hf hfr hQ m1 m2
            exact ⟨c, s', e1, ⟨e2.t, e2.na, e2.phase, e2.mode, e2.nextIndex, e2.curLevel⟩,
              m3.trans e3, e4, e5, e6, e7, e8⟩

end BS
end Yaga
