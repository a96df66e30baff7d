/-
Literals that unit propagation derives from a set of clauses, and why they are assigned when the Boolean
plugin has propagated: variables of level 0 are assigned again after a restart.
-/
import Verif.Proofs.QfModel

set_option linter.unusedSectionVars false
set_option linter.unusedVariables false

namespace Yaga
open LinStore (Kept)
namespace Qf
open Spec BS Check

variable {hv : Nat → Nat} {hc : ℚ → Nat} {op : LaOpts} {S : LinStore} {A : List Clause}
  {b : Bool} {O : Type} {W : QOrder O} {Th : Assignment → Prop}

/-- Literals that follow from the clauses by unit propagation. -/
inductive Derived (cs : List Clause) : Lit → Prop where
  | unit {c rest : Clause} {l : Lit} (hc : c ∈ cs) (hp : c.Perm (l :: rest))
      (h : ∀ m ∈ rest, Derived cs m.neg) : Derived cs l

theorem Derived.mono {cs cs' : List Clause} (hs : ∀ c ∈ cs, c ∈ cs') {l : Lit} (h : Derived cs l) :
    Derived cs' l := by
  induction h with
  | unit hc hp _ ih => exact .unit (hs _ hc) hp ih

/-- Every clause of `cs` is in `cls` with its literals in another order, or a part of it is. -/
def Covers (cs cls : List Clause) : Prop := ∀ c ∈ cs, ∃ d ∈ cls, d.Perm c ∨ (d.Nodup ∧ d ⊆ c)

theorem Covers.refl (cs : List Clause) : Covers cs cs := fun c hc => ⟨c, hc, Or.inl (.refl _)⟩

theorem Covers.trans {a b c : List Clause} (h1 : Covers a b) (h2 : Covers b c) : Covers a c := by
  intro x hx
  obtain ⟨y, hy, h1⟩ := h1 x hx
  obtain ⟨z, hz, h2⟩ := h2 y hy
  refine ⟨z, hz, ?_⟩
  rcases h1 with h1 | ⟨h1, h1'⟩ <;> rcases h2 with h2 | ⟨h2, h2'⟩
  · exact Or.inl (h2.trans h1)
  · exact Or.inr ⟨h2, fun _ hx => h1.subset (h2' hx)⟩
  · exact Or.inr ⟨h2.nodup_iff.2 h1, fun _ hx => h1' (h2.subset hx)⟩
  · exact Or.inr ⟨h2, fun _ hx => h1' (h2' hx)⟩

theorem Covers.of_subset {cs cls : List Clause} (h : ∀ c ∈ cs, c ∈ cls) : Covers cs cls :=
  fun c hc => ⟨c, h c hc, Or.inl (.refl _)⟩

/-- Literals of level 0 follow by unit propagation. -/
theorem derived_zero {s : BS} (h : Check.Good Th A b s) (hz : ZeroReason s.t) {v : Var}
    (hv : v.type = .boolean) (h0 : s.t.level v = some 0) : Derived s.cls (trueLit s.t v) := by
  revert hv h0
  refine before_induction h.base.inv (P := fun v => v.type = .boolean → s.t.level v = some 0 →
    Derived s.cls (trueLit s.t v)) ?_ v
  intro v ih hv h0
  have hvb : v = .bool v.ord := by rcases v with ⟨ty, n⟩; simp only at hv; subst hv; rfl
  rcases hr : s.t.reason v with _ | r
  · rw [hvb] at h0 hr
    exact absurd hr (hz _ h0)
  · obtain ⟨h1, rest, h2, h3⟩ := h.head _ _ hr
    refine .unit (clause_mem h1) (by rw [h2]) fun m hm => ?_
    obtain ⟨g1, g2⟩ := h.rok.others _ _ hr m (by rw [h2]; simp [hm]) (by rintro rfl; exact h3 hm)
    have hneg : evalLit s.t.bools m.neg = some true := evalLit_neg_true.2 g1
    have hlev : s.t.level m.var = some 0 := by
      obtain ⟨lw, lv, a1, a2, a3⟩ := g2
      rw [h0] at a2; cases a2
      rw [a1]; congr 1; omega
    have := ih m.var g2 rfl hlev
    rw [← trueLit_of_eval hneg]
    simpa using this

/-- When the Boolean plugin has propagated, the derived literals are true. -/
theorem derived_true {s : BS} (h : BoolOk A .complete s) {cs : List Clause} (hcv : Covers cs s.cls) {l : Lit}
    (hd : Derived cs l) : evalLit s.t.bools l = some true := by
  obtain ⟨hi, hws, hdom, hun, -⟩ := h.stage
  induction hd with
  | @unit c rest l hc hp _ ih =>
    have hrest : ∀ m ∈ rest, evalLit s.t.bools m = some false := fun m hm => evalLit_neg_true.1 (ih m hm)
    obtain ⟨d, hd, hdc⟩ := hcv c hc
    obtain ⟨r, hr, rfl⟩ := mem_clause hd
    have hsub : ∀ m ∈ s.clause r, m = l ∨ m ∈ rest := by
      intro m hm
      have : m ∈ c := hdc.elim (fun h => h.subset hm) (fun h => h.2 hm)
      simpa using hp.subset this
    have htrue : ∀ m ∈ s.clause r, evalLit s.t.bools m = some true → evalLit s.t.bools l = some true := by
      intro m hm ht
      rcases hsub m hm with rfl | h
      · exact ht
      · rw [hrest m h] at ht; cases ht
    by_cases hf : ∃ w ∈ (s.clause r).take 2, evalLit s.t.bools w = some false
    · obtain ⟨w, hw, hf⟩ := hf
      obtain ⟨o, ⟨rest', h1⟩, h2, -⟩ := (hdom r hr w hw hf).resolve_right id
      exact htrue o (by rcases h1 with h1 | h1 <;> rw [h1] <;> simp) h2
    · have hnf : ∀ w ∈ (s.clause r).take 2, w = l ∧ l ∉ rest := by
        intro w hw
        have hwl : w = l := by
          rcases hsub w (List.mem_of_mem_take hw) with e | e
          · exact e
          · exact absurd ⟨w, hw, hrest w e⟩ hf
        exact ⟨hwl, fun hm => hf ⟨w, hw, by rw [hwl]; exact hrest l hm⟩⟩
      rcases hcl : s.clause r with _ | ⟨x, _ | ⟨y, ys⟩⟩
      · exact absurd hcl (hws.ne r hr)
      · have hx := (hnf x (by rw [hcl]; simp)).1
        subst hx
        have hlev := hun r hr x hcl
        obtain ⟨b', hb⟩ := (evalLit_isSome hi x).2 ⟨_, hlev⟩
        rcases b' with _ | _
        · exact absurd ⟨x, by rw [hcl]; simp, hb⟩ hf
        · exact hb
      · exfalso
        obtain ⟨hx, hn⟩ := hnf x (by rw [hcl]; simp)
        obtain ⟨hy, -⟩ := hnf y (by rw [hcl]; simp)
        subst hx
        subst hy
        rw [hcl] at hdc
        rcases hdc with h | ⟨h, -⟩
        · have := (h.trans hp).cons_inv
          exact hn (this.subset (by simp))
        · simp at h

/-- The learned clauses have no literal twice. -/
def LearnedNodup (s : BS) : Prop := ∀ c ∈ s.cls.drop s.na, c.Nodup

/-- Clauses before and after a step that only moves literals. -/
structure Moves (s s' : BS) : Prop where
  len : s'.cls.length = s.cls.length
  na : s'.na = s.na
  perm : ∀ r, (s'.clause r).Perm (s.clause r)

theorem Moves.refl (s : BS) : Moves s s := ⟨rfl, rfl, fun _ => .refl _⟩

theorem Moves.trans {a b c : BS} (h1 : Moves a b) (h2 : Moves b c) : Moves a c :=
  ⟨h2.len.trans h1.len, h2.na.trans h1.na, fun r => (h2.perm r).trans (h1.perm r)⟩

theorem Moves.covers {s s' : BS} (h : Moves s s') : Covers s.cls s'.cls := by
  intro c hc
  obtain ⟨r, hr, rfl⟩ := mem_clause hc
  exact ⟨s'.clause r, clause_mem (by rw [h.len]; exact hr), Or.inl (h.perm r)⟩

theorem Moves.nodup {s s' : BS} (h : Moves s s') (hn : LearnedNodup s) : LearnedNodup s' := by
  intro c hc
  rw [h.na] at hc
  obtain ⟨i, hi, e⟩ := List.mem_iff_getElem.1 hc
  rw [List.getElem_drop] at e
  rw [List.length_drop] at hi
  have hlt : s.na + i < s'.cls.length := by omega
  have hc' : s'.clause (s.na + i) = c := by
    simp [clause, List.getD_eq_getElem?_getD, List.getElem?_eq_getElem hlt, e]
  have hlt2 : s.na + i < s.cls.length := by rw [← h.len]; exact hlt
  have : (s.clause (s.na + i)).Nodup := by
    refine hn _ ?_
    have hi2 : i < (s.cls.drop s.na).length := by rw [List.length_drop]; omega
    refine List.mem_iff_getElem.2 ⟨i, hi2, ?_⟩
    rw [List.getElem_drop]
    simp [clause, List.getD_eq_getElem?_getD, List.getElem?_eq_getElem hlt2]
  rw [← hc']
  exact (h.perm _).nodup_iff.2 this

/-- A trail that keeps the levels of assigned variables, and the declared variables. -/
structure Later (t t' : Trail Nat) : Prop where
  old : ∀ v k, t.level v = some k → t'.level v = some k
  bools : t.bools.num ≤ t'.bools.num
  rats : t'.rats.num = t.rats.num

theorem Later.refl (t : Trail Nat) : Later t t := ⟨fun _ _ h => h, le_refl _, rfl⟩

theorem Later.trans {a b c : Trail Nat} (h1 : Later a b) (h2 : Later b c) : Later a c :=
  ⟨fun v k h => h2.old v k (h1.old v k h), h1.bools.trans h2.bools, h2.rats.trans h1.rats⟩

theorem propagates_later {s s' : BS} {c : Option Clause} (h : Check.Good Th A b s) (hp : Propagates s c s') :
    Moves s s' ∧ Later s.t s'.t := by
  obtain ⟨s0, a1, a2, a3, -, -, -, -, hx, b1, b2, -, -, b5⟩ := propagates_spec (Q := fun _ => False)
    h.base.inv h.base.db (fun h' => h.base.ws (Or.inr h')) (by simp) (by simp) hp
  have hcl : s0.clause = s.clause := by funext r; simp [clause, a1]
  refine ⟨⟨by rw [hx.cls.len, a1], ?_, fun r => by rw [← hcl]; exact hx.cls.perm r⟩, ?_, ?_, ?_⟩
  · rw [hx.na, a3]
  · rw [← a2]; exact fun v k hv => (hx.old v k hv).1
  · have := congrFun hx.num .boolean
    rw [a2] at this
    exact le_of_eq this.symm
  · rw [propagates_rats h hp]

theorem frame_later {s : BS} {la la' : LA Nat} (ht : la.trail = s.t) (g2 : LA.Frame la la') :
    Moves s (follow s la') ∧ Later s.t (follow s la').t := by
  refine ⟨⟨rfl, rfl, fun _ => .refl _⟩, ?_, ?_, ?_⟩
  · rw [← ht]; exact g2.lvl
  · rw [← ht]; exact g2.num
  · rw [← ht]
    show la'.trail.rats.num = _
    rw [g2.rats]

theorem lra_later {st : Yaga.Stage} {s : BS} {la : LA Nat} (h : Core hv hc op S A true st ⟨s, la⟩)
    (hs : st ≠ .conflict) {la' : LA Nat} {cs : List Clause} (hp : la.propagate hv hc op = (la', cs)) :
    Moves s (follow s la') ∧ Later s.t (follow s la').t := by
  obtain ⟨w, hg⟩ := h.reach.good
  obtain ⟨g1, g2, g3⟩ := hg.propagate (o := op)
  simp only at hg g1 g2 g3
  rw [hp] at g1 g2 g3
  exact frame_later (la := la.takeAssigned.1) h.trail g2

/-- `Theory_combination::propagate` moves literals in clauses and assigns variables. -/
theorem prop_later {q q' : QS} {cs : List Clause} (hp : QProp hv hc op q cs q') :
    ∀ {b : Bool} {st : Yaga.Stage}, Core hv hc op S A b st q → st ≠ .conflict →
    Moves q.s q'.s ∧ Later q.s.t q'.s.t := by
  induction hp with
  | @boolConflict q s c h =>
    intro b st hC hs
    obtain ⟨w, hg⟩ := hC.reach.good
    exact propagates_later (hC.good q.la.store hg.keep.base.inv (Kept.refl _)) h
  | @lraConflict q s la cs h hp hne =>
    intro b st hC hs
    obtain ⟨w, hg⟩ := hC.reach.good
    have h1 := propagates_later (hC.good q.la.store hg.keep.base.inv (Kept.refl _)) h
    obtain ⟨st', h2, h3, -⟩ := core_bool hC hs h
    have h4 := lra_later h3 h2 hp
    exact ⟨h1.1.trans h4.1, h1.2.trans h4.2⟩
  | @done q s la h hp hz =>
    intro b st hC hs
    obtain ⟨w, hg⟩ := hC.reach.good
    have h1 := propagates_later (hC.good q.la.store hg.keep.base.inv (Kept.refl _)) h
    obtain ⟨st', h2, h3, -⟩ := core_bool hC hs h
    have h4 := lra_later h3 h2 hp
    exact ⟨h1.1.trans h4.1, h1.2.trans h4.2⟩
  | @again q q' s la cs h hp hz hr ih =>
    intro b st hC hs
    obtain ⟨w, hg⟩ := hC.reach.good
    have h1 := propagates_later (hC.good q.la.store hg.keep.base.inv (Kept.refl _)) h
    obtain ⟨st', h2, h3, -⟩ := core_bool hC hs h
    have h4 := lra_later h3 h2 hp
    obtain ⟨g1, -⟩ := core_lra h3 h2 hp
    have h5 := ih g1 (by rw [if_neg (by simp)]; split <;> simp)
    exact ⟨(h1.1.trans h4.1).trans h5.1, (h1.2.trans h4.2).trans h5.2⟩

/-- No learned clause has a literal twice. -/
theorem learned_nodup {s : BS} (hi : s.t.Inv) (hr : ReasonsOk s.clause s.t) (ht : Tight s.clause s.t)
    (hz : ZeroReason s.t) {cs ls : List Clause} {lvl : Int}
    (hf : ∀ c ∈ cs, ∀ l ∈ c, evalLit s.t.bools l = some false) (hl : Learned s cs ls lvl) :
    ∀ c ∈ ls, c.Nodup := by
  obtain ⟨learned, h1, h2, rfl⟩ := hl.analysed
  intro c hc
  obtain ⟨d, hd, l, -, e2⟩ := analyzeConflicts_mem h1 c (learnSelect_mem hc)
  obtain ⟨c0, lvl', e3, -, e4, -⟩ := analyze_spec hi hr ht hz d (hf d hd)
  simp only [analyzeOne, e3, Option.map_some, Option.some.injEq, Prod.mk.injEq] at e2
  rw [← e2.1]
  split
  · exact e4
  · exact (minimize_sublist _ _ _).nodup e4

/-- The clauses after learning. -/
theorem learnAll_nodup {s : BS} {ls : List Clause} (hn : LearnedNodup s) (hl : ∀ c ∈ ls, c.Nodup)
    (hna : s.na ≤ s.cls.length)
    (hcls : (s.learnAll ls).cls = s.cls ++ ls) (hna' : (s.learnAll ls).na = s.na) : LearnedNodup (s.learnAll ls) := by
  intro c hc
  rw [hcls, hna', List.drop_append_of_le_length hna] at hc
  rcases List.mem_append.1 hc with hc | hc
  · exact hn c hc
  · exact hl c hc

/-- A restart removes clauses of which a part stays. -/
theorem restart_covers {s : BS} (hn : LearnedNodup s) (hne : ∀ c ∈ s.cls, c ≠ []) (old : Nat) :
    Covers s.cls (Check.restart s old).cls := by
  obtain ⟨h1, h2⟩ := removeSubsumed_inv (s.cls.drop s.na) old
  intro c hc
  have hc' : c ∈ s.cls.take s.na ++ s.cls.drop s.na := by rw [List.take_append_drop]; exact hc
  rcases List.mem_append.1 hc' with h | h
  · exact ⟨c, List.mem_append_left _ h, Or.inl (.refl _)⟩
  · obtain ⟨d, hd, hdc⟩ := h2 c h (hne c hc)
    exact ⟨d, List.mem_append_right _ hd, Or.inr ⟨hn d (h1.subset hd), hdc⟩⟩

theorem restart_nodup {s : BS} (hn : LearnedNodup s) (hna : s.na ≤ s.cls.length) (old : Nat) :
    LearnedNodup (Check.restart s old) := by
  intro c hc
  have : (Check.restart s old).cls.drop (Check.restart s old).na = removeSubsumed (s.cls.drop s.na) old := by
    show (s.cls.take s.na ++ removeSubsumed (s.cls.drop s.na) old).drop s.na = _
    rw [List.drop_append_of_le_length (by rw [List.length_take]; omega)]
    simp
  rw [this] at hc
  exact hn c ((removeSubsumed_inv _ old).1.subset hc)

end Qf
end Yaga
