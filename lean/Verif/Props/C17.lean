/-
C17: learning keeps the clause set.
-/
import Verif.Proofs.Learn
import Verif.Proofs.AnalysisExample

namespace Yaga
variable {R : Type}

/-- A clause is a semantic split in a trail: its first two literals have the same level. -/
def Spec.Split (t : Trail R) (c : Clause) : Prop :=
  ∃ a b rest, c = a :: b :: rest ∧ t.level a.var = t.level b.var

theorem isSemanticSplit_iff (t : Trail R) (c : Clause) :
    isSemanticSplit t c = true ↔ Spec.Split t c := by
  unfold Spec.Split
  match c with
  | [] => simp [isSemanticSplit]
  | [a] => simp [isSemanticSplit]
  | a :: b :: rest =>
    simp only [isSemanticSplit, beq_iff_eq, List.cons.injEq]
    constructor
    · intro h; exact ⟨a, b, rest, ⟨rfl, rfl, rfl⟩, h⟩
    · rintro ⟨_, _, _, ⟨rfl, rfl, _⟩, h⟩; exact h

/-- C17. `learn` appends the returned clauses to the database. The returned clauses are distinct and
all of them were given; a given clause is missing only if it is a semantic split and some other
given clause is not one; if at least one clause was given, at least one is returned; and the
returned clauses are either all semantic splits or none of them is. -/
theorem C17_learn (t : Trail R) (learned clauses : List Clause) :
    (learn t learned clauses).1 = learned ++ (learn t learned clauses).2 ∧
    (learn t learned clauses).2.Nodup ∧
    (∀ c, c ∈ (learn t learned clauses).2 ↔
      c ∈ clauses ∧ (Spec.Split t c → ∀ d ∈ clauses, Spec.Split t d)) ∧
    (clauses ≠ [] → (learn t learned clauses).2 ≠ []) ∧
    ((∀ c ∈ (learn t learned clauses).2, Spec.Split t c) ∨
      ∀ c ∈ (learn t learned clauses).2, ¬ Spec.Split t c) := by
  obtain ⟨hnd, hmem⟩ := uniq_sort_clauses clauses
  have hmem2 : ∀ c, c ∈ (learn t learned clauses).2 ↔
      c ∈ clauses ∧ (Spec.Split t c → ∀ d ∈ clauses, Spec.Split t d) := by
    intro c
    simp only [learn, learnSelect]
    split
    · rename_i hany
      simp only [List.any_eq_true, Bool.not_eq_true'] at hany
      obtain ⟨d, hd, hds⟩ := hany
      simp only [List.mem_filter, hmem, Bool.not_eq_true', ← isSemanticSplit_iff]
      constructor
      · rintro ⟨h1, h2⟩; exact ⟨h1, fun h => by rw [h2] at h; cases h⟩
      · rintro ⟨h1, h2⟩
        refine ⟨h1, ?_⟩
        rw [Bool.eq_false_iff]
        intro h
        have := h2 h d ((hmem d).1 hd)
        rw [hds] at this; cases this
    · rename_i hany
      simp only [List.any_eq_true, Bool.not_eq_true', not_exists, not_and, Bool.not_eq_false] at hany
      simp only [hmem, ← isSemanticSplit_iff]
      exact ⟨fun h => ⟨h, fun _ d hd => hany d ((hmem d).2 hd)⟩, fun h => h.1⟩
  refine ⟨rfl, ?_, hmem2, ?_, ?_⟩
  · simp only [learn, learnSelect]
    split
    · exact hnd.filter _
    · exact hnd
  · intro hne he
    by_cases hall : ∀ d ∈ clauses, Spec.Split t d
    · obtain ⟨c, hc⟩ := List.exists_mem_of_ne_nil clauses hne
      have := (hmem2 c).2 ⟨hc, fun _ => hall⟩
      rw [he] at this; cases this
    · push Not at hall
      obtain ⟨d, hd, hds⟩ := hall
      have := (hmem2 d).2 ⟨hd, fun h => (hds h).elim⟩
      rw [he] at this; cases this
  · by_cases hall : ∀ d ∈ clauses, Spec.Split t d
    · left; intro c hc; exact hall c ((hmem2 c).1 hc).1
    · right; intro c hc hs; exact hall (((hmem2 c).1 hc).2 hs)

/-- C17 (selection before learning). From the analysed conflicts exactly those with the lowest
backtrack level are passed on, in their order, and that level is returned. -/
theorem C17_lowest_level (deref : R → Clause) (t : Trail R) (conflicts : List Clause)
    (rs : List (Clause × Int)) (hne : conflicts ≠ [])
    (hrs : conflicts.mapM (analyzeOne deref t) = some rs) :
    ∃ l, analyzeConflicts deref t conflicts =
        some ((rs.filter fun p => p.2 == l).map Prod.fst, some l) ∧
      (∀ p ∈ rs, l ≤ p.2) ∧ ∃ p ∈ rs, p.2 = l := by
  simp only [analyzeConflicts, hrs, Option.map_some]
  cases rs with
  | nil =>
    exfalso
    cases conflicts with
    | nil => exact hne rfl
    | cons c cs =>
      simp only [List.mapM_cons, Option.pure_def, Option.bind_eq_bind, Option.bind_eq_some_iff,
        Option.some.injEq] at hrs
      obtain ⟨_, _, _, _, h⟩ := hrs; cases h
  | cons p rs =>
    obtain ⟨c, lc⟩ := p
    obtain ⟨l, h1, h2, h3, h4⟩ := selectLowest_spec rs [c] lc
    refine ⟨l, ?_, ?_, ?_⟩
    · have h5 : selectLowest ((c, lc) :: rs) ([], none) = selectLowest rs ([c], some lc) := rfl
      rw [h5]
      have h6 : selectLowest rs ([c], some lc) =
        ((selectLowest rs ([c], some lc)).1, (selectLowest rs ([c], some lc)).2) := rfl
      rw [h6, h1, h4, List.filter_cons]
      by_cases e : l = lc
      · simp [e]
      · have : (lc == l) = false := by simpa using fun h => e h.symm
        simp [e, this]
    · intro p hp
      rcases List.mem_cons.1 hp with rfl | hp
      · exact h2
      · exact h3 p hp
    · by_cases e : l = lc
      · exact ⟨(c, lc), List.mem_cons_self, e.symm⟩
      · -- the lowest level was attained by one of the other conflicts
        by_contra hno
        push Not at hno
        have hlast : ∀ (rs : List (Clause × Int)) (cs : List Clause) (l0 : Int),
            ∀ l, (selectLowest rs (cs, some l0)).2 = some l → l = l0 ∨ ∃ p ∈ rs, p.2 = l := by
          intro rs
          induction rs with
          | nil => intro cs l0 l h; simp [selectLowest] at h; exact Or.inl h.symm
          | cons p rs ih =>
            intro cs l0 l h
            obtain ⟨c', l'⟩ := p
            unfold selectLowest at h
            split at h
            · rcases ih _ _ _ h with e | ⟨p, hp, e⟩
              · exact Or.inr ⟨(c', l'), by simp, e.symm⟩
              · exact Or.inr ⟨p, List.mem_cons_of_mem _ hp, e⟩
            · split at h <;>
              · rcases ih _ _ _ h with e | ⟨p, hp, e⟩
                · exact Or.inl e
                · exact Or.inr ⟨p, List.mem_cons_of_mem _ hp, e⟩
        rcases hlast rs [c] lc l h1 with h | ⟨p, hp, h⟩
        · exact e h
        · exact hno p (List.mem_cons_of_mem _ hp) h

/-- Non-vacuity: a duplicate and a semantic split are dropped (in `Example.t4` the variables 1 and 2
are both at level 2). -/
example : (learn Example.t4 [] [[(Lit.pos 1).neg, (Lit.pos 0).neg], [(Lit.pos 1).neg, (Lit.pos 2).neg],
    [(Lit.pos 1).neg, (Lit.pos 0).neg]]).2 = [[(Lit.pos 1).neg, (Lit.pos 0).neg]] := by decide

example : (learn Example.t4 [] [[(Lit.pos 1).neg, (Lit.pos 2).neg]]).2 =
    [[(Lit.pos 1).neg, (Lit.pos 2).neg]] := by decide

example : ∃ rs, [Example.conflict, [(Lit.pos 0).neg]].mapM (analyzeOne id Example.t4) = some rs ∧
    (rs.map Prod.snd) = [1, 0] := ⟨_, rfl, by decide⟩

#print axioms C17_learn
#print axioms C17_lowest_level

end Yaga
