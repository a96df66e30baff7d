import Verif.Model.Learn
import Verif.Proofs.Std
import Verif.Proofs.Literal
import Mathlib.Tactic.Linarith

namespace Yaga
variable {R : Type}

theorem clauseLexLt_asymm (a b : Clause) (h : clauseLexLt a b = true) : clauseLexLt b a = false := by
  induction a generalizing b with
  | nil => cases b <;> simp_all [clauseLexLt]
  | cons x xs ih =>
    cases b with
    | nil => simp [clauseLexLt] at h
    | cons y ys =>
      simp only [clauseLexLt, Bool.or_eq_true, decide_eq_true_eq, Bool.and_eq_true, beq_iff_eq,
        Bool.or_eq_false_iff, decide_eq_false_iff_not, Bool.and_eq_false_iff, beq_eq_false_iff_ne] at *
      rcases h with h | ⟨h1, h2⟩
      · exact ⟨by omega, Or.inl (by omega)⟩
      · exact ⟨by omega, Or.inr (ih ys h2)⟩

theorem clauseLexLt_trans (a b c : Clause) (h1 : clauseLexLt b a = false)
    (h2 : clauseLexLt c b = false) : clauseLexLt c a = false := by
  induction a generalizing b c with
  | nil =>
    cases c with
    | nil => rfl
    | cons _ _ => rfl
  | cons x xs ih =>
    cases b with
    | nil => simp [clauseLexLt] at h1
    | cons y ys =>
      cases c with
      | nil => simp [clauseLexLt] at h2
      | cons z zs =>
        simp only [clauseLexLt, Bool.or_eq_false_iff, decide_eq_false_iff_not,
          Bool.and_eq_false_iff, beq_eq_false_iff_ne] at *
        refine ⟨by omega, ?_⟩
        rcases Nat.lt_or_ge x.index z.index with h | h
        · left; omega
        · rcases h1.2 with h3 | h3
          · left; omega
          · rcases h2.2 with h4 | h4
            · left; omega
            · right; exact ih ys zs h3 h4

theorem clauseLexLt_total (a b : Clause) (h1 : clauseLexLt a b = false)
    (h2 : clauseLexLt b a = false) : a = b := by
  induction a generalizing b with
  | nil => cases b <;> simp_all [clauseLexLt]
  | cons x xs ih =>
    cases b with
    | nil => simp [clauseLexLt] at h2
    | cons y ys =>
      simp only [clauseLexLt, Bool.or_eq_false_iff, decide_eq_false_iff_not,
          Bool.and_eq_false_iff, beq_eq_false_iff_ne] at *
      have e : x.index = y.index := by omega
      rw [Lit.index_inj e, ih ys (h1.2.resolve_left (fun h => h e))
        (h2.2.resolve_left (fun h => h e.symm))]

theorem clauseLt_trans (a b c : Clause) (h1 : clauseLt b a = false) (h2 : clauseLt c b = false) :
    clauseLt c a = false := by
  simp only [clauseLt, Bool.or_eq_false_iff, decide_eq_false_iff_not,
    Bool.and_eq_false_iff, beq_eq_false_iff_ne] at *
  refine ⟨by omega, ?_⟩
  rcases h1.2 with h3 | h3
  · left; omega
  · rcases h2.2 with h4 | h4
    · left; omega
    · right; exact clauseLexLt_trans a b c h3 h4

theorem clauseLt_asymm (a b : Clause) (h : clauseLt a b = true) : clauseLt b a = false := by
  simp only [clauseLt, Bool.or_eq_true, decide_eq_true_eq, Bool.and_eq_true, beq_iff_eq,
    Bool.or_eq_false_iff, decide_eq_false_iff_not, Bool.and_eq_false_iff, beq_eq_false_iff_ne] at *
  rcases h with h | ⟨h1, h2⟩
  · exact ⟨by omega, Or.inl (by omega)⟩
  · exact ⟨by omega, Or.inr (clauseLexLt_asymm a b h2)⟩

theorem clauseLt_total (a b : Clause) (h1 : clauseLt a b = false) (h2 : clauseLt b a = false) :
    a = b := by
  simp only [clauseLt, Bool.or_eq_false_iff, decide_eq_false_iff_not,
    Bool.and_eq_false_iff, beq_eq_false_iff_ne] at *
  have e : a.length = b.length := by omega
  exact clauseLexLt_total a b (h1.2.resolve_left (fun h => h e))
    (h2.2.resolve_left (fun h => h e.symm))

/-- The distinct clauses after sorting and `unique`. -/
theorem uniq_sort_clauses (cs : List Clause) :
    (uniq (sortBy clauseLt cs)).Nodup ∧ ∀ c, c ∈ uniq (sortBy clauseLt cs) ↔ c ∈ cs := by
  refine ⟨uniq_nodup (r := fun a b => clauseLt b a = false) ?_ _
    (sortBy_pairwise clauseLt clauseLt_trans clauseLt_asymm cs), ?_⟩
  · intro a b h1 h2; exact clauseLt_total a b h2 h1
  · intro c; rw [mem_uniq, mem_sortBy]

theorem selectLowest_spec (rs : List (Clause × Int)) (cs : List Clause) (l0 : Int) :
    ∃ l, (selectLowest rs (cs, some l0)).2 = some l ∧ l ≤ l0 ∧ (∀ p ∈ rs, l ≤ p.2) ∧
      (selectLowest rs (cs, some l0)).1 =
        (if l = l0 then cs else []) ++ (rs.filter fun p => p.2 == l).map Prod.fst := by
  induction rs generalizing cs l0 with
  | nil => exact ⟨l0, rfl, by omega, by simp, by simp [selectLowest]⟩
  | cons p rs ih =>
    obtain ⟨c, lc⟩ := p
    unfold selectLowest
    split
    · rename_i hlt
      obtain ⟨l, h1, h2, h3, h4⟩ := ih [c] lc
      refine ⟨l, h1, by omega, ?_, ?_⟩
      · intro p hp
        rcases List.mem_cons.1 hp with rfl | hp
        · exact h2
        · exact h3 p hp
      · rw [h4, if_neg (show l ≠ l0 by omega), List.filter_cons]
        by_cases e : l = lc
        · simp [e]
        · have : (lc == l) = false := by simpa using fun h => e h.symm
          simp [e, this]
    · split
      · rename_i hlt heq
        subst heq
        obtain ⟨l, h1, h2, h3, h4⟩ := ih (cs ++ [c]) lc
        refine ⟨l, h1, by omega, ?_, ?_⟩
        · intro p hp
          rcases List.mem_cons.1 hp with rfl | hp
          · exact h2
          · exact h3 p hp
        · rw [h4, List.filter_cons]
          by_cases e : l = lc
          · simp [e]
          · have : (lc == l) = false := by simpa using fun h => e h.symm
            simp [e, this]
      · rename_i hlt hne
        obtain ⟨l, h1, h2, h3, h4⟩ := ih cs l0
        refine ⟨l, h1, h2, ?_, ?_⟩
        · intro p hp
          rcases List.mem_cons.1 hp with rfl | hp
          · simp only; omega
          · exact h3 p hp
        · rw [h4, List.filter_cons]
          have : (lc == l) = false := by simp; omega
          simp [this]

end Yaga
