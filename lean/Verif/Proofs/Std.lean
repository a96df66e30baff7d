import Verif.Model.Std
import Mathlib.Data.Finset.Card

namespace Yaga
section sort
variable {α : Type} (lt : α → α → Bool)

theorem insertBy_perm (x : α) (xs : List α) : (insertBy lt x xs).Perm (x :: xs) := by
  induction xs with
  | nil => exact List.Perm.refl _
  | cons y ys ih =>
    unfold insertBy
    split
    · exact (ih.cons y).trans (List.Perm.swap x y ys)
    · exact List.Perm.refl _

theorem sortBy_perm (xs : List α) : (sortBy lt xs).Perm xs := by
  induction xs with
  | nil => exact List.Perm.refl _
  | cons x xs ih => exact (insertBy_perm lt x _).trans (ih.cons x)

theorem mem_sortBy (xs : List α) (a : α) : a ∈ sortBy lt xs ↔ a ∈ xs := (sortBy_perm lt xs).mem_iff

theorem length_sortBy (xs : List α) : (sortBy lt xs).length = xs.length := (sortBy_perm lt xs).length_eq

theorem insertBy_pairwise (htrans : ∀ a b c, lt b a = false → lt c b = false → lt c a = false)
    (htotal : ∀ a b, lt a b = true → lt b a = false)
    (x : α) (xs : List α) (h : xs.Pairwise fun a b => lt b a = false) :
    (insertBy lt x xs).Pairwise fun a b => lt b a = false := by
  induction xs with
  | nil => simp [insertBy]
  | cons y ys ih =>
    obtain ⟨h1, h2⟩ := List.pairwise_cons.1 h
    unfold insertBy
    split
    · rename_i hyx
      refine List.pairwise_cons.2 ⟨?_, ih h2⟩
      intro z hz
      rcases List.mem_cons.1 ((insertBy_perm lt x ys).mem_iff.1 hz) with rfl | hz
      · exact htotal _ _ hyx
      · exact h1 z hz
    · rename_i hyx
      have hyx : lt y x = false := by simpa using hyx
      refine List.pairwise_cons.2 ⟨?_, h⟩
      intro z hz
      rcases List.mem_cons.1 hz with rfl | hz
      · exact hyx
      · exact htrans _ _ _ hyx (h1 z hz)

/-- The result of `sortBy` is ordered if `lt` is a strict weak order. -/
theorem sortBy_pairwise (htrans : ∀ a b c, lt b a = false → lt c b = false → lt c a = false)
    (htotal : ∀ a b, lt a b = true → lt b a = false) (xs : List α) :
    (sortBy lt xs).Pairwise fun a b => lt b a = false := by
  induction xs with
  | nil => exact List.Pairwise.nil
  | cons x xs ih => exact insertBy_pairwise lt htrans htotal x _ ih

end sort

variable {α : Type} [DecidableEq α]

theorem mem_uniq (xs : List α) (a : α) : a ∈ uniq xs ↔ a ∈ xs := by
  fun_induction uniq xs with
  | case1 => simp
  | case2 => simp
  | case3 y rest ih => simp [ih]
  | case4 x y rest h ih => simp [ih]

theorem uniq_sublist (xs : List α) : (uniq xs).Sublist xs := by
  fun_induction uniq xs with
  | case1 => simp
  | case2 => simp
  | case3 y rest ih => exact ih.trans (List.sublist_cons_self _ _)
  | case4 x y rest h ih => exact ih.cons_cons x

/-- On a list sorted by an antisymmetric relation, `uniq` removes all duplicates. -/
theorem uniq_nodup {r : α → α → Prop} (hanti : ∀ a b, r a b → r b a → a = b)
    (xs : List α) (h : xs.Pairwise r) : (uniq xs).Nodup := by
  fun_induction uniq xs with
  | case1 => simp
  | case2 => simp
  | case3 y rest ih => exact ih (List.pairwise_cons.1 h).2
  | case4 x y rest hne ih =>
    obtain ⟨h1, h2⟩ := List.pairwise_cons.1 h
    refine List.nodup_cons.2 ⟨?_, ih h2⟩
    rw [mem_uniq]
    intro hx
    rcases List.mem_cons.1 hx with e | hx'
    · exact hne e
    · have hxy := h1 y List.mem_cons_self
      have hyx := (List.pairwise_cons.1 h2).1 x hx'
      exact hne (hanti x y hxy hyx)

theorem uniq_pairwise {r : α → α → Prop} (xs : List α) (h : xs.Pairwise r) :
    (uniq xs).Pairwise r := h.sublist (uniq_sublist xs)

theorem mapM_eq_some_iff {α β : Type} (f : α → Option β) (xs : List α) (ys : List β) :
    xs.mapM f = some ys ↔ xs.map f = ys.map some := by
  induction xs generalizing ys with
  | nil => cases ys <;> simp
  | cons x xs ih =>
    simp only [List.mapM_cons, List.map_cons]
    cases hx : f x with
    | none => cases ys <;> simp
    | some b =>
      cases hxs : xs.mapM f with
      | none =>
        have : ∀ ys : List β, xs.map f ≠ ys.map some := fun ys h => by
          have := (ih ys).2 h; rw [hxs] at this; cases this
        cases ys with
        | nil => simp
        | cons y ys => simp [this ys]
      | some bs =>
        have hbs := (ih bs).1 hxs
        cases ys with
        | nil => simp
        | cons y ys =>
          simp only [List.map_cons, List.cons.injEq, Option.some.injEq]
          constructor
          · intro h
            have h' : b :: bs = y :: ys := by simpa using h
            cases h'; exact ⟨rfl, hbs⟩
          · rintro ⟨rfl, h⟩
            have := (ih ys).2 h; rw [hxs] at this; cases this; rfl

end Yaga
