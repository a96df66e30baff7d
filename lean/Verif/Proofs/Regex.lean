/-
The interpreter of patterns finds the longest match (C70).
-/
import Verif.Model.Lexer
import Verif.Proofs.Std

namespace Yaga

open Spec

namespace Regex

theorem nullable_iff (r : RE) : nullable r = true ↔ r.Lang [] := by
  induction r with
  | zero => simp [nullable, RE.Lang]
  | eps => simp [nullable, RE.Lang]
  | cls p => simp [nullable, RE.Lang]
  | seq a b iha ihb =>
    simp only [nullable, Bool.and_eq_true, RE.Lang, iha, ihb]
    constructor
    · rintro ⟨h1, h2⟩; exact ⟨[], [], rfl, h1, h2⟩
    · rintro ⟨u, v, h, h1, h2⟩
      obtain ⟨rfl, rfl⟩ := List.append_eq_nil_iff.mp h.symm
      exact ⟨h1, h2⟩
  | alt a b iha ihb => simp [nullable, RE.Lang, iha, ihb]
  | star a _ => simp only [nullable, RE.Lang, true_iff]; exact ⟨[], rfl, by simp⟩

theorem mkSeq_lang (a b : RE) (w : List Char) : (mkSeq a b).Lang w ↔ (RE.seq a b).Lang w := by
  unfold mkSeq
  split
  · simp [RE.Lang]
  · simp only [RE.Lang]
    exact ⟨fun h => ⟨[], w, rfl, rfl, h⟩, fun ⟨u, v, h1, h2, h3⟩ => by rw [h1, h2]; exact h3⟩
  · rfl

theorem mkAlt_lang (a b : RE) (w : List Char) : (mkAlt a b).Lang w ↔ (RE.alt a b).Lang w := by
  unfold mkAlt
  split
  · simp [RE.Lang]
  · simp [RE.Lang]
  · rfl

theorem deriv_iff (c : Char) (r : RE) (w : List Char) : (deriv c r).Lang w ↔ r.Lang (c :: w) := by
  induction r generalizing w with
  | zero => simp [deriv, RE.Lang]
  | eps => simp [deriv, RE.Lang]
  | cls p =>
    unfold deriv
    by_cases h : p c = true
    · rw [if_pos h]; simp only [RE.Lang]
      constructor
      · rintro rfl; exact ⟨c, rfl, h⟩
      · rintro ⟨d, h1, _⟩; simp at h1; exact h1.2
    · rw [if_neg h]; simp only [RE.Lang, false_iff]
      rintro ⟨d, h1, h2⟩
      simp at h1; rw [← h1.1] at h2; exact h h2
  | seq a b iha ihb =>
    have key : (RE.seq a b).Lang (c :: w) ↔
        (RE.seq (deriv c a) b).Lang w ∨ (a.Lang [] ∧ b.Lang (c :: w)) := by
      simp only [RE.Lang]
      constructor
      · rintro ⟨u, v, h, h1, h2⟩
        cases u with
        | nil => right; rw [List.nil_append] at h; subst h; exact ⟨h1, h2⟩
        | cons d u =>
          simp only [List.cons_append, List.cons.injEq] at h
          obtain ⟨rfl, rfl⟩ := h
          exact Or.inl ⟨u, v, rfl, (iha u).mpr h1, h2⟩
      · rintro (⟨u, v, rfl, h1, h2⟩ | ⟨h1, h2⟩)
        · exact ⟨c :: u, v, rfl, (iha u).mp h1, h2⟩
        · exact ⟨[], c :: w, rfl, h1, h2⟩
    unfold deriv
    by_cases h : nullable a = true
    · rw [if_pos h, mkAlt_lang]
      show (mkSeq (deriv c a) b).Lang w ∨ (deriv c b).Lang w ↔ _
      rw [mkSeq_lang, ihb, key]
      have := (nullable_iff a).mp h
      simp [this]
    · rw [if_neg h, mkSeq_lang, key]
      have : ¬ a.Lang [] := fun h' => h ((nullable_iff a).mpr h')
      simp [this]
  | alt a b iha ihb =>
    unfold deriv
    rw [mkAlt_lang]
    show (deriv c a).Lang w ∨ (deriv c b).Lang w ↔ a.Lang (c :: w) ∨ b.Lang (c :: w)
    rw [iha, ihb]
  | star a iha =>
    unfold deriv
    rw [mkSeq_lang]
    simp only [RE.Lang]
    constructor
    · rintro ⟨u, v, rfl, h1, us, rfl, h2⟩
      exact ⟨(c :: u) :: us, rfl, by
        intro x hx
        rcases List.mem_cons.mp hx with rfl | hx
        · exact (iha u).mp h1
        · exact h2 x hx⟩
    · rintro ⟨us, h, hu⟩
      induction us with
      | nil => simp at h
      | cons x us ih =>
        cases x with
        | nil => exact ih (by simpa using h) fun u h => hu u (by simp [h])
        | cons d x =>
          simp only [List.flatten_cons, List.cons_append, List.cons.injEq] at h
          obtain ⟨rfl, rfl⟩ := h
          exact ⟨x, us.flatten, rfl, (iha x).mpr (hu _ (by simp)), us, rfl, fun u h => hu u (by simp [h])⟩

/-- A length is that of the longest accepted prefix. -/
def IsLongest (r : RE) (cs : List Char) (n : Nat) : Prop :=
  n ≤ cs.length ∧ r.Lang (cs.take n) ∧ ∀ m, m ≤ cs.length → r.Lang (cs.take m) → m ≤ n

theorem longestFrom_spec (cs : List Char) (r : RE) (k : Nat) (best : Option Nat) :
    (∃ n, IsLongest r cs n ∧ longestFrom r k best cs = some (k + n)) ∨
    ((∀ m, m ≤ cs.length → ¬ r.Lang (cs.take m)) ∧ longestFrom r k best cs = best) := by
  induction cs generalizing r k best with
  | nil =>
    cases hr : r with
    | zero => right; exact ⟨fun m _ h => h, rfl⟩
    | _ =>
      rw [← hr]
      have : longestFrom r k best [] = if nullable r then some k else best := by rw [hr]; rfl
      rw [this]
      by_cases h : nullable r = true
      · left
        exact ⟨0, ⟨by simp, (nullable_iff r).mp h, fun m hm _ => by simpa using hm⟩, by rw [if_pos h]; rfl⟩
      · right
        refine ⟨fun m hm h' => h ((nullable_iff r).mpr ?_), by rw [if_neg h]⟩
        simpa using h'
  | cons c cs ih =>
    cases hr : r with
    | zero => right; exact ⟨fun m _ h => h, rfl⟩
    | _ =>
      rw [← hr]
      have hrec : longestFrom r k best (c :: cs) =
          longestFrom (deriv c r) (k + 1) (if nullable r then some k else best) cs := by rw [hr]; rfl
      rw [hrec]
      rcases ih (deriv c r) (k + 1) (if nullable r then some k else best) with ⟨n, h1, h2⟩ | ⟨h1, h2⟩
      · left
        refine ⟨n + 1, ⟨by simpa using h1.1, ?_, ?_⟩, by rw [h2]; congr 1; omega⟩
        · rw [List.take_succ_cons]; exact (deriv_iff c r _).mp h1.2.1
        · intro m hm hl
          cases m with
          | zero => omega
          | succ m =>
            rw [List.take_succ_cons] at hl
            have := h1.2.2 m (by simpa using hm) ((deriv_iff c r _).mpr hl)
            omega
      · have hno : ∀ m, m + 1 ≤ (c :: cs).length → ¬ r.Lang ((c :: cs).take (m + 1)) := by
          intro m hm hl
          rw [List.take_succ_cons] at hl
          exact h1 m (by simpa using hm) ((deriv_iff c r _).mpr hl)
        by_cases h : nullable r = true
        · left
          refine ⟨0, ⟨by simp, (nullable_iff r).mp h, ?_⟩, by rw [h2, if_pos h]; rfl⟩
          intro m hm hl
          cases m with
          | zero => exact le_refl _
          | succ m => exact (hno m hm hl).elim
        · right
          refine ⟨?_, by rw [h2, if_neg h]⟩
          intro m hm hl
          cases m with
          | zero => exact h ((nullable_iff r).mpr hl)
          | succ m => exact hno m hm hl

theorem longest_some {r : RE} {cs : List Char} {n : Nat} (h : longest r cs = some n) : IsLongest r cs n := by
  rcases longestFrom_spec cs r 0 none with ⟨m, h1, h2⟩ | ⟨_, h2⟩
  · rw [longest, h2] at h; cases h; rw [Nat.zero_add]; exact h1
  · rw [longest, h2] at h; cases h

theorem longest_none {r : RE} {cs : List Char} (h : longest r cs = none) : ∀ m, m ≤ cs.length → ¬ r.Lang (cs.take m) := by
  rcases longestFrom_spec cs r 0 none with ⟨m, h1, h2⟩ | ⟨h1, _⟩
  · rw [longest, h2] at h; cases h
  · exact h1

theorem prefix_take {u cs : List Char} (h : u <+: cs) : u.length ≤ cs.length ∧ cs.take u.length = u :=
  ⟨h.length_le, (List.prefix_iff_eq_take.mp h).symm⟩

theorem longest_prefix {r : RE} {cs : List Char} {n : Nat} (h : longest r cs = some n) {u : List Char} (hu : u <+: cs)
    (hl : r.Lang u) : u.length ≤ n := by
  obtain ⟨h1, h2⟩ := prefix_take hu
  exact (longest_some h).2.2 _ h1 (h2.symm ▸ hl)

theorem longest_none_prefix {r : RE} {cs : List Char} (h : longest r cs = none) {u : List Char} (hu : u <+: cs) :
    ¬ r.Lang u := by
  obtain ⟨h1, h2⟩ := prefix_take hu
  intro hl
  exact longest_none h _ h1 (h2.symm ▸ hl)

end Regex

namespace Lexer

open Regex

variable {α : Type}

theorem pick_none {cs : List Char} {rs : List (RE × α)} (h : pick cs rs = none) :
    ∀ r ∈ rs, ∀ u, u <+: cs → r.1.Lang u → u = [] := by
  induction rs with
  | nil => simp
  | cons ra rs ih =>
    obtain ⟨r, a⟩ := ra
    intro r' hr' u hu hl
    unfold pick at h
    cases h1 : longest r cs with
    | none =>
      rw [h1] at h
      rcases List.mem_cons.mp hr' with rfl | hr'
      · exact (longest_none_prefix h1 hu hl).elim
      · exact ih h r' hr' u hu hl
    | some n =>
      cases h2 : pick cs rs with
      | some p =>
        rw [h1, h2] at h
        simp only at h
        split at h <;> cases h
      | none =>
        rw [h1, h2] at h
        simp only at h
        have hn : n = 0 := by
          by_contra hn; rw [if_neg hn] at h; cases h
        rcases List.mem_cons.mp hr' with rfl | hr'
        · have := longest_prefix h1 hu hl
          exact List.length_eq_zero_iff.mp (by omega)
        · exact ih h2 r' hr' u hu hl

theorem take_ne_nil {cs : List Char} {n : Nat} (h1 : n ≤ cs.length) (h2 : n ≠ 0) : cs.take n ≠ [] := by
  intro h
  have := congrArg List.length h
  rw [List.length_take, Nat.min_eq_left h1] at this
  exact h2 this

theorem pick_some {cs : List Char} {rs : List (RE × α)} {n : Nat} {a : α} (h : pick cs rs = some (n, a)) :
    Munch rs cs (cs.take n) a ∧ n ≤ cs.length ∧ n ≠ 0 := by
  induction rs generalizing n a with
  | nil => cases h
  | cons ra rs ih =>
    obtain ⟨r, b⟩ := ra
    unfold pick at h
    cases h1 : longest r cs with
    | none =>
      rw [h1] at h
      obtain ⟨⟨g1, g2, g3, pre, q, post, g4, g5, g6⟩, g7, g8⟩ := ih h
      refine ⟨⟨g1, g2, ?_, (r, b) :: pre, q, post, by rw [g4]; rfl, g5, ?_⟩, g7, g8⟩
      · intro r' hr' u hu hl
        rcases List.mem_cons.mp hr' with rfl | hr'
        · exact (longest_none_prefix h1 hu hl).elim
        · exact g3 r' hr' u hu hl
      · intro r' hr' hl
        rcases List.mem_cons.mp hr' with rfl | hr'
        · exact (longest_none_prefix h1 g1 hl).elim
        · exact g6 r' hr' hl
    | some k =>
      have hk := longest_some h1
      have own : k ≠ 0 → (∀ r' ∈ rs, ∀ u, u <+: cs → r'.1.Lang u → u.length ≤ k) →
          Munch ((r, b) :: rs) cs (cs.take k) b ∧ k ≤ cs.length ∧ k ≠ 0 := by
        intro h0 hall
        refine ⟨⟨List.take_prefix _ _, take_ne_nil hk.1 h0, ?_, [], r, rs, rfl, hk.2.1, by simp⟩, hk.1, h0⟩
        intro r' hr' u hu hl
        rw [List.length_take, Nat.min_eq_left hk.1]
        rcases List.mem_cons.mp hr' with rfl | hr'
        · exact longest_prefix h1 hu hl
        · exact hall r' hr' u hu hl
      cases h2 : pick cs rs with
      | none =>
        rw [h1, h2] at h
        simp only at h
        by_cases h0 : k = 0
        · rw [if_pos h0] at h; cases h
        · rw [if_neg h0] at h
          cases h
          exact own h0 fun r' hr' u hu hl => by rw [pick_none h2 r' hr' u hu hl]; simp
      | some p =>
        obtain ⟨m, c⟩ := p
        rw [h1, h2] at h
        simp only at h
        obtain ⟨⟨g1, g2, g3, pre, q, post, g4, g5, g6⟩, g7, g8⟩ := ih h2
        rw [List.length_take, Nat.min_eq_left g7] at g3
        by_cases h0 : k < m ∨ k = 0
        · rw [if_pos h0] at h
          obtain ⟨rfl, rfl⟩ : m = n ∧ c = a := by simpa using h
          have hlt : k < m := by omega
          refine ⟨⟨g1, g2, ?_, (r, b) :: pre, q, post, by rw [g4]; rfl, g5, ?_⟩, g7, g8⟩
          · intro r' hr' u hu hl
            rw [List.length_take, Nat.min_eq_left g7]
            rcases List.mem_cons.mp hr' with rfl | hr'
            · have := longest_prefix h1 hu hl; omega
            · exact g3 r' hr' u hu hl
          · intro r' hr' hl
            rcases List.mem_cons.mp hr' with rfl | hr'
            · have := longest_prefix h1 g1 hl
              rw [List.length_take, Nat.min_eq_left g7] at this
              omega
            · exact g6 r' hr' hl
        · rw [if_neg h0] at h
          cases h
          rw [not_or, not_lt] at h0
          exact own h0.2 fun r' hr' u hu hl => (g3 r' hr' u hu hl).trans h0.1

theorem munch_fun {rs : List (RE × α)} {cs w w' : List Char} {a a' : α} (h : Munch rs cs w a) (h' : Munch rs cs w' a') :
    w = w' ∧ a = a' := by
  obtain ⟨g1, g2, g3, pre, q, post, g4, g5, g6⟩ := h
  obtain ⟨k1, k2, k3, pre', q', post', k4, k5, k6⟩ := h'
  have e1 : w.length ≤ w'.length := k3 (q, a) (by rw [g4]; simp) w g1 g5
  have e2 : w'.length ≤ w.length := g3 (q', a') (by rw [k4]; simp) w' k1 k5
  have e : w = w' := by
    rw [List.prefix_iff_eq_take.mp g1, List.prefix_iff_eq_take.mp k1, le_antisymm e1 e2]
  subst e
  refine ⟨rfl, ?_⟩
  have h : pre ++ (q, a) :: post = pre' ++ (q', a') :: post' := g4.symm.trans k4
  rcases List.append_eq_append_iff.mp h with ⟨x, h1, h2⟩ | ⟨x, h1, h2⟩
  · cases x with
    | nil => simp at h2; exact h2.1.2
    | cons y x =>
      simp only [List.cons_append, List.cons.injEq] at h2
      exact (k6 (q, a) (by rw [h1, h2.1]; simp) g5).elim
  · cases x with
    | nil => simp at h2; exact h2.1.2.symm
    | cons y x =>
      simp only [List.cons_append, List.cons.injEq] at h2
      exact (g6 (q', a') (by rw [h1, h2.1]; simp) k5).elim

/-- `pick` finds exactly what the rule of flex says. -/
theorem pick_iff {rs : List (RE × α)} {cs w : List Char} {a : α} :
    Munch rs cs w a ↔ pick cs rs = some (w.length, a) ∧ w <+: cs := by
  constructor
  · intro h
    cases hp : pick cs rs with
    | none =>
      obtain ⟨g1, g2, g3, pre, q, post, g4, g5, g6⟩ := h
      exact (g2 (pick_none hp (q, a) (by rw [g4]; simp) w g1 g5)).elim
    | some p =>
      obtain ⟨n, b⟩ := p
      obtain ⟨k1, k2, _⟩ := pick_some hp
      obtain ⟨rfl, rfl⟩ := munch_fun h k1
      rw [List.length_take, Nat.min_eq_left k2]
      exact ⟨rfl, List.take_prefix _ _⟩
  · rintro ⟨h1, h2⟩
    have := (pick_some h1).1
    rwa [← List.prefix_iff_eq_take.mp h2] at this

end Lexer
end Yaga
