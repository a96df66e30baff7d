/-
`merge` with its temporary storage computes what Model/ArithPoly says.
-/
import Verif.Model.PolyMemory
import Verif.Spec.Polynomial
import Verif.Proofs.ArithPoly

namespace Yaga

open Spec

namespace APoly

theorem normal_iff {p : APoly} : NormalPoly p ↔ PolyOK p := by
  have e : ∀ a b : Option Tm, (match a, b with
      | none, some _ => True
      | some a, some b => a.x < b.x
      | _, none => False) ↔ varLt a b = true := by
    intro a b
    cases a <;> cases b <;> simp [varLt, Tm.lt]
  unfold NormalPoly varsOfPoly
  rw [List.pairwise_map]
  constructor
  · rintro ⟨h1, h2⟩
    exact ⟨h1.imp fun h => (e _ _).1 h, h2⟩
  · rintro ⟨h1, h2⟩
    exact ⟨h1.imp fun h => (e _ _).2 h, h2⟩

theorem coeffOf_nil (v : Option Tm) : coeffOf [] v = 0 := rfl

theorem coeffOf_cons (m : Option Tm × ℚ) (p : APoly) (v : Option Tm) :
    coeffOf (m :: p) v = (if m.1 = v then m.2 else 0) + coeffOf p v := by
  simp [coeffOf]

theorem coeffOf_map (f : ℚ → ℚ) (c : ℚ) (hf : ∀ x, f x = c * x) (p : APoly) (v : Option Tm) :
    coeffOf (p.map fun m => (m.1, f m.2)) v = c * coeffOf p v := by
  induction p with
  | nil => simp [coeffOf]
  | cons m p ih =>
    rw [List.map_cons, coeffOf_cons, coeffOf_cons, ih, hf]
    split <;> ring

theorem coeffOf_notMem {p : APoly} {v : Option Tm} (h : v ∉ varsOfPoly p) : coeffOf p v = 0 := by
  induction p with
  | nil => rfl
  | cons m p ih =>
    simp only [varsOfPoly, List.map_cons, List.mem_cons, not_or] at h
    rw [coeffOf_cons, if_neg fun e => h.1 e.symm, ih h.2, add_zero]

theorem coeffOf_mem {p : APoly} (h : PolyOK p) {m : Option Tm × ℚ} (hm : m ∈ p) : coeffOf p m.1 = m.2 := by
  induction p with
  | nil => cases hm
  | cons k p ih =>
    have hlt := h.head_lt
    have hk : k.1 ∉ varsOfPoly p := by
      intro hc
      obtain ⟨j, hj, e⟩ := List.mem_map.1 hc
      have := hlt j hj
      rw [e, varLt_irrefl] at this
      cases this
    rw [coeffOf_cons]
    rcases List.mem_cons.1 hm with rfl | hm
    · rw [if_pos rfl, coeffOf_notMem hk, add_zero]
    · rw [if_neg, zero_add, ih h.tail hm]
      intro e
      exact hk (e ▸ List.mem_map_of_mem hm)

/-- The variables of a normal polynomial are the ones with a coefficient different from 0. -/
theorem mem_vars_iff {p : APoly} (h : PolyOK p) {v : Option Tm} : v ∈ varsOfPoly p ↔ coeffOf p v ≠ 0 := by
  constructor
  · intro hv
    obtain ⟨m, hm, rfl⟩ := List.mem_map.1 hv
    rw [coeffOf_mem h hm]
    exact h.nonzero m hm
  · intro hv
    by_contra hn
    exact hv (coeffOf_notMem hn)

theorem mergeLoop_coeff (c : ℚ) (fuel : Nat) (p q : APoly) (h : p.length + q.length < fuel) (v : Option Tm) :
    coeffOf (mergeLoop c fuel p q) v = coeffOf p v + c * coeffOf q v := by
  induction fuel generalizing p q with
  | zero => omega
  | succ fuel ih =>
    match p, q with
    | [], q =>
      rw [mergeLoop, coeffOf_nil, zero_add]
      exact coeffOf_map (· * c) c (fun x => by ring) q v
    | a :: p, [] =>
      rw [mergeLoop]
      · simp [coeffOf_nil]
      · simp
    | a :: p, o :: q =>
      rw [mergeLoop]
      simp only [List.length_cons] at h
      split
      · rw [coeffOf_cons, ih _ _ (by simp only [List.length_cons]; omega), coeffOf_cons a]
        ring
      · split
        · rw [coeffOf_cons, ih _ _ (by simp only [List.length_cons]; omega), coeffOf_cons o]
          simp only
          split <;> ring
        · rename_i h1 h2
          have hv := eq_of_not_varLt h1 h2
          split
          · rename_i h3
            rw [ih _ _ (by omega), coeffOf_cons, coeffOf_cons, hv]
            split
            · have : a.2 = -(o.2 * c) := by linarith
              rw [this]; ring
            · ring
          · rw [coeffOf_cons, ih _ _ (by omega), coeffOf_cons a, coeffOf_cons o, hv]
            simp only
            split <;> ring

/-- What the loop writes and reports. -/
structure Wrote (s s' : MergeSt) (l : APoly) (A R : List (Option Tm)) : Prop where
  len : s'.tmp.length = s.tmp.length
  fits : s'.idx ≤ s'.tmp.length
  out : s'.tmp.take s'.idx = s.tmp.take s.idx ++ l
  added : s'.added = s.added ++ A
  removed : s'.removed = s.removed ++ R

theorem put_spec {s : MergeSt} (m : Option Tm × ℚ) (h : s.idx < s.tmp.length) :
    ∃ s', s.put m = some s' ∧ Wrote s s' [m] [] [] ∧ s'.idx = s.idx + 1 := by
  refine ⟨_, if_pos h, ⟨by simp, ?_, ?_, by simp, by simp⟩, rfl⟩
  · simp only [List.length_set]; omega
  · simp only
    rw [List.take_add_one, List.getElem?_set_self h, List.take_set_of_le (le_refl _)]
    rfl

theorem Wrote.trans {s s1 s2 : MergeSt} {l1 l2 : APoly} {A1 A2 R1 R2 : List (Option Tm)} (h1 : Wrote s s1 l1 A1 R1)
    (h2 : Wrote s1 s2 l2 A2 R2) : Wrote s s2 (l1 ++ l2) (A1 ++ A2) (R1 ++ R2) :=
  ⟨h2.len.trans h1.len, h2.fits, by rw [h2.out, h1.out, List.append_assoc], by rw [h2.added, h1.added, List.append_assoc],
    by rw [h2.removed, h1.removed, List.append_assoc]⟩

theorem wrote_add {s : MergeSt} (h : s.idx ≤ s.tmp.length) (v : Option Tm) : Wrote s (s.add v) [] [v] [] :=
  ⟨rfl, h, by simp [MergeSt.add], rfl, by simp [MergeSt.add]⟩

theorem wrote_remove {s : MergeSt} (h : s.idx ≤ s.tmp.length) (v : Option Tm) : Wrote s (s.remove v) [] [] [v] :=
  ⟨rfl, h, by simp [MergeSt.remove], by simp [MergeSt.remove], rfl⟩

theorem putMine_spec : ∀ (ms : APoly) {s : MergeSt}, s.idx + ms.length ≤ s.tmp.length →
    ∃ s', putMine ms s = some s' ∧ Wrote s s' ms [] []
  | [], s, h => ⟨s, rfl, ⟨rfl, by simpa using h, by simp, by simp, by simp⟩⟩
  | m :: ms, s, h => by
    simp only [List.length_cons] at h
    obtain ⟨s1, h1, w1, i1⟩ := put_spec (s := s) m (by omega)
    obtain ⟨s2, h2, w2⟩ := putMine_spec ms (s := s1) (by rw [w1.len, i1]; omega)
    exact ⟨s2, by rw [putMine, h1]; exact h2, w1.trans w2⟩

theorem putOthers_spec (c : ℚ) : ∀ (os : APoly) {s : MergeSt}, s.idx + os.length ≤ s.tmp.length →
    ∃ s', putOthers c os s = some s' ∧ Wrote s s' (os.map fun o => (o.1, o.2 * c)) (varsOfPoly os) []
  | [], s, h => ⟨s, rfl, ⟨rfl, by simpa using h, by simp, by simp [varsOfPoly], by simp⟩⟩
  | o :: os, s, h => by
    simp only [List.length_cons] at h
    obtain ⟨s1, h1, w1, i1⟩ := put_spec (s := s) (o.1, o.2 * c) (by omega)
    have w1' := w1.trans (wrote_add w1.fits o.1)
    obtain ⟨s2, h2, w2⟩ := putOthers_spec c os (s := s1.add o.1) (by
      show s1.idx + os.length ≤ s1.tmp.length
      rw [w1.len, i1]; omega)
    exact ⟨s2, by rw [putOthers, h1]; exact h2, w1'.trans w2⟩

theorem mergeLoop_vars {c : ℚ} {fuel : Nat} {p q : APoly} {v : Option Tm} (h : v ∈ varsOfPoly (mergeLoop c fuel p q)) :
    v ∈ varsOfPoly p ∨ v ∈ varsOfPoly q := by
  obtain ⟨m, hm, rfl⟩ := List.mem_map.1 h
  exact (mem_mergeLoop hm).imp (fun ⟨k, hk, e⟩ => e ▸ List.mem_map_of_mem hk)
    (fun ⟨k, hk, e⟩ => e ▸ List.mem_map_of_mem hk)

theorem head_notMem {m : Option Tm × ℚ} {p : APoly} (h : PolyOK (m :: p)) : m.1 ∉ varsOfPoly p := by
  intro hc
  obtain ⟨j, hj, e⟩ := List.mem_map.1 hc
  have := h.head_lt j hj
  rw [e, varLt_irrefl] at this
  cases this

theorem notMem_of_lt {a : Option Tm} {m : Option Tm × ℚ} {p : APoly} (h : PolyOK (m :: p)) (ha : varLt a m.1 = true) :
    a ∉ varsOfPoly (m :: p) := by
  intro hc
  rcases List.mem_cons.1 hc with e | hc
  · rw [e, varLt_irrefl] at ha
    cases ha
  · obtain ⟨j, hj, e⟩ := List.mem_map.1 hc
    have := varLt_trans ha (h.head_lt j hj)
    rw [e, varLt_irrefl] at this
    cases this

theorem mergeSteps_spec (c : ℚ) : ∀ (fuel : Nat) (p q : APoly) {s : MergeSt}, PolyOK p → PolyOK q →
    p.length + q.length < fuel →
    s.idx + p.length + q.length ≤ s.tmp.length →
    ∃ s' A R, mergeSteps c fuel p q s = some s' ∧ Wrote s s' (mergeLoop c fuel p q) A R ∧
      A.Sublist (varsOfPoly q) ∧ R.Sublist (varsOfPoly p) ∧
      (∀ v ∈ A, v ∉ varsOfPoly p) ∧ (∀ v ∈ R, v ∉ varsOfPoly (mergeLoop c fuel p q)) ∧
      (∀ v ∈ A, v ∈ varsOfPoly (mergeLoop c fuel p q)) ∧
      (∀ v ∈ varsOfPoly (mergeLoop c fuel p q), v ∈ varsOfPoly p ∨ v ∈ A) ∧
      (∀ v ∈ varsOfPoly p, v ∈ varsOfPoly (mergeLoop c fuel p q) ∨ v ∈ R) := by
  intro fuel
  induction fuel with
  | zero => intro p q s _ _ h; omega
  | succ fuel ih =>
    intro p q s hp hq hf hs
    match p, q with
    | [], q =>
      obtain ⟨s', h1, w⟩ := putOthers_spec c q (s := s) (by simpa using hs)
      have e : varsOfPoly (q.map fun o => (o.1, o.2 * c)) = varsOfPoly q := by simp [varsOfPoly]
      refine ⟨s', _, _, by rw [mergeSteps]; exact h1, by rw [mergeLoop]; exact w, List.Sublist.refl _, List.nil_sublist _, ?_⟩
      rw [mergeLoop, e]
      exact ⟨by simp [varsOfPoly], nofun, fun v hv => hv, fun v hv => .inr hv, nofun⟩
    | m :: p, [] =>
      obtain ⟨s', h1, w⟩ := putMine_spec (m :: p) (s := s) (by simpa using hs)
      have e : mergeLoop c (fuel + 1) (m :: p) [] = m :: p := by rw [mergeLoop]; simp
      refine ⟨s', _, _, by rw [mergeSteps]; exact h1, by rw [e]; exact w, List.nil_sublist _, List.nil_sublist _, ?_⟩
      rw [e]
      exact ⟨nofun, nofun, nofun, fun v hv => .inl hv, fun v hv => .inl hv⟩
    | m :: p, o :: q =>
      simp only [List.length_cons] at hf hs
      rw [mergeSteps, mergeLoop]
      by_cases h1 : varLt m.1 o.1 = true
      · rw [if_pos h1, if_pos h1]
        obtain ⟨s1, g1, w1, i1⟩ := put_spec (s := s) m (by omega)
        obtain ⟨s2, A, R, g2, w2, a1, a2, a3, b3, a4, a5, a6⟩ := ih p (o :: q) (s := s1) hp.tail hq
          (by simp only [List.length_cons]; omega) (by rw [w1.len, i1]; simp only [List.length_cons]; omega)
        refine ⟨s2, A, R, by rw [g1]; exact g2, w1.trans w2, a1, a2.trans (List.sublist_cons_self _ _), ?_, ?_, ?_, ?_, ?_⟩
        · intro v hv hc
          rcases List.mem_cons.1 hc with rfl | hc
          · exact notMem_of_lt hq h1 (a1.subset hv)
          · exact a3 v hv hc
        · intro v hv hc
          rcases List.mem_cons.1 hc with rfl | hc
          · exact head_notMem hp (a2.subset hv)
          · exact b3 v hv hc
        · exact fun v hv => List.mem_cons_of_mem _ (a4 v hv)
        · intro v hv
          rcases List.mem_cons.1 hv with rfl | hv
          · exact .inl (by simp [varsOfPoly])
          · exact (a5 v hv).imp (fun h => List.mem_cons_of_mem _ h) id
        · intro v hv
          rcases List.mem_cons.1 hv with rfl | hv
          · exact .inl (by simp [varsOfPoly])
          · exact (a6 v hv).imp (fun h => List.mem_cons_of_mem _ h) id
      · rw [if_neg h1, if_neg h1]
        by_cases h2 : varLt o.1 m.1 = true
        · rw [if_pos h2, if_pos h2]
          obtain ⟨s1, g1, w1, i1⟩ := put_spec (s := s) (o.1, o.2 * c) (by omega)
          have w1' := w1.trans (wrote_add w1.fits o.1)
          obtain ⟨s2, A, R, g2, w2, a1, a2, a3, b3, a4, a5, a6⟩ := ih (m :: p) q (s := s1.add o.1) hp hq.tail
            (by simp only [List.length_cons]; omega) (by
              show s1.idx + (m :: p).length + q.length ≤ s1.tmp.length
              rw [w1.len, i1]; simp only [List.length_cons]; omega)
          refine ⟨s2, o.1 :: A, R, by rw [g1]; exact g2, w1'.trans w2, a1.cons_cons _, a2, ?_, ?_, ?_, ?_, ?_⟩
          · intro v hv
            rcases List.mem_cons.1 hv with rfl | hv
            · exact notMem_of_lt hp h2
            · exact a3 v hv
          · intro v hv hc
            rcases List.mem_cons.1 hc with rfl | hc
            · exact notMem_of_lt hp h2 (a2.subset hv)
            · exact b3 v hv hc
          · intro v hv
            rcases List.mem_cons.1 hv with rfl | hv
            · simp [varsOfPoly]
            · exact List.mem_cons_of_mem _ (a4 v hv)
          · intro v hv
            rcases List.mem_cons.1 hv with rfl | hv
            · exact .inr (by simp)
            · exact (a5 v hv).imp id (fun h => List.mem_cons_of_mem _ h)
          · exact fun v hv => (a6 v hv).imp (fun h => List.mem_cons_of_mem _ h) id
        · rw [if_neg h2, if_neg h2]
          have hv' := eq_of_not_varLt h1 h2
          rw [if_neg (by simpa using hv')]
          by_cases h3 : m.2 + o.2 * c = 0
          · rw [if_pos h3, if_pos h3]
            have w1 := wrote_remove (s := s) (by omega) m.1
            obtain ⟨s2, A, R, g2, w2, a1, a2, a3, b3, a4, a5, a6⟩ := ih p q (s := s.remove m.1) hp.tail hq.tail (by omega) (by
              show s.idx + p.length + q.length ≤ s.tmp.length
              omega)
            refine ⟨s2, A, m.1 :: R, g2, w1.trans w2, a1.trans (List.sublist_cons_self _ _), a2.cons_cons _, ?_, ?_, a4, ?_, ?_⟩
            · intro v hv hc
              rcases List.mem_cons.1 hc with rfl | hc
              · exact head_notMem hq (hv' ▸ a1.subset hv)
              · exact a3 v hv hc
            · intro v hv hc
              rcases List.mem_cons.1 hv with rfl | hv
              · rcases mergeLoop_vars hc with hc | hc
                · exact head_notMem hp hc
                · exact head_notMem hq (hv' ▸ hc)
              · exact b3 v hv hc
            · exact fun v hv => (a5 v hv).imp (fun h => List.mem_cons_of_mem _ h) id
            · intro v hv
              rcases List.mem_cons.1 hv with rfl | hv
              · exact .inr (by simp)
              · exact (a6 v hv).imp id (fun h => List.mem_cons_of_mem _ h)
          · rw [if_neg h3, if_neg h3]
            obtain ⟨s1, g1, w1, i1⟩ := put_spec (s := s) (m.1, m.2 + o.2 * c) (by omega)
            obtain ⟨s2, A, R, g2, w2, a1, a2, a3, b3, a4, a5, a6⟩ := ih p q (s := s1) hp.tail hq.tail (by omega) (by rw [w1.len, i1]; omega)
            refine ⟨s2, A, R, by rw [g1]; exact g2, w1.trans w2, a1.trans (List.sublist_cons_self _ _),
              a2.trans (List.sublist_cons_self _ _), ?_, ?_, ?_, ?_, ?_⟩
            · intro v hv hc
              rcases List.mem_cons.1 hc with rfl | hc
              · exact head_notMem hq (hv' ▸ a1.subset hv)
              · exact a3 v hv hc
            · intro v hv hc
              rcases List.mem_cons.1 hc with rfl | hc
              · exact head_notMem hp (a2.subset hv)
              · exact b3 v hv hc
            · exact fun v hv => List.mem_cons_of_mem _ (a4 v hv)
            · intro v hv
              rcases List.mem_cons.1 hv with rfl | hv
              · exact .inl (by simp [varsOfPoly])
              · exact (a5 v hv).imp (fun h => List.mem_cons_of_mem _ h) id
            · intro v hv
              rcases List.mem_cons.1 hv with rfl | hv
              · exact .inl (by simp [varsOfPoly])
              · exact (a6 v hv).imp (fun h => List.mem_cons_of_mem _ h) id

theorem moveBack_spec {poly tmp : APoly} {idx : Nat} (h : idx ≤ tmp.length) : moveBack poly tmp idx = some (tmp.take idx) := by
  unfold moveBack
  rw [if_neg (by omega)]
  split
  · rename_i h1
    have hl : (tmp.take poly.length).length = poly.length := by rw [List.length_take]; omega
    rw [hl, List.drop_length, List.append_nil, ← List.take_add]
    congr 2
    omega
  · split
    · congr 1
      rw [List.take_append_of_le_length (by rw [List.length_take]; omega), List.take_take, Nat.min_self]
    · rfl

theorem mem_addTerm {v : Option Tm} {c : ℚ} {p : APoly} {m : Option Tm × ℚ} : m ∈ addTerm v c p ↔ m = (v, c) ∨ m ∈ p := by
  induction p with
  | nil => simp [addTerm]
  | cons k p ih =>
    rw [addTerm]
    split
    · simp
    · simp only [List.mem_cons, ih]
      tauto

theorem addTerm_ok {v : Option Tm} {c : ℚ} {p : APoly} (h : PolyOK p) (hv : v ∉ varsOfPoly p) (hc : c ≠ 0) :
    PolyOK (addTerm v c p) := by
  induction p with
  | nil => exact singleton_ok hc
  | cons k p ih =>
    have hv' : v ≠ k.1 ∧ v ∉ varsOfPoly p := by simpa [varsOfPoly] using hv
    rw [addTerm]
    split
    · rename_i hlt
      refine ⟨List.pairwise_cons.2 ⟨?_, h.1⟩, ?_⟩
      · intro j hj
        rcases List.mem_cons.1 hj with rfl | hj
        · exact hlt
        · exact varLt_trans hlt (h.head_lt j hj)
      · intro j hj
        rcases List.mem_cons.1 hj with rfl | hj
        · exact hc
        · exact h.nonzero j hj
    · rename_i hlt
      have ht := ih h.tail hv'.2
      refine ⟨List.pairwise_cons.2 ⟨?_, ht.1⟩, ?_⟩
      · intro j hj
        rcases mem_addTerm.1 hj with rfl | hj
        · by_contra hn
          exact hv'.1 (eq_of_not_varLt hlt hn)
        · exact h.head_lt j hj
      · intro j hj
        rcases List.mem_cons.1 hj with rfl | hj
        · exact h.nonzero _ List.mem_cons_self
        · exact ht.nonzero j hj

theorem addTerm_coeff (v : Option Tm) (c : ℚ) (p : APoly) (w : Option Tm) :
    coeffOf (addTerm v c p) w = coeffOf p w + if v = w then c else 0 := by
  induction p with
  | nil => simp [addTerm, coeffOf]
  | cons k p ih =>
    rw [addTerm]
    split
    · rw [coeffOf_cons]; ring
    · rw [coeffOf_cons, ih, coeffOf_cons]; ring

theorem findTerm_none {p : APoly} {v : Option Tm} : p.findTerm v = none ↔ v ∉ varsOfPoly p := by
  unfold findTerm varsOfPoly
  rw [List.find?_eq_none]
  simp only [decide_eq_true_eq, List.mem_map, not_exists, not_and]

theorem findTerm_some {p : APoly} {v : Option Tm} {m : Option Tm × ℚ} (h : p.findTerm v = some m) : m ∈ p ∧ m.1 = v :=
  ⟨List.mem_of_find?_eq_some h, by simpa using List.find?_some h⟩

theorem eraseTerm_sublist (v : Option Tm) (p : APoly) : (eraseTerm v p).Sublist p := by
  induction p with
  | nil => exact List.Sublist.refl _
  | cons m p ih =>
    rw [eraseTerm]
    split
    · exact List.sublist_cons_self _ _
    · exact ih.cons_cons _

theorem sublist_ok {p q : APoly} (h : PolyOK q) (hs : p.Sublist q) : PolyOK p :=
  ⟨h.1.sublist hs, fun m hm => h.2 m (hs.subset hm)⟩

theorem eraseTerm_coeff {v : Option Tm} {p : APoly} (h : PolyOK p) (w : Option Tm) :
    coeffOf (eraseTerm v p) w = if v = w then 0 else coeffOf p w := by
  induction p with
  | nil => simp [eraseTerm, coeffOf]
  | cons m p ih =>
    rw [eraseTerm]
    by_cases e : m.1 = v
    · rw [if_pos e]
      split
      · rename_i hw
        exact coeffOf_notMem (hw ▸ e ▸ head_notMem h)
      · rename_i hw
        rw [coeffOf_cons, if_neg (by rw [e]; exact hw), zero_add]
    · rw [if_neg e, coeffOf_cons, ih h.tail, coeffOf_cons]
      by_cases hw : v = w
      · rw [if_pos hw, if_pos hw, if_neg (by rw [← hw]; exact e), zero_add]
      · rw [if_neg hw, if_neg hw]

theorem map_ok {p : APoly} {f : ℚ → ℚ} (hf : ∀ x, x ≠ 0 → f x ≠ 0) (h : PolyOK p) :
    PolyOK (p.map fun m => (m.1, f m.2)) := by
  refine ⟨List.pairwise_map.2 h.1, ?_⟩
  intro m hm
  obtain ⟨k, hk, rfl⟩ := List.mem_map.1 hm
  exact hf _ (h.nonzero k hk)

end APoly
end Yaga
