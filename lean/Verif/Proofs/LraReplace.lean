/-
The loop over the watch list of a newly assigned variable.
-/
import Verif.Proofs.LraWatch

set_option linter.unusedSimpArgs false
set_option linter.unusedVariables false

namespace Yaga
open Spec
open LinStore (delta WfTerms Inv Kept Made)

namespace LA
open Lra
variable {R : Type} {hv : Nat → Nat} {hc : ℚ → Nat} {t t' : Trail R} {s s' : LinStore} {b b' : BState}
variable {X Y X' Y' : Nat → Nat → Prop} {la : LA R} {Lf : Nat → Nat → Option Nat}

theorem scan_spec (m : PModel ℚ) (vs : List Nat) (stop : Nat) (h2 : 2 ≤ stop) (hs : stop < vs.length) :
    ∀ k i, 2 ≤ i → i < vs.length →
      (if stop ≤ i then (vs.length - i) + (stop - 2) else stop - i) ≤ k →
      2 ≤ (scan m vs stop k i).1 ∧ (scan m vs stop k i).1 < vs.length ∧
      ((scan m vs stop k i).2 = true → m.defined (vs.getD (scan m vs stop k i).1 0) = false) ∧
      ((scan m vs stop k i).2 = false → ∀ j, j < vs.length →
        (if stop ≤ i then (i ≤ j ∨ (2 ≤ j ∧ j < stop)) else (i ≤ j ∧ j < stop)) →
        m.defined (vs.getD j 0) = true) := by
  intro k
  induction k with
  | zero =>
    intro i h1 hi hk
    exfalso
    split at hk <;> omega
  | succ k ih =>
    intro i h1 hi hk
    unfold scan
    by_cases hd : m.defined (vs.getD i 0) = false
    · rw [if_pos hd]
      exact ⟨h1, hi, fun _ => hd, (fun e => by cases e)⟩
    · rw [if_neg hd]
      rw [Bool.not_eq_false] at hd
      simp only
      generalize hj : (if i + 1 = vs.length then 2 else i + 1) = j
      have hj2 : 2 ≤ j ∧ j < vs.length := by split at hj <;> omega
      by_cases hjs : j = stop
      · rw [if_pos hjs]
        refine ⟨hj2.1, hj2.2, (fun e => by cases e), fun _ p hp hc => ?_⟩
        by_cases hpi : p = i
        · rw [hpi]; exact hd
        · exfalso
          split at hj <;> split at hc <;> omega
      · rw [if_neg hjs]
        obtain ⟨a1, a2, a3, a4⟩ := ih j hj2.1 hj2.2 (by
          split at hj <;> split at hk <;> split <;> omega)
        refine ⟨a1, a2, a3, fun e p hp hc => ?_⟩
        by_cases hpi : p = i
        · rw [hpi]; exact hd
        · refine a4 e p hp ?_
          split at hj <;> split at hc <;> split <;> omega

theorem scan_all {m : PModel ℚ} {vs : List Nat} {i : Nat} (h2 : 2 ≤ i) (hi : i < vs.length) :
    2 ≤ (scan m vs i vs.length i).1 ∧ (scan m vs i vs.length i).1 < vs.length ∧
      ((scan m vs i vs.length i).2 = true →
        m.defined (vs.getD (scan m vs i vs.length i).1 0) = false) ∧
      ((scan m vs i vs.length i).2 = false → ∀ j, 2 ≤ j → j < vs.length →
        m.defined (vs.getD j 0) = true) := by
  obtain ⟨a1, a2, a3, a4⟩ := scan_spec m vs i h2 hi vs.length i h2 hi (by rw [if_pos le_rfl]; omega)
  refine ⟨a1, a2, a3, fun e j hj hjl => a4 e j hjl ?_⟩
  rw [if_pos le_rfl]
  omega

theorem swapPop_spec {α : Type} (a : List α) (e : α) (r : List α) :
    ∃ r', r'.Perm r ∧ swapPop (a ++ e :: r) a.length = a ++ r' := by
  unfold swapPop
  rcases List.eq_nil_or_concat r with h | ⟨q, z, h⟩
  · subst h
    refine ⟨[], List.Perm.refl _, ?_⟩
    simp
  · subst h
    refine ⟨z :: q, ?_, ?_⟩
    · rw [List.concat_eq_append]; exact (List.perm_append_singleton z q).symm
    · rw [List.concat_eq_append]
      have e1 : (a ++ e :: (q ++ [z])).getLast? = some z := by
        rw [show a ++ e :: (q ++ [z]) = (a ++ e :: q) ++ [z] by simp, List.getLast?_append]
        simp
      rw [e1]
      simp only
      rw [List.set_append_right _ _ le_rfl]
      simp only [Nat.sub_self, List.set_cons_zero]
      rw [show a ++ z :: (q ++ [z]) = (a ++ z :: q) ++ [z] by simp, List.dropLast_concat]

theorem mem_take2 {vs : List Nat} {x : Nat} (h : x ∈ vs.take 2) : vs.head? = some x ∨ vs[1]? = some x := by
  match vs, h with
  | [a], h => left; simp at h; simp [h]
  | a :: c :: r, h => simp at h; rcases h with h | h <;> simp [h]

/-- Only a literal of the repository matters. -/
theorem Wat.isCons {w : Nat → List (LinCons × Nat)} (hW : Wat Lf s w) {x i : Nat} {c : LinCons}
    (h : (c, i) ∈ w x) : ∃ e ∈ s.set, (c = e ∨ c = e.neg) ∧ c.lit.ord = e.lit.ord ∧
      s.varsOf c = s.varsOf e ∧ c.size = e.size := by
  obtain ⟨e, he, hce⟩ := (hW.mem x c i h).1
  refine ⟨e, he, hce, ?_, ?_, ?_⟩ <;> rcases hce with r | r <;> rw [r]
  · exact LinStore.Lit.neg_ord _
  · rfl
  · rfl

theorem swapTerms_neg (s : LinStore) (e : LinCons) (i j : Nat) :
    s.swapTerms e.neg i j = s.swapTerms e i j := rfl

/-- Two terms of one constraint are exchanged so that the watch lists stay right. -/
theorem Wat.swap {w : Nat → List (LinCons × Nat)} (hI : Inv s) (hW : Wat Lf s w) {e : LinCons}
    (he : e ∈ s.set) {i j : Nat} (hi : i < e.size) (hj : j < e.size)
    (h2 : ∀ x, x ∈ ((s.swapTerms e i j).varsOf e).take 2 ↔ x ∈ (s.varsOf e).take 2)
    (hwi : WI (Lf e.lit.ord) ((s.swapTerms e i j).varsOf e)) : Wat Lf (s.swapTerms e i j) w := by
  have hset : (s.swapTerms e i j).set = s.set := rfl
  have hv : ∀ d ∈ s.set, d ≠ e → (s.swapTerms e i j).varsOf d = s.varsOf d := fun d hd hde =>
    varsOf_swap_other hI he hd hde hi hj
  have hv2 : ∀ d ∈ s.set, ∀ x, x ∈ ((s.swapTerms e i j).varsOf d).take 2 ↔ x ∈ (s.varsOf d).take 2 := by
    intro d hd x
    by_cases hde : d = e
    · rw [hde]; exact h2 x
    · rw [hv d hd hde]
  refine ⟨fun d hd => ?_, fun x c k hm => ?_, fun d hd x hx => ?_, hW.uniq⟩
  · rw [hset] at hd
    by_cases hde : d = e
    · rw [hde]; exact hwi
    · rw [hv d hd hde]; exact hW.wi d hd
  · obtain ⟨d, hd, hcd, _, hvc, _⟩ := hW.isCons hm
    obtain ⟨h3, h4, h5⟩ := hW.mem x c k hm
    refine ⟨⟨d, by rw [hset]; exact hd, hcd⟩, ?_, h5⟩
    have : (s.swapTerms e i j).varsOf c = (s.swapTerms e i j).varsOf d := by
      rcases hcd with r | r <;> rw [r]; rfl
    rw [this, hv2 d hd, ← hvc]; exact h4
  · rw [hset] at hd
    rw [hv2 d hd] at hx
    exact hW.cov d hd x hx

/-- The entry of `x` for the constraint `e` is moved to the list of another variable of `e`. -/
theorem Wat.move {w w' : Nat → List (LinCons × Nat)} (hI : Inv s) (hW : Wat Lf s w) {e c : LinCons}
    (he : e ∈ s.set) (hce : c = e ∨ c = e.neg) {z x y j : Nat} {rest : List Nat}
    (hvs : s.varsOf e = z :: x :: rest) (hj2 : 2 ≤ j) (hjs : j < e.size) (hy : (s.varsOf e)[j]? = some y)
    (hwx : ∀ p, p ∈ w' x ↔ p ∈ w x ∧ p.1.lit.ord ≠ e.lit.ord) (hnd : (ords (w' x)).Nodup)
    (hwy : w' y = w y ++ [(c, j)]) (hwo : ∀ u, u ≠ x → u ≠ y → w' u = w u)
    {Lf' : Nat → Nat → Option Nat} (hLf : ∀ o, o ≠ e.lit.ord → Lf' o = Lf o)
    (hwi : WI (Lf' e.lit.ord) ((s.swapTerms e 1 j).varsOf e)) : Wat Lf' (s.swapTerms e 1 j) w' := by
  have hset : (s.swapTerms e 1 j).set = s.set := rfl
  have hlen := varsOf_length hI he
  have hndv := varsOf_nodup hI he
  have h1s : 1 < e.size := by omega
  have hv : ∀ d ∈ s.set, d ≠ e → (s.swapTerms e 1 j).varsOf d = s.varsOf d := fun d hd hde =>
    varsOf_swap_other hI he hd hde h1s hjs
  have hordc : c.lit.ord = e.lit.ord := by rcases hce with r | r <;> rw [r]; exact LinStore.Lit.neg_ord _
  have hsz : c.size = e.size := by rcases hce with r | r <;> rw [r]; rfl
  have hyr : y ∈ rest := by
    rw [hvs] at hy
    obtain ⟨j', rfl⟩ : ∃ j', j = j' + 2 := ⟨j - 2, by omega⟩
    simp only [List.getElem?_cons_succ] at hy
    exact List.mem_of_getElem? hy
  rw [hvs] at hndv
  have hyz : y ≠ z := by
    intro e'; subst e'
    exact (List.nodup_cons.mp hndv).1 (by simp [hyr])
  have hyx : y ≠ x := by
    intro e'; subst e'
    exact (List.nodup_cons.mp (List.nodup_cons.mp hndv).2).1 hyr
  have hzx : z ≠ x := by
    intro e'; subst e'
    exact (List.nodup_cons.mp hndv).1 (by simp)
  have htk : ∀ u, u ∈ ((s.swapTerms e 1 j).varsOf e).take 2 ↔ u = z ∨ u = y := by
    intro u
    have hsw := varsOf_swap hI he h1s hjs
    have h0 : ((s.swapTerms e 1 j).varsOf e)[0]? = some z := by
      rw [hsw, LinStore.swapAt_getElem? (by omega) (by omega), if_neg (by omega), if_neg (by omega), hvs]
      rfl
    have h1 : ((s.swapTerms e 1 j).varsOf e)[1]? = some y := by
      rw [hsw, LinStore.swapAt_getElem? (by omega) (by omega), if_neg (by omega), if_pos rfl, hy]
    generalize (s.swapTerms e 1 j).varsOf e = vs at h0 h1
    match vs, h0, h1 with
    | [], h0, _ => simp at h0
    | [_], _, h1 => simp at h1
    | a :: c :: r, h0, h1 =>
      simp at h0 h1
      subst h0; subst h1; simp
  have hno : ∀ p ∈ w y, p.1.lit.ord ≠ e.lit.ord := by
    intro p hp ho
    obtain ⟨h3, h4, _⟩ := hW.mem y p.1 p.2 hp
    have : s.varsOf p.1 = s.varsOf e := by
      rcases IsCons.of_ord hI he h3 ho with r | r <;> rw [r]; rfl
    rw [this, hvs] at h4
    simp at h4
    rcases h4 with h4 | h4
    · exact hyz h4
    · exact hyx h4
  -- old entries that stay
  have hold : ∀ u p, p ∈ w u → (u = x → p.1.lit.ord ≠ e.lit.ord) → IsCons (s.swapTerms e 1 j) p.1 ∧
      u ∈ ((s.swapTerms e 1 j).varsOf p.1).take 2 ∧ (2 < p.1.size → 2 ≤ p.2 ∧ p.2 < p.1.size) := by
    intro u p hp hux
    obtain ⟨d, hd, hcd, hod, hvc, _⟩ := hW.isCons (x := u) (c := p.1) (i := p.2) hp
    obtain ⟨h3, h4, h5⟩ := hW.mem u p.1 p.2 hp
    have hvp : (s.swapTerms e 1 j).varsOf p.1 = (s.swapTerms e 1 j).varsOf d := by
      rcases hcd with r | r <;> rw [r]; rfl
    refine ⟨⟨d, hd, hcd⟩, ?_, h5⟩
    rw [hvp]
    by_cases hde : d = e
    · subst hde
      rw [hvc, hvs] at h4
      simp at h4
      rw [htk]
      rcases h4 with h4 | h4
      · exact Or.inl h4
      · exact absurd hod (hux h4)
    · rw [hv d hd hde, ← hvc]; exact h4
  have hmem : ∀ u p, p ∈ w' u → (p ∈ w u ∧ (u = x → p.1.lit.ord ≠ e.lit.ord)) ∨ (u = y ∧ p = (c, j)) := by
    intro u p hp
    by_cases hux : u = x
    · subst hux
      have := (hwx p).mp hp
      exact Or.inl ⟨this.1, fun _ => this.2⟩
    · by_cases huy : u = y
      · subst huy
        rw [hwy] at hp
        rcases List.mem_append.mp hp with hp | hp
        · exact Or.inl ⟨hp, fun e' => absurd e' hux⟩
        · exact Or.inr ⟨rfl, by simpa using hp⟩
      · rw [hwo u hux huy] at hp
        exact Or.inl ⟨hp, fun e' => absurd e' hux⟩
  refine ⟨fun d hd => ?_, fun u c' k hm => ?_, fun d hd u hu => ?_, fun u => ?_⟩
  · by_cases hde : d = e
    · rw [hde]; exact hwi
    · have : d.lit.ord ≠ e.lit.ord := fun ho => hde (set_same hI hd he ho)
      rw [hv d hd hde, hLf _ this]; exact hW.wi d hd
  · rcases hmem u (c', k) hm with ⟨h1, h2⟩ | ⟨h1, h2⟩
    · exact hold u (c', k) h1 h2
    · cases h2
      subst h1
      refine ⟨⟨e, he, hce⟩, ?_, fun _ => by omega⟩
      have : (s.swapTerms e 1 j).varsOf c = (s.swapTerms e 1 j).varsOf e := by
        rcases hce with r | r <;> rw [r]; rfl
      rw [this, htk]; exact Or.inr rfl
  · by_cases hde : d = e
    · subst hde
      rcases (htk u).mp hu with h1 | h1
      · subst h1
        obtain ⟨c', k, hm, ho⟩ := hW.cov d hd u (by rw [hvs]; simp)
        refine ⟨c', k, ?_, ho⟩
        rw [hwo u hzx (Ne.symm hyz)]; exact hm
      · subst h1
        exact ⟨c, j, by rw [hwy]; simp, hordc⟩
    · rw [hv d hd hde] at hu
      obtain ⟨c', k, hm, ho⟩ := hW.cov d hd u hu
      have hne : d.lit.ord ≠ e.lit.ord := fun ho => hde (set_same hI hd he ho)
      refine ⟨c', k, ?_, ho⟩
      by_cases hux : u = x
      · subst hux
        exact (hwx _).mpr ⟨hm, by rw [ho]; exact hne⟩
      · by_cases huy : u = y
        · subst huy; rw [hwy]; simp [hm]
        · rw [hwo u hux huy]; exact hm
  · by_cases hux : u = x
    · subst hux; exact hnd
    · by_cases huy : u = y
      · subst huy
        rw [hwy, List.map_append, List.map_singleton]
        refine List.nodup_append.mpr ⟨hW.uniq u, by simp, ?_⟩
        intro a ha b' hb' hab
        simp at hb'
        obtain ⟨p, hp, hpa⟩ := List.mem_map.mp ha
        exact hno p hp (by rw [hpa, hab, hb', hordc])
      · rw [hwo u hux huy]; exact hW.uniq u

/-- Only the remembered position of an entry changes. -/
theorem Wat.index {w : Nat → List (LinCons × Nat)} (hW : Wat Lf s w) {x k k' : Nat} {c : LinCons}
    {a r : List (LinCons × Nat)} (hwx : w x = a ++ (c, k) :: r)
    (hk : 2 < c.size → 2 ≤ k' ∧ k' < c.size) :
    Wat Lf s (Function.update w x (a ++ (c, k') :: r)) := by
  have hcov : ∀ u p, p ∈ w u → ∃ q ∈ Function.update w x (a ++ (c, k') :: r) u, q.1 = p.1 := by
    intro u p hp
    by_cases hux : u = x
    · subst hux
      rw [Function.update_self]
      rw [hwx] at hp
      simp only [List.mem_append, List.mem_cons] at hp
      rcases hp with h | h | h
      · exact ⟨p, by simp [h], rfl⟩
      · exact ⟨(c, k'), by simp, by rw [h]⟩
      · exact ⟨p, by simp [h], rfl⟩
    · rw [Function.update_of_ne hux]; exact ⟨p, hp, rfl⟩
  refine ⟨hW.wi, fun u d i hm => ?_, fun e he u hu => ?_, fun u => ?_⟩
  · by_cases hux : u = x
    · subst hux
      rw [Function.update_self] at hm
      simp only [List.mem_append, List.mem_cons] at hm
      rcases hm with h | h | h
      · exact hW.mem u d i (by rw [hwx]; simp [h])
      · cases h
        obtain ⟨h1, h2, _⟩ := hW.mem u c k (by rw [hwx]; simp)
        exact ⟨h1, h2, hk⟩
      · exact hW.mem u d i (by rw [hwx]; simp [h])
    · rw [Function.update_of_ne hux] at hm; exact hW.mem u d i hm
  · obtain ⟨d, i, hm, ho⟩ := hW.cov e he u hu
    obtain ⟨q, hq, hq1⟩ := hcov u (d, i) hm
    exact ⟨q.1, q.2, hq, by rw [hq1]; exact ho⟩
  · by_cases hux : u = x
    · subst hux
      rw [Function.update_self]
      have := hW.uniq u
      rw [hwx] at this
      simpa using this
    · rw [Function.update_of_ne hux]; exact hW.uniq u

/-- After `moveSecond` the constraint begins with an unassigned variable and the new one. -/
theorem Keep.moveSecond (h : Keep hv hc la X Y Lf) {x : Nat} (hx : la.trail.rats.defined x = true)
    {e c : LinCons} (he : e ∈ la.store.set) (hce : c = e ∨ c = e.neg)
    (hLx : Lf e.lit.ord x = none) (hLz : ∀ z, la.trail.rats.defined z = false → Lf e.lit.ord z = none)
    {v0 v1 : Nat} {rest : List Nat} (hvs : la.store.varsOf e = v0 :: v1 :: rest)
    (hx2 : x = v0 ∨ x = v1)
    (hnb : ¬ (la.trail.rats.defined v0 = true ∧ la.trail.rats.defined v1 = true)) :
    Keep hv hc (la.moveSecond c x) X Y Lf ∧ Frame la (la.moveSecond c x) ∧
      (la.moveSecond c x).trail = la.trail ∧ (la.moveSecond c x).watched = la.watched ∧
      (la.moveSecond c x).store.set = la.store.set ∧
      ∃ z, la.trail.rats.defined z = false ∧ (la.moveSecond c x).store.varsOf e = z :: x :: rest := by
  have hvc : la.store.varsOf c = la.store.varsOf e := by rcases hce with r | r <;> rw [r]; rfl
  have hlen := varsOf_length h.base.inv he
  have hs : 2 ≤ e.size := by rw [← hlen, hvs]; simp
  have hnd := varsOf_nodup h.base.inv he
  rw [hvs] at hnd
  have h01 : v0 ≠ v1 := by
    intro e'; subst e'
    exact (List.nodup_cons.mp hnd).1 (by simp)
  unfold LA.moveSecond
  rw [hvc, hvs]
  simp only [List.getD_cons_succ, List.getD_cons_zero]
  by_cases hc1 : v1 = x
  · rw [if_neg (by simp [hc1])]
    have hz : la.trail.rats.defined v0 = false := by
      rw [← Bool.not_eq_true]
      intro hcon
      exact hnb ⟨hcon, by rw [hc1]; exact hx⟩
    have hk := h.check (c := ((la.store.varsOf c).getD 1 0 == x)) (by rw [hvc, hvs]; simp [hc1])
    exact ⟨hk.1, hk.2, rfl, rfl, rfl, v0, hz, by rw [← hc1]; exact hvs⟩
  · rw [if_pos hc1]
    have hx0 : x = v0 := hx2.resolve_right (fun e' => hc1 e'.symm)
    have hz : la.trail.rats.defined v1 = false := by
      rw [← Bool.not_eq_true]
      intro hcon
      exact hnb ⟨by rw [← hx0]; exact hx, hcon⟩
    have hsw : la.store.swapTerms c 0 1 = la.store.swapTerms e 0 1 := by
      rcases hce with r | r <;> rw [r]; rfl
    have hnew : (la.store.swapTerms e 0 1).varsOf e = v1 :: v0 :: rest := by
      rw [varsOf_swap h.base.inv he (by omega) (by omega), hvs]
      rfl
    have hnewc : (la.store.swapTerms e 0 1).varsOf c = v1 :: v0 :: rest := by
      rw [← hnew]; rcases hce with r | r <;> rw [r]; rfl
    rw [hsw]
    obtain ⟨hI', hK'⟩ := swap_kept h.base.inv he (i := 0) (j := 1) (by omega) (by omega)
    have hB' := h.base.swap he (i := 0) (j := 1) (by omega) (by omega) (Or.inr (Or.inr ⟨by
      intro u hu
      rw [hvs] at hu
      simp at hu
      rw [← hu, ← hx0]; exact hx, v1, by rw [hvs]; simp, hz⟩))
    have hS' := h.sem.swap h.base he (i := 0) (j := 1) (by omega) (by omega)
    have hW' := h.wat.swap h.base.inv he (i := 0) (j := 1) (by omega) (by omega) (by
      intro u; rw [hnew, hvs]; simp [or_comm]) (by
      rw [hnew]
      refine ⟨by rw [hLz v1 hz]; exact Ge.none _, fun y _ => by rw [← hx0, hLx]; exact Ge.none _⟩)
    have hk : Keep hv hc { la with store := la.store.swapTerms e 0 1 } X Y Lf := ⟨hB', h.ok, hS', hW'⟩
    have hf : Frame la { la with store := la.store.swapTerms e 0 1 } :=
      ⟨rfl, rfl, fun _ => rfl, fun _ => ⟨[], by simp⟩, fun _ _ h => h, hK', rfl, rfl, fun _ _ _ => rfl, le_refl _, fun _ => rfl,
        fun _ _ h1 h2 => absurd (h1.symm.trans h2) (by simp), fun _ _ h => Or.inl h,
        fun _ _ h1 h2 => absurd (h1.symm.trans h2) (by simp),
        fun _ _ h1 h2 => absurd (h1.symm.trans h2) (by simp), fun _ _ _ h => Or.inl h, MStep.refl _, fun _ h => Or.inl h⟩
    have hk2 := hk.check (c := (((la.store.swapTerms e 0 1).varsOf c).getD 1 0 == x))
      (by rw [hnewc]; simp [hx0])
    exact ⟨hk2.1, hf.trans hk2.2, rfl, rfl, rfl, v1, hz, by rw [hx0]; exact hnew⟩

/-- Outcomes of `replaceOne`. -/
theorem Keep.replaceOne (h : Keep hv hc la X Y Lf) {x d : Nat} (hx : lev la.trail x = some d)
    (hd : ∀ y l, lev la.trail y = some l → l ≤ d ∧ (l = d → y = x)) {c : LinCons} {i : Nat}
    {a r : List (LinCons × Nat)} (hwx : la.watched x = a ++ (c, i) :: r)
    (hLf : Lf c.lit.ord = Function.update (lev la.trail) x none) :
    let q := la.replaceOne c i x
    Frame la q.1 ∧ q.1.trail = la.trail ∧
    ((q.2.2 = false ∧ Keep hv hc q.1 X Y (Function.update Lf c.lit.ord (lev la.trail)) ∧
        q.1.watched = la.watched ∧ (2 < c.size → 2 ≤ q.2.1 ∧ q.2.1 < c.size) ∧
        ((∀ y ∈ q.1.store.varsOf c, la.trail.rats.defined y = true) ∨
          ∃ z rest, q.1.store.varsOf c = z :: rest ∧ la.trail.rats.defined z = false ∧
            rest.head? = some x ∧ ∀ y ∈ rest, la.trail.rats.defined y = true)) ∨
     (q.2.2 = true ∧ ∃ y, y ≠ x ∧ q.1.watched = pushWatch la.watched y (c, q.2.1) ∧
        Base hv hc q.1.trail q.1.store q.1.bnd ∧ q.1.ok = true ∧ Sem q.1.trail q.1.store q.1.bnd X Y ∧
        (∀ r', r'.Perm r → Wat (Function.update Lf c.lit.ord (lev la.trail)) q.1.store
          (Function.update q.1.watched x (a ++ r'))) ∧
        IsCons q.1.store c ∧
        ∃ y ∈ q.1.store.varsOf c, ∃ z ∈ q.1.store.varsOf c, y ≠ z ∧
          la.trail.rats.defined y = false ∧ la.trail.rats.defined z = false)) := by
  intro q
  have hmem : (c, i) ∈ la.watched x := by rw [hwx]; simp
  obtain ⟨e, he, hce, hoe, hvc, hsz⟩ := h.wat.isCons hmem
  obtain ⟨hcc, hx2, hi2⟩ := h.wat.mem x c i hmem
  have hlen := varsOf_length h.base.inv he
  have hnd := varsOf_nodup h.base.inv he
  have hdx : la.trail.rats.defined x = true := h.defined.mpr ⟨d, hx⟩
  have hwi := h.wat.wi e he
  rw [← hoe, hLf] at hwi
  rw [hvc] at hx2
  have hLfo : ∀ o, o ≠ c.lit.ord → Function.update Lf c.lit.ord (lev la.trail) o = Lf o :=
    fun o ho => Function.update_of_ne ho _ _
  -- the entry is kept, nothing is exchanged
  have hsame : WI (lev la.trail) (la.store.varsOf e) →
      Wat (Function.update Lf c.lit.ord (lev la.trail)) la.store la.watched := by
    intro hw
    refine h.wat.congr fun d' hd' => ?_
    by_cases ho : d'.lit.ord = c.lit.ord
    · have : d' = e := set_same h.base.inv hd' he (by rw [ho, hoe])
      rw [ho, Function.update_self, this]; exact hw
    · rw [hLfo _ ho]; exact h.wat.wi d' hd'
  have hgx : ∀ y, la.trail.rats.defined y = true → Ge (lev la.trail x) (lev la.trail y) := by
    intro y hy n hn
    rw [hx] at hn
    cases hn
    obtain ⟨l, hl⟩ := h.defined.mp hy
    exact ⟨l, hl, (hd y l hl).1⟩
  have hq : q = la.replaceOne c i x := rfl
  by_cases h1 : c.size ≤ 1
  · have hvs : la.store.varsOf e = [x] := by
      rw [hsz, ← hlen] at h1
      generalize la.store.varsOf e = vs at h1 hx2
      match vs, h1, hx2 with
      | [v], _, hx2 => simp at hx2; rw [hx2]
    have hqe : q = (la.check ((la.store.varsOf c).getD 0 0 == x), i, false) := by
      rw [hq]; unfold LA.replaceOne; rw [if_pos h1]
    have hk := h.check (c := ((la.store.varsOf c).getD 0 0 == x)) (by rw [hvc, hvs]; simp)
    rw [hqe]
    refine ⟨hk.2, rfl, Or.inl ⟨rfl, ⟨hk.1.base, hk.1.ok, hk.1.sem, hsame (by rw [hvs]; trivial)⟩, rfl,
      fun e => by omega, Or.inl fun y hy => ?_⟩⟩
    have hy' : y ∈ la.store.varsOf c := hy
    rw [hvc, hvs] at hy'
    simp at hy'
    rw [hy']; exact hdx
  · obtain ⟨v0, v1, rest, hvs⟩ : ∃ v0 v1 rest, la.store.varsOf e = v0 :: v1 :: rest := by
      rw [hsz, ← hlen] at h1
      generalize la.store.varsOf e = vs at h1
      match vs, h1 with
      | [], h1 => simp at h1
      | [_], h1 => simp at h1
      | v0 :: v1 :: rest, _ => exact ⟨v0, v1, rest, rfl⟩
    have hvsc : la.store.varsOf c = v0 :: v1 :: rest := by rw [hvc, hvs]
    rw [hvs] at hx2 hwi hnd
    have hx2' : x = v0 ∨ x = v1 := by simpa using hx2
    have hn0 := List.nodup_cons.mp hnd
    have hn1 := List.nodup_cons.mp hn0.2
    by_cases h2 : la.trail.rats.defined v0 = true ∧ la.trail.rats.defined v1 = true
    · -- all variables are assigned
      have hx0 : x = v0 := by
        rcases hx2' with e' | e'
        · exact e'
        · exfalso
          have := hwi.1
          rw [← e', Function.update_self] at this
          have h3 := this.eq_none
          rw [Function.update_of_ne (by intro e2; exact hn0.1 (by simp [e', e2]))] at h3
          obtain ⟨l, hl⟩ := h.defined.mp h2.1
          rw [hl] at h3; cases h3
      have hrest : ∀ y ∈ rest, Ge (lev la.trail v1) (lev la.trail y) := by
        intro y hy
        have := hwi.2 y hy
        rwa [Function.update_of_ne (by intro e'; exact hn0.1 (by simp [← hx0, e'])),
          Function.update_of_ne (by intro e'; exact hn0.1 (by rw [← hx0, ← e']; simp [hy]))] at this
      have hall : ∀ y ∈ la.store.varsOf c, la.trail.rats.defined y = true := by
        intro y hy
        rw [hvsc] at hy
        rcases List.mem_cons.mp hy with e' | hy
        · rw [e']; exact h2.1
        · rcases List.mem_cons.mp hy with e' | hy
          · rw [e']; exact h2.2
          · obtain ⟨l, hl⟩ := h.defined.mp h2.2
            obtain ⟨m, hm, _⟩ := hrest y hy l hl
            exact h.defined.mpr ⟨m, hm⟩
      have hqe : q = (la.check ((la.store.varsOf c).all fun y => la.trail.rats.defined y), i, false) := by
        rw [hq]; unfold LA.replaceOne
        rw [if_neg h1, hvsc]
        simp only [List.getD_cons_succ, List.getD_cons_zero]
        rw [if_pos (by rw [h2.1, h2.2]; rfl)]
      have hk := h.check (c := ((la.store.varsOf c).all fun y => la.trail.rats.defined y))
        (List.all_eq_true.mpr hall)
      rw [hqe]
      refine ⟨hk.2, rfl, Or.inl ⟨rfl, ⟨hk.1.base, hk.1.ok, hk.1.sem, hsame ?_⟩, rfl, hi2, Or.inl hall⟩⟩
      rw [hvs]
      exact ⟨by rw [← hx0]; exact hgx v1 h2.2, hrest⟩
    · obtain ⟨hk1, hf1, ht1, hw1, hs1, z, hz, hvz⟩ := h.moveSecond hdx he hce
        (by rw [← hoe, hLf, Function.update_self]) (by
          intro z hz
          rw [← hoe, hLf]
          by_cases hzx : z = x
          · rw [hzx, Function.update_self]
          · rw [Function.update_of_ne hzx]; exact h.undefined.mp hz) hvs hx2' h2
      have he1 : e ∈ (la.moveSecond c x).store.set := by rw [hs1]; exact he
      have hvzc : (la.moveSecond c x).store.varsOf c = z :: x :: rest := by
        rw [← hvz]; rcases hce with r | r <;> rw [r]; rfl
      have hlz : lev la.trail z = none := h.undefined.mp hz
      have hzx : z ≠ x := by intro e'; rw [e', hdx] at hz; cases hz
      have hndz := varsOf_nodup hk1.base.inv he1
      rw [hvz] at hndz
      -- the entry is kept and every variable after the first is assigned
      have hkeep : (∀ y ∈ rest, la.trail.rats.defined y = true) →
          Wat (Function.update Lf c.lit.ord (lev la.trail)) (la.moveSecond c x).store
            (la.moveSecond c x).watched := by
        intro hrest
        refine hk1.wat.congr fun d' hd' => ?_
        by_cases ho : d'.lit.ord = c.lit.ord
        · have : d' = e := set_same hk1.base.inv hd' he1 (by rw [ho, hoe])
          rw [ho, Function.update_self, this, hvz]
          exact ⟨by rw [hlz]; exact Ge.none _, fun y hy => hgx y (hrest y hy)⟩
        · rw [hLfo _ ho]; exact hk1.wat.wi d' hd'
      have hkept : ∀ (i' : Nat), (2 < c.size → 2 ≤ i' ∧ i' < c.size) → ∀ l2 : LA R,
          Frame la l2 → l2.trail = (la.moveSecond c x).trail → l2.store = (la.moveSecond c x).store →
          l2.bnd = (la.moveSecond c x).bnd → l2.watched = (la.moveSecond c x).watched → l2.ok = true →
          (∀ y ∈ rest, la.trail.rats.defined y = true) →
          Frame la l2 ∧ l2.trail = la.trail ∧
          (false = false ∧ Keep hv hc l2 X Y (Function.update Lf c.lit.ord (lev la.trail)) ∧
            l2.watched = la.watched ∧ (2 < c.size → 2 ≤ i' ∧ i' < c.size) ∧
            ((∀ y ∈ l2.store.varsOf c, la.trail.rats.defined y = true) ∨
            ∃ z rest, l2.store.varsOf c = z :: rest ∧ la.trail.rats.defined z = false ∧
              rest.head? = some x ∧ ∀ y ∈ rest, la.trail.rats.defined y = true)) := by
        intro i' hi' l2 hf2 e1 e2 e3 e4 e5 hrest
        refine ⟨hf2, e1.trans ht1, rfl, ⟨by rw [e1, e2, e3]; exact hk1.base, e5,
          by rw [e1, e2, e3]; exact hk1.sem, by rw [e2, e4]; exact hkeep hrest⟩, e4.trans hw1, hi',
          Or.inr ⟨z, x :: rest, by rw [e2]; exact hvzc, hz, rfl, ?_⟩⟩
        intro y hy
        rcases List.mem_cons.mp hy with e' | hy
        · rw [e']; exact hdx
        · exact hrest y hy
      by_cases h3 : c.size > 2
      · have hi := hi2 h3
        obtain ⟨hk2, hf2⟩ := hk1.check (c := Decidable.decide (2 ≤ i) && Decidable.decide (i < c.size))
          (by simp [hi.1, hi.2])
        have hlz' : (z :: x :: rest).length = c.size := by rw [← hvz, varsOf_length hk1.base.inv he1, hsz]
        obtain ⟨s1, s2, s3, s4⟩ := scan_all (m := (la.moveSecond c x).trail.rats) (vs := z :: x :: rest)
          (i := i) hi.1 (by rw [hlz']; exact hi.2)
        rw [hlz'] at s1 s2 s3 s4
        set sc := scan (la.moveSecond c x).trail.rats (z :: x :: rest) i c.size i with hsc
        have hqe : q = (if sc.2 then
            let s := (la.moveSecond c x).store.swapTerms c 1 sc.1
            let y := (s.varsOf c).getD 1 0
            ({ (la.moveSecond c x).check (Decidable.decide (2 ≤ i) && Decidable.decide (i < c.size))
                with store := s, watched := pushWatch (la.moveSecond c x).watched y (c, sc.1) }, sc.1,
              y != x)
            else ((la.moveSecond c x).check (Decidable.decide (2 ≤ i) && Decidable.decide (i < c.size)),
              sc.1, x != x)) := by
          rw [hq]; unfold LA.replaceOne
          rw [if_neg h1, hvsc]
          simp only [List.getD_cons_succ, List.getD_cons_zero]
          rw [if_neg (by rw [Bool.and_eq_true]; exact h2), if_pos h3]
          have e1 : ((la.moveSecond c x).check
              (Decidable.decide (2 ≤ i) && Decidable.decide (i < c.size))).store.varsOf c
              = z :: x :: rest := hvzc
          have e2 : ((la.moveSecond c x).check
              (Decidable.decide (2 ≤ i) && Decidable.decide (i < c.size))).trail.rats
              = (la.moveSecond c x).trail.rats := rfl
          rw [e1, e2, ← hsc]
          rfl
        by_cases hfound : sc.2 = true
        · -- a replacement
          rw [if_pos hfound] at hqe
          set s2 := (la.moveSecond c x).store.swapTerms e 1 sc.1 with hs2
          have hs2c : (la.moveSecond c x).store.swapTerms c 1 sc.1 = s2 := by
            rw [hs2]; rcases hce with r | r <;> rw [r]; rfl
          obtain ⟨y, hy⟩ : ∃ y, (z :: x :: rest)[sc.1]? = some y :=
            ⟨_, List.getElem?_eq_getElem (by rw [hlz']; assumption)⟩
          have hyu : la.trail.rats.defined y = false := by
            have := s3 hfound
            rw [ht1, List.getD_eq_getElem?_getD, hy] at this
            exact this
          have hyz : y ≠ z := by
            intro e'
            rw [e'] at hy
            have h0 : (z :: x :: rest)[0]? = some z := rfl
            have := (List.getElem?_inj (List.getElem?_eq_some_iff.mp h0).1 hndz).mp (h0.trans hy.symm)
            omega
          have hyx : y ≠ x := by intro e'; rw [e', hdx] at hyu; cases hyu
          have hnew : s2.varsOf e = LinStore.swapAt (z :: x :: rest) 1 sc.1 := by
            rw [hs2, varsOf_swap hk1.base.inv he1 (by omega) (by omega), hvz]
          have hnewc : s2.varsOf c = LinStore.swapAt (z :: x :: rest) 1 sc.1 := by
            rw [← hnew]; rcases hce with r | r <;> rw [r]; rfl
          have hn0' : (LinStore.swapAt (z :: x :: rest) 1 sc.1)[0]? = some z := by
            rw [LinStore.swapAt_getElem? (by simp) (by rw [hlz']; assumption), if_neg (by omega),
              if_neg (by omega)]
            rfl
          have hn1' : (LinStore.swapAt (z :: x :: rest) 1 sc.1)[1]? = some y := by
            rw [LinStore.swapAt_getElem? (by simp) (by rw [hlz']; assumption), if_neg (by omega),
              if_pos rfl, hy]
          have hyD : (s2.varsOf c).getD 1 0 = y := by
            rw [hnewc, List.getD_eq_getElem?_getD, hn1']; rfl
          rw [hs2c] at hqe
          simp only [hyD] at hqe
          obtain ⟨hI', hK'⟩ := swap_kept hk1.base.inv he1 (i := 1) (j := sc.1) (by omega) (by omega)
          have hB' : Base hv hc (la.moveSecond c x).trail s2 (la.moveSecond c x).bnd :=
            hk1.base.swap he1 (i := 1) (j := sc.1) (by omega) (by omega) (Or.inr (Or.inl ⟨by omega, by omega⟩))
          have hS' : Sem (la.moveSecond c x).trail s2 (la.moveSecond c x).bnd X Y :=
            hk1.sem.swap hk1.base he1 (i := 1) (j := sc.1) (by omega) (by omega)
          rw [hqe]
          refine ⟨hf1.trans (hf2.trans ⟨rfl, rfl, fun _ => rfl, fun _ => ⟨[], by simp⟩, fun _ _ h => h,
            hK', rfl, rfl, fun _ _ _ => rfl, le_refl _, fun _ => rfl,
        fun _ _ h1 h2 => absurd (h1.symm.trans h2) (by simp), fun _ _ h => Or.inl h,
        fun _ _ h1 h2 => absurd (h1.symm.trans h2) (by simp),
        fun _ _ h1 h2 => absurd (h1.symm.trans h2) (by simp), fun _ _ _ h => Or.inl h, MStep.refl _, fun _ h => Or.inl h⟩), ht1, Or.inr ⟨by simpa using hyx, y, hyx, by rw [hw1], hB', hk2.ok, hS',
            fun r' hr' => ?_, ⟨e, he1, hce⟩, y, ?_, z, ?_, hyz, hyu, hz⟩⟩
          · have hnd' := h.wat.uniq x
            rw [hwx, List.map_append, List.map_cons] at hnd'
            have hnd1 := List.nodup_append.mp hnd'
            have hnd2 := List.nodup_cons.mp hnd1.2.1
            refine Wat.move hk1.base.inv hk1.wat he1 hce hvz s1 (by omega) (by rw [hvz]; exact hy) ?_ ?_ ?_ ?_
              (fun o ho => hLfo o (by rw [hoe]; exact ho)) ?_
            · intro p
              rw [Function.update_self, hw1, hwx]
              simp only [List.mem_append, List.mem_cons, hr'.mem_iff]
              constructor
              · rintro (hp | hp)
                · exact ⟨Or.inl hp, fun ho => hnd1.2.2 _ (List.mem_map.mpr ⟨p, hp, rfl⟩) _
                    (List.mem_cons_self ..) (by rw [ho, hoe])⟩
                · exact ⟨Or.inr (Or.inr hp), fun ho => hnd2.1 (List.mem_map.mpr ⟨p, hp, by rw [ho, hoe]⟩)⟩
              · rintro ⟨hp | hp | hp, ho⟩
                · exact Or.inl hp
                · rw [hp] at ho; exact absurd hoe ho
                · exact Or.inr hp
            · rw [Function.update_self]
              have : (ords (a ++ r')).Perm (ords (a ++ r)) := by
                unfold ords
                exact (hr'.append_left a).map _
              rw [this.nodup_iff]
              unfold ords
              rw [List.map_append]
              refine List.nodup_append.mpr ⟨hnd1.1, hnd2.2, fun u hu v hv' => ?_⟩
              exact hnd1.2.2 u hu v (List.mem_cons_of_mem _ hv')
            · rw [Function.update_of_ne hyx]
              show pushWatch _ _ _ _ = _
              unfold pushWatch
              rw [Function.update_self, hw1]
            · intro u hux huy
              rw [Function.update_of_ne hux]
              show pushWatch _ _ _ _ = _
              unfold pushWatch
              rw [Function.update_of_ne huy, hw1]
            · rw [← hoe, Function.update_self, ← hs2, hnew]
              generalize LinStore.swapAt (z :: x :: rest) 1 sc.1 = vs at hn0' hn1'
              match vs, hn0', hn1' with
              | [], h0, _ => simp at h0
              | [_], _, h1 => simp at h1
              | u :: v :: r, h0, h1 =>
                simp at h0 h1
                subst h0; subst h1
                exact ⟨by rw [hlz]; exact Ge.none _, fun y' _ => by
                  rw [h.undefined.mp hyu]; exact Ge.none _⟩
          · show y ∈ s2.varsOf c
            rw [hnewc]; exact List.mem_of_getElem? hn1'
          · show z ∈ s2.varsOf c
            rw [hnewc]; exact List.mem_of_getElem? hn0'
        · rw [if_neg hfound] at hqe
          rw [Bool.not_eq_true] at hfound
          have := hkept sc.1 (fun _ => ⟨s1, by assumption⟩) _ (hf1.trans hf2) rfl rfl rfl rfl hk2.ok (by
            intro y hy
            obtain ⟨n, hn, hyn⟩ := List.mem_iff_getElem.mp hy
            have h5 := s4 hfound (n + 2) (by omega) (by rw [← hlz']; simp; omega)
            rw [ht1, List.getD_eq_getElem?_getD] at h5
            simp only [List.getElem?_cons_succ] at h5
            rw [List.getElem?_eq_getElem hn, Option.getD_some, hyn] at h5
            exact h5)
          rw [hqe]
          simp only [bne_self_eq_false]
          exact ⟨this.1, this.2.1, Or.inl ⟨trivial, this.2.2.2⟩⟩
      · have hqe : q = (la.moveSecond c x, i, x != x) := by
          rw [hq]; unfold LA.replaceOne
          rw [if_neg h1, hvsc]
          simp only [List.getD_cons_succ, List.getD_cons_zero]
          rw [if_neg (by rw [Bool.and_eq_true]; exact h2), if_neg h3, hvzc]
          simp only [List.getD_cons_succ, List.getD_cons_zero]
        have hr0 : rest = [] := by
          have : (z :: x :: rest).length = c.size := by rw [← hvz, varsOf_length hk1.base.inv he1, hsz]
          simp at this
          exact List.length_eq_zero_iff.mp (by omega)
        have := hkept i (fun e => absurd e h3) _ hf1 rfl rfl rfl rfl hk1.ok (by
          intro y hy; rw [hr0] at hy; cases hy)
        rw [hqe]
        simp only [bne_self_eq_false]
        exact ⟨this.1, this.2.1, Or.inl ⟨trivial, this.2.2.2⟩⟩

theorem isFull_eq (hB : Base hv hc la.trail la.store la.bnd) {c : LinCons} (hcc : IsCons la.store c) :
    la.isFull c = true ↔ ∀ y ∈ la.store.varsOf c, la.trail.rats.defined y = true := by
  have hne := hB.vars_ne hcc
  have : c.isEmpty = false := by
    by_contra hcon
    rw [Bool.not_eq_false] at hcon
    apply hne
    unfold LinCons.isEmpty at hcon
    have : c.second ≤ c.first := by simpa using hcon
    unfold LinStore.varsOf LinStore.slice
    simp only [List.take_eq_nil_iff]
    omega
  unfold LA.isFull
  rw [this, Bool.false_or, List.all_eq_true]

theorem Frame.trail_defined {la la' : LA R} (h : Frame la la') (x : Nat) :
    la'.trail.rats.defined x = la.trail.rats.defined x := by rw [h.rats]

/-- An entry that stays in the list. -/
theorem Keep.onWatched (h : Keep hv hc la X Y Lf) {c : LinCons} (hcc : IsCons la.store c)
    (hcase : (∀ y ∈ la.store.varsOf c, la.trail.rats.defined y = true) ∨
      ∃ z rest, la.store.varsOf c = z :: rest ∧ la.trail.rats.defined z = false ∧
        (∃ x, rest.head? = some x ∧ lev la.trail x = some la.trail.decisionLevel) ∧
        ∀ y ∈ rest, la.trail.rats.defined y = true) :
    Keep hv hc (la.onWatched c) (fun k o => X k o ∧ ¬ (k = la.trail.decisionLevel ∧ o = c.lit.ord))
      (fun k o => Y k o ∧ ¬ (k = la.trail.decisionLevel ∧ o = c.lit.ord)) Lf ∧
      Frame la (la.onWatched c) ∧ (la.onWatched c).watched = la.watched := by
  unfold LA.onWatched
  rcases hcase with hf | ⟨z, rest, hvs, hz, ⟨x, hx, hxl⟩, hrest⟩
  · have hfull := (isFull_eq h.base hcc).mpr hf
    rw [hfull]
    simp only [if_true]
    by_cases hb : la.trail.bools.defined c.lit.ord = true
    · rw [if_pos hb]
      obtain ⟨hk, hfr⟩ := h.checkValue hcc hb hf
      refine ⟨⟨hk.base, hk.ok, ?_, hk.wat⟩, hfr, rfl⟩
      exact hk.sem.done hk.base (fun _ _ _ _ => hb) (compO_of_full h.base.inv hcc hf)
    · rw [if_neg hb]
      rw [Bool.not_eq_true] at hb
      obtain ⟨hk, hfr, _⟩ := Keep.propagateCons h.base h.ok h.sem h.wat hcc hb hf
      refine ⟨⟨hk.base, hk.ok, ?_, hk.wat⟩, hfr, rfl⟩
      exact hk.sem.mono (fun k _ o ho => ⟨ho.1, fun e => ho.2 e.2⟩) (fun k _ o ho => ⟨ho.1, fun e => ho.2 e.2⟩)
  · have hnf : la.isFull c = false := by
      rw [← Bool.not_eq_true, isFull_eq h.base hcc]
      intro hcon
      have := hcon z (by rw [hvs]; simp)
      rw [hz] at this; cases this
    have hun : la.isUnit c = true := by
      unfold LA.isUnit
      rw [hvs]
      match rest, hx, hrest with
      | y :: r, hx, hrest =>
        have := hrest y (by simp)
        simp [hz, this]
    rw [hnf]
    simp only [Bool.false_eq_true, if_false]
    obtain ⟨hk, hfr⟩ := h.check hun
    by_cases hb : la.trail.bools.defined c.lit.ord = true
    · rw [if_pos hb]
      obtain ⟨hk2, hfr2⟩ := hk.unit (c := c) hcc hb hvs hz hrest
        (Or.inr ⟨x, List.mem_of_mem_head? (by rw [hx]; rfl), hxl⟩)
      refine ⟨⟨hk2.base, hk2.ok, ?_, hk2.wat⟩, hfr.trans hfr2, rfl⟩
      have hC : CompO la.store (mods la.trail) ((la.check (la.isUnit c)).unit c).bnd c.lit.ord := by
        have := hk2.sem.comp la.trail.decisionLevel (le_refl _) c.lit.ord (fun hh => hh.2 ⟨rfl, rfl⟩)
        have e : cut (la.check (la.isUnit c)).trail la.trail.decisionLevel = mods la.trail := cut_top h.base.tinv
        have e' : cut ((la.check (la.isUnit c)).unit c).trail la.trail.decisionLevel = mods la.trail := e
        rw [e'] at this
        exact this
      have hF : FullO la.store (mods la.trail) c.lit.ord := fun _ _ _ _ => hb
      exact (hk2.sem.done hk2.base hF hC).mono (fun _ _ _ h => h) (fun _ _ _ h => ⟨h.1.1, h.2⟩)
    · rw [if_neg hb]
      rw [Bool.not_eq_true] at hb
      refine ⟨⟨hk.base, hk.ok, ?_, hk.wat⟩, hfr, rfl⟩
      refine hk.sem.done hk.base (fun e he heo hy => ?_) (compO_of_undef hb)
      exfalso
      have hve : la.store.varsOf c = la.store.varsOf e := by
        rcases IsCons.of_ord h.base.inv he hcc heo.symm with r | r <;> rw [r]; rfl
      have := hy z (by show z ∈ la.store.varsOf e; rw [← hve, hvs]; simp)
      have h2 : la.trail.rats.defined z = true := this
      rw [hz] at h2; cases h2

/-- The loop over the watch list. -/
theorem Keep.replaceLoop {x d : Nat} : ∀ (r a : List (LinCons × Nat)) (la : LA R) (X Y : Nat → Nat → Prop),
    d = la.trail.decisionLevel →
    lev la.trail x = some d → (∀ y l, lev la.trail y = some l → l ≤ d ∧ (l = d → y = x)) →
    la.watched x = a ++ r →
    Keep hv hc la X Y (fun o => if o ∈ ords r then Function.update (lev la.trail) x none
      else lev la.trail) →
    let q := LA.replaceLoop x r.length a.length la
    Keep hv hc q (fun k o => X k o ∧ ¬ (k = la.trail.decisionLevel ∧ o ∈ ords r))
      (fun k o => Y k o ∧ ¬ (k = la.trail.decisionLevel ∧ o ∈ ords r)) (fun _ => lev la.trail) ∧
      Frame la q := by
  intro r
  induction hn : r.length generalizing r with
  | zero =>
    intro a la X Y hdl hx hd hw hk q
    have hr : r = [] := List.length_eq_zero_iff.mp hn
    subst hr
    refine ⟨⟨hk.base, hk.ok, hk.sem.mono (fun _ _ _ h => ⟨h, by simp [ords]⟩)
      (fun _ _ _ h => ⟨h, by simp [ords]⟩), hk.wat.congr fun e he => ?_⟩, Frame.refl la⟩
    have := hk.wat.wi e he
    simpa [ords] using this
  | succ n ih =>
    intro a la X Y hdl hx hd hw hk q
    match r, hn with
    | (c, i) :: r, hn =>
      have hn : r.length = n := by simpa using hn
      have hnd := hk.wat.uniq x
      rw [hw, List.map_append, List.map_cons] at hnd
      have hnd2 := List.nodup_cons.mp (List.nodup_append.mp hnd).2.1
      obtain ⟨hfr, htr, hcase⟩ := hk.replaceOne hx hd hw (by
        show (if c.lit.ord ∈ ords ((c, i) :: r) then _ else _) = _
        rw [if_pos (by simp [ords])])
      -- the levels that count afterwards
      have hLf : ∀ r' : List (LinCons × Nat), r'.Perm r → Function.update
          (fun o => if o ∈ ords ((c, i) :: r) then Function.update (lev la.trail) x none
            else lev la.trail) c.lit.ord (lev la.trail) =
          fun o => if o ∈ ords r' then Function.update (lev la.trail) x none else lev la.trail := by
        intro r' hr'
        funext o
        have hm : ∀ o, o ∈ ords r' ↔ o ∈ ords r := fun o => (hr'.map _).mem_iff
        by_cases ho : o = c.lit.ord
        · rw [ho, Function.update_self, if_neg (by rw [hm]; exact hnd2.1)]
        · rw [Function.update_of_ne ho]
          have : o ∈ ords ((c, i) :: r) ↔ o ∈ ords r := by simp [ords, ho]
          simp only [this, hm]
      have hget : (la.watched x)[a.length]? = some (c, i) := by
        rw [hw, List.getElem?_append_right le_rfl]; simp
      have hq : q = LA.replaceLoop x (n + 1) a.length la := rfl
      rw [LA.replaceLoop, hget] at hq
      simp only at hq
      set p := la.replaceOne c i x with hp
      have fin : ∀ (r' : List (LinCons × Nat)), r'.Perm r → ∀ (a' : List (LinCons × Nat)) (l2 : LA R),
          Frame la l2 → l2.watched x = a' ++ r' →
          Keep hv hc l2 (fun k o => X k o ∧ ¬ (k = la.trail.decisionLevel ∧ o = c.lit.ord))
            (fun k o => Y k o ∧ ¬ (k = la.trail.decisionLevel ∧ o = c.lit.ord))
            (Function.update (fun o => if o ∈ ords ((c, i) :: r) then
              Function.update (lev la.trail) x none else lev la.trail) c.lit.ord (lev la.trail)) →
          q = LA.replaceLoop x n a'.length l2 →
          Keep hv hc q (fun k o => X k o ∧ ¬ (k = la.trail.decisionLevel ∧ o ∈ ords ((c, i) :: r)))
            (fun k o => Y k o ∧ ¬ (k = la.trail.decisionLevel ∧ o ∈ ords ((c, i) :: r)))
            (fun _ => lev la.trail) ∧ Frame la q := by
        intro r' hr' a' l2 hf2 hw2 hk2 hq2
        have hlev : lev l2.trail = lev la.trail := funext hf2.lev
        have hm : ∀ o, o ∈ ords r' ↔ o ∈ ords r := fun o => (hr'.map _).mem_iff
        have := ih r' (hr'.length_eq.trans hn) a' l2 _ _ (by rw [hf2.dl]; exact hdl) (by rw [hlev]; exact hx)
          (fun y l => by rw [hlev]; exact hd y l) hw2 (by
            rw [hLf r' hr'] at hk2
            rw [hlev]; exact hk2)
        rw [← hq2, hf2.dl, hlev] at this
        refine ⟨⟨this.1.base, this.1.ok, this.1.sem.mono ?_ ?_, this.1.wat⟩, hf2.trans this.2⟩
        · rintro k _ o ⟨⟨h1, h2⟩, h3⟩
          refine ⟨h1, ?_⟩
          rintro ⟨h4, h5⟩
          simp only [ords, List.map_cons, List.mem_cons] at h5
          rcases h5 with h5 | h5
          · exact h2 ⟨h4, h5⟩
          · exact h3 ⟨h4, (hm o).mpr h5⟩
        · rintro k _ o ⟨⟨h1, h2⟩, h3⟩
          refine ⟨h1, ?_⟩
          rintro ⟨h4, h5⟩
          simp only [ords, List.map_cons, List.mem_cons] at h5
          rcases h5 with h5 | h5
          · exact h2 ⟨h4, h5⟩
          · exact h3 ⟨h4, (hm o).mpr h5⟩
      rcases hcase with ⟨h1, hk1, hw1, hi1, hc1⟩ | ⟨h1, y, hyx, hw1, hB1, hok1, hS1, hW1, hcc1, u, hu, v, hv', huv, huu, hvu⟩
      · rw [if_neg (by rw [h1]; simp)] at hq
        have hset : (p.1.watched x).set a.length (c, p.2.1) = a ++ (c, p.2.1) :: r := by
          rw [hw1, hw, List.set_append_right _ _ le_rfl]; simp
        rw [hset] at hq
        have hk2 : Keep hv hc { p.1 with watched := Function.update p.1.watched x (a ++ (c, p.2.1) :: r) } X Y
            (Function.update (fun o => if o ∈ ords ((c, i) :: r) then
              Function.update (lev la.trail) x none else lev la.trail) c.lit.ord (lev la.trail)) :=
          ⟨hk1.base, hk1.ok, hk1.sem, hk1.wat.index (by rw [hw1]; exact hw) hi1⟩
        have hcc : IsCons p.1.store c := (hk1.wat.mem x c i (by rw [hw1, hw]; simp)).1
        obtain ⟨hk3, hf3, hw3⟩ := hk2.onWatched hcc (by
          rcases hc1 with hc1 | ⟨z, rest, e1, e2, e3, e4⟩
          · left; intro y hy
            show p.1.trail.rats.defined y = true
            rw [htr]; exact hc1 y hy
          · right
            refine ⟨z, rest, e1, ?_, ⟨x, e3, ?_⟩, fun y hy => ?_⟩
            rotate_left
            · show lev p.1.trail x = some p.1.trail.decisionLevel
              rw [htr, ← hdl]; exact hx
            rotate_left
            · show p.1.trail.rats.defined z = false
              rw [htr]; exact e2
            · show p.1.trail.rats.defined y = true
              rw [htr]; exact e4 y hy)
        refine fin r (List.Perm.refl r) (a ++ [(c, p.2.1)]) _ (hfr.trans (Frame.trans (b :=
          { p.1 with watched := Function.update p.1.watched x (a ++ (c, p.2.1) :: r) })
          ⟨rfl, rfl, fun _ => rfl, fun _ => ⟨[], by simp⟩, fun _ _ h => h, Kept.refl _, rfl, rfl, fun _ _ _ => rfl, le_refl _, fun _ => rfl,
        fun _ _ h1 h2 => absurd (h1.symm.trans h2) (by simp), fun _ _ h => Or.inl h,
        fun _ _ h1 h2 => absurd (h1.symm.trans h2) (by simp),
        fun _ _ h1 h2 => absurd (h1.symm.trans h2) (by simp), fun _ _ _ h => Or.inl h, MStep.refl _, fun _ h => Or.inl h⟩ hf3)) ?_ ?_ ?_
        · rw [hw3]
          show Function.update _ x _ x = _
          rw [Function.update_self]; simp
        · have e : ({ p.1 with watched := Function.update p.1.watched x (a ++ (c, p.2.1) :: r) } :
              LA R).trail.decisionLevel = la.trail.decisionLevel := hfr.dl
          rw [e] at hk3
          exact hk3
        · rw [hq]; simp
      · rw [if_pos h1] at hq
        have hset : (p.1.watched x).set a.length (c, p.2.1) = a ++ (c, p.2.1) :: r := by
          rw [hw1]
          unfold pushWatch
          rw [Function.update_of_ne (Ne.symm hyx), hw, List.set_append_right _ _ le_rfl]; simp
        obtain ⟨r', hr', hpop⟩ := swapPop_spec a (c, p.2.1) r
        rw [hset, hpop] at hq
        have hF : FullO p.1.store (mods p.1.trail) c.lit.ord := by
          intro e he heo hall
          exfalso
          have hve : p.1.store.varsOf c = p.1.store.varsOf e := by
            rcases IsCons.of_ord hB1.inv he hcc1 heo.symm with r | r <;> rw [r]; rfl
          have : (mods p.1.trail).rats.defined u = true := hall u (hve ▸ hu)
          rw [htr] at this
          have h2 : la.trail.rats.defined u = true := this
          rw [huu] at h2; cases h2
        have hC : CompO p.1.store (mods p.1.trail) p.1.bnd c.lit.ord := by
          refine compO_of_two hB1.inv hcc1 hu hv' huv ?_ ?_
          · show p.1.trail.rats.defined u = false
            rw [htr]; exact huu
          · show p.1.trail.rats.defined v = false
            rw [htr]; exact hvu
        have hS2 := hS1.done hB1 hF hC
        refine fin r' hr' a { p.1 with watched := Function.update p.1.watched x (a ++ r') } (hfr.trans
          ⟨rfl, rfl, fun _ => rfl, fun _ => ⟨[], by simp⟩, fun _ _ h => h, Kept.refl _, rfl, rfl, fun _ _ _ => rfl, le_refl _, fun _ => rfl,
        fun _ _ h1 h2 => absurd (h1.symm.trans h2) (by simp), fun _ _ h => Or.inl h,
        fun _ _ h1 h2 => absurd (h1.symm.trans h2) (by simp),
        fun _ _ h1 h2 => absurd (h1.symm.trans h2) (by simp), fun _ _ _ h => Or.inl h, MStep.refl _, fun _ h => Or.inl h⟩) ?_ ?_ hq
        · show Function.update _ x _ x = _
          rw [Function.update_self]
        · rw [hfr.dl] at hS2
          exact ⟨hB1, hok1, hS2, hW1 r' hr'⟩

/-- `replaceWatch` on the variable decided at the current level. -/
theorem Keep.replaceWatch {x : Nat} (hx : lev la.trail x = some la.trail.decisionLevel)
    (h : Keep hv hc la X Y (fun o => if o ∈ ords (la.watched x) then Function.update (lev la.trail) x none
      else lev la.trail)) :
    Keep hv hc (la.replaceWatch x)
      (fun k o => X k o ∧ ¬ (k = la.trail.decisionLevel ∧ o ∈ ords (la.watched x)))
      (fun k o => Y k o ∧ ¬ (k = la.trail.decisionLevel ∧ o ∈ ords (la.watched x))) (fun _ => lev la.trail) ∧
      Frame la (la.replaceWatch x) := by
  obtain ⟨hk, hf⟩ := h.check (c := la.trail.rats.defined x) (h.defined.mpr ⟨_, hx⟩)
  have := Keep.replaceLoop (hv := hv) (hc := hc) (x := x) (d := la.trail.decisionLevel)
    (la.watched x) [] (la.check (la.trail.rats.defined x)) X Y rfl hx
    (fun y l hl => ⟨h.base.tinv.bound _ _ hl, fun e => by
      subst e
      exact (h.base.rat_level hl hx).1⟩) rfl hk
  exact ⟨this.1, hf.trans this.2⟩

/-- The variable of the current level is handled once more. -/
theorem Keep.replaceWatch_again {x : Nat} (hx : lev la.trail x = some la.trail.decisionLevel)
    (h : Keep hv hc la X Y (fun _ => lev la.trail)) :
    Keep hv hc (la.replaceWatch x) X Y (fun _ => lev la.trail) ∧ Frame la (la.replaceWatch x) := by
  have := Keep.replaceWatch (hv := hv) (hc := hc) (X := X) (Y := Y) hx
    ⟨h.base, h.ok, h.sem, h.wat.congr fun e he => by
      split
      · exact (h.wat.wi e he).forget hx (fun y l hl => ⟨h.base.tinv.bound _ _ hl, fun e => by
          subst e
          exact (h.base.rat_level hl hx).1⟩)
      · exact h.wat.wi e he⟩
  exact ⟨⟨this.1.base, this.1.ok, this.1.sem.mono (fun _ _ _ h => h.1) (fun _ _ _ h => h.1), this.1.wat⟩,
    this.2⟩

end LA
end Yaga
