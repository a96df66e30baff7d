/-
Histories of the constraint repository, and normal forms decide equivalence.
-/
import Verif.Proofs.LinearStore

set_option linter.unusedVariables false

namespace Yaga
open Spec
namespace LinStore

/-- Everything stored in `s` is still there in `s'`, up to the order of the terms. -/
structure Kept (s s' : LinStore) : Prop where
  set : ∀ d ∈ s.set, d ∈ s'.set
  terms : ∀ d ∈ s.set, (s'.terms d).Perm (s.terms d)
  cons : ∀ (k : Nat) d, s.cons[k]? = some d → s'.cons[k]? = some d

theorem Kept.refl (s : LinStore) : Kept s s := ⟨fun _ h => h, fun _ _ => List.Perm.refl _, fun _ _ h => h⟩

theorem Kept.trans {s t u : LinStore} (h1 : Kept s t) (h2 : Kept t u) : Kept s u :=
  ⟨fun d hd => h2.set d (h1.set d hd),
   fun d hd => (h2.terms d (h1.set d hd)).trans (h1.terms d hd),
   fun k d hd => h2.cons k d (h1.cons k d hd)⟩

/-- Result of `make` in terms of the stored element it refers to. -/
structure Made (s : LinStore) (c : LinCons) (ts : List (Nat × ℚ)) (pred : Pred) (rhs : ℚ)
    (e : LinCons) : Prop where
  mem : e ∈ s.set
  eq : c = e ∨ c = e.neg
  means : ∀ σ, LinTrue σ (s.terms e) e.pred e.rhs ↔
    (if c = e then LinTrue σ ts pred rhs else ¬ LinTrue σ ts pred rhs)
  nonempty : (∃ p ∈ ts, p.2 ≠ 0) → s.terms e ≠ []

theorem Lit.neg_ne (l : Lit) : l.neg ≠ l := by
  intro h
  have := congrArg Lit.value h
  have h2 := l.ne
  simp only [Lit.neg] at this
  omega

theorem LinCons.neg_ne (c : LinCons) : c.neg ≠ c := by
  intro h
  exact Lit.neg_ne c.lit (congrArg LinCons.lit h)

theorem made_of {s : LinStore} {c e : LinCons} {ts pred rhs} {neg : Bool} (hm : e ∈ s.set)
    (hc : c = if neg then e.neg else e)
    (h : ∀ σ, LinTrue σ (s.terms e) e.pred e.rhs ↔
      (if neg then ¬ LinTrue σ ts pred rhs else LinTrue σ ts pred rhs))
    (hn : (∃ p ∈ ts, p.2 ≠ 0) → s.terms e ≠ []) : Made s c ts pred rhs e := by
  cases neg with
  | true =>
    have : c = e.neg := by simpa using hc
    subst this
    refine ⟨hm, Or.inr rfl, fun σ => ?_, hn⟩
    rw [if_neg (LinCons.neg_ne e), h σ]; simp
  | false =>
    have : c = e := by simpa using hc
    subst this
    refine ⟨hm, Or.inl rfl, fun σ => ?_, hn⟩
    rw [if_pos rfl, h σ]; simp

theorem make_spec (hv : Nat → Nat) (hc : ℚ → Nat) {s : LinStore} (hI : Inv s)
    {ts : List (Nat × ℚ)} (hts : (ts.map (·.1)).Nodup) (pred : Pred) (rhs : ℚ) :
    Inv (make hv hc s ts pred rhs).1 ∧ Kept s (make hv hc s ts pred rhs).1 ∧
    ∃ e, Made (make hv hc s ts pred rhs).1 (make hv hc s ts pred rhs).2 ts pred rhs e := by
  unfold make
  cases hk : findNorm ts with
  | some k =>
    obtain ⟨ha, hp, hr, hn⟩ := append_some hI.len hts pred rhs hk
    obtain ⟨h1, h2, h3, h4, _, e, he, he2, he3, he4, he5, _⟩ :=
      dedup_spec hv hc hI ha (append s ts pred rhs).2.2
    refine ⟨h1, ⟨h2, fun d hd => by rw [h3 d (hI.rng d hd).2], h4⟩, e, ?_⟩
    refine made_of he he2 (fun σ => ?_) ?_
    · have hs : LinTrue σ ((dedup hv hc (append s ts pred rhs).1 (append s ts pred rhs).2.1
          (append s ts pred rhs).2.2).1.terms e) e.pred e.rhs ↔
          LinTrue σ (normTerms k ts) (normPred k pred) (k * rhs) := by
        unfold LinTrue
        rw [lsum_perm he3, he4, he5, hp, hr]
      rw [hs, hn]
      have hk0 := findNorm_ne_zero hk
      rcases lt_trichotomy k 0 with hlt | heq | hgt
      · by_cases hpe : pred = .eq
        · subst hpe; simpa using linTrue_norm_eq hk0 ts rhs
        · rw [linTrue_norm_neg hlt ts hpe rhs]; simp [hpe, hlt]
      · exact absurd heq hk0
      · rw [linTrue_norm_pos hgt ts pred rhs]; simp [not_lt.mpr hgt.le]
    · intro _ h0
      rw [h0] at he3
      obtain ⟨q, q1, q2, _⟩ := findNorm_some hk
      have : (q.1, q.2 * k) ∈ normTerms k ts := mem_normTerms.mpr ⟨q, q1, q2, rfl⟩
      rw [← he3.mem_iff] at this
      cases this
  | none =>
    obtain ⟨ha, hp, hr, hn⟩ := append_none (s := s) pred rhs hk
    obtain ⟨h1, h2, h3, h4, _, e, he, he2, he3, he4, he5, _⟩ :=
      dedup_spec hv hc hI ha (append s ts pred rhs).2.2
    refine ⟨h1, ⟨h2, fun d hd => by rw [h3 d (hI.rng d hd).2], h4⟩, e, ?_⟩
    have hz := findNorm_none hk
    refine made_of he he2 (fun σ => ?_) ?_
    · have hs : LinTrue σ ((dedup hv hc (append s ts pred rhs).1 (append s ts pred rhs).2.1
          (append s ts pred rhs).2.2).1.terms e) e.pred e.rhs ↔ True := by
        unfold LinTrue
        rw [lsum_perm he3, he4, he5, hp, hr]
        simp [Rel]
      have hsum : lsum σ ts = 0 := by
        rw [← lsum_filter]
        have : ts.filter (fun p => decide (p.2 ≠ 0)) = [] := by
          rw [List.filter_eq_nil_iff]
          intro p hp
          simp [hz p hp]
        rw [this]; rfl
      rw [hs, hn]
      unfold LinTrue
      rw [hsum, ← Pred.app_iff]
      cases pred.app 0 rhs <;> simp
    · rintro ⟨p, p1, p2⟩
      exact absurd (hz p p1) p2

theorem resize_spec {s : LinStore} (hI : Inv s) {n : Nat} (hn : s.cons.length ≤ n) :
    Inv (s.resize n) ∧ Kept s (s.resize n) := by
  have ht : s.cons.take n = s.cons := List.take_of_length_le hn
  have hc : (s.resize n).cons = s.cons ++ List.replicate (n - s.cons.length) LinCons.empty := by
    show _ ++ _ = _
    rw [ht]
  have hk : ∀ (k : Nat) d, s.cons[k]? = some d → (s.resize n).cons[k]? = some d := by
    intro k d hd
    rw [hc, List.getElem?_append_left (List.getElem?_eq_some_iff.mp hd).1, hd]
  refine ⟨⟨hI.len, ?_, ?_, hI.rng, hI.disj, hI.wf, hI.norm, hI.uniq⟩, fun d hd => hd,
    fun d hd => List.Perm.refl _, hk⟩
  · intro c hc
    obtain ⟨k, h1, h2⟩ := hI.idx c hc
    exact ⟨k, h1, hk k c h2⟩
  · intro k c h
    rw [hc, List.getElem?_append] at h
    split at h
    · exact hI.dflt k c h
    · right
      exact List.eq_of_mem_replicate (List.mem_of_getElem? h)

theorem get_mem {s : LinStore} (hI : Inv s) {ord : Nat} (h : 0 < (s.get ord).size) :
    s.get ord ∈ s.set := by
  unfold get at *
  cases e : s.cons[ord]? with
  | none => rw [e] at h; simp [LinCons.empty, LinCons.size] at h
  | some c =>
    rw [e] at h
    rcases hI.dflt ord c e with h1 | h1
    · exact h1.1
    · subst h1; simp [LinCons.empty, LinCons.size] at h

theorem swap_spec {s : LinStore} (hI : Inv s) {ord i j : Nat} (hi : i < (s.get ord).size)
    (hj : j < (s.get ord).size) :
    Inv (s.swapTerms (s.get ord) i j) ∧ Kept s (s.swapTerms (s.get ord) i j) := by
  have hm : s.get ord ∈ s.set := get_mem hI (by omega)
  generalize s.get ord = c at hi hj hm
  have hr := hI.rng c hm
  have hl := hI.len
  unfold LinCons.size at hi hj
  have hterms : ∀ d ∈ s.set, ((s.swapTerms c i j).terms d).Perm (s.terms d) := by
    intro d hd
    have hrd := hI.rng d hd
    by_cases hcd : c = d
    · subst hcd
      unfold terms varsOf coefsOf swapTerms
      simp only
      rw [slice_swapAt_inside (by omega) (by omega) hr.2,
        slice_swapAt_inside (by omega) (by omega) (by omega),
        zip_swapAt (by rw [length_slice hr.2, length_slice (by omega)])
          (by rw [length_slice hr.2]; omega) (by rw [length_slice hr.2]; omega)]
      exact swapAt_perm _ _ _
    · have hdj := hI.disj c hm d hd hcd
      unfold terms varsOf coefsOf swapTerms
      simp only
      rw [slice_swapAt_outside (by omega) (by omega) (by omega) (by omega),
        slice_swapAt_outside (by omega) (by omega) (by omega) (by omega)]
  refine ⟨⟨?_, hI.idx, hI.dflt, ?_, hI.disj, ?_, ?_, ?_⟩, fun d hd => hd, hterms, fun _ _ h => h⟩
  · simp [swapTerms, length_swapAt, hl]
  · intro d hd
    simpa [swapTerms, length_swapAt] using hI.rng d hd
  · intro d hd
    have hw := hI.wf d hd
    have hp := hterms d hd
    exact ⟨(hp.map _).nodup_iff.mpr hw.nodup, fun p hp' => hw.nz p (hp.subset hp')⟩
  · intro d hd
    have hp := hterms d hd
    rcases hI.norm d hd with h | ⟨q, h1, h2, h3⟩
    · rw [h.1] at hp
      exact Or.inl ⟨hp.eq_nil, h.2⟩
    · exact Or.inr ⟨q, hp.symm.subset h1, h2, fun q' hq' => h3 q' (hp.subset hq')⟩
  · intro d hd d' hd' hp
    exact hI.uniq d hd d' hd' (((hterms d hd).symm.trans hp).trans (hterms d' hd'))

theorem steps_spec (hv : Nat → Nat) (hc : ℚ → Nat) {s s' : LinStore} (hI : Inv s)
    (h : LinSteps hv hc s s') : Inv s' ∧ Kept s s' := by
  induction h with
  | refl => exact ⟨hI, Kept.refl _⟩
  | @step t op _ ok ih =>
    obtain ⟨hIt, hK⟩ := ih
    cases op with
    | make ts p r =>
      obtain ⟨h1, h2, _⟩ := make_spec hv hc hIt ok p r
      exact ⟨h1, hK.trans h2⟩
    | resize n =>
      obtain ⟨h1, h2⟩ := resize_spec hIt ok
      exact ⟨h1, hK.trans h2⟩
    | swap ord i j =>
      obtain ⟨h1, h2⟩ := swap_spec hIt ok.1 ok.2
      exact ⟨h1, hK.trans h2⟩

theorem reach_inv (hv : Nat → Nat) (hc : ℚ → Nat) {s : LinStore} (h : LinReach hv hc s) : Inv s :=
  (steps_spec hv hc inv_init h).1

/-! ### Meaning of literals -/

theorem terms_empty (s : LinStore) : s.terms LinCons.empty = [] := by
  simp [terms, varsOf, coefsOf, LinCons.empty, slice]

theorem linTrue_perm {σ : Nat → ℚ} {a b : List (Nat × ℚ)} (h : a.Perm b) (p : Pred) (r : ℚ) :
    LinTrue σ a p r ↔ LinTrue σ b p r := by
  unfold LinTrue; rw [lsum_perm h]

theorem litMeans_kept {s s' : LinStore} (hI : Inv s) (hK : Kept s s') {l : Lit}
    (hl : l.ord < s.cons.length) (σ : Nat → ℚ) : LitMeans s' l σ ↔ LitMeans s l σ := by
  have hg : s.cons[l.ord]? = some s.cons[l.ord] := List.getElem?_eq_getElem hl
  have e1 : s.get l.ord = s.cons[l.ord] := by unfold get; rw [hg]; rfl
  have e2 : s'.get l.ord = s.cons[l.ord] := by unfold get; rw [hK.cons _ _ hg]; rfl
  unfold LitMeans
  rw [e1, e2]
  have : ∀ p r, LinTrue σ (s'.terms s.cons[l.ord]) p r ↔ LinTrue σ (s.terms s.cons[l.ord]) p r := by
    intro p r
    rcases hI.dflt _ _ hg with h | h
    · exact linTrue_perm (hK.terms _ h.1) p r
    · rw [h, terms_empty, terms_empty]
  rw [this]

theorem Lit.pos_isNeg (k : Nat) : (Lit.pos k).isNeg = false :=
  decide_eq_false (by show ¬ ((k : Int) + 1 < 0); omega)

theorem Lit.neg_isNeg (l : Lit) : l.neg.isNeg = !l.isNeg := by
  have := l.ne
  by_cases h : l.value < 0
  · have h1 : l.isNeg = true := decide_eq_true h
    have h2 : l.neg.isNeg = false := decide_eq_false (by show ¬ (-l.value < 0); omega)
    rw [h1, h2]; rfl
  · have h1 : l.isNeg = false := decide_eq_false h
    have h2 : l.neg.isNeg = true := decide_eq_true (by show -l.value < 0; omega)
    rw [h1, h2]; rfl

theorem Lit.pos_ord (k : Nat) : (Lit.pos k).ord = k := by
  show ((k : Int) + 1).natAbs - 1 = k
  omega

theorem Lit.neg_ord (l : Lit) : l.neg.ord = l.ord := by
  show (-l.value).natAbs - 1 = l.value.natAbs - 1
  omega

theorem litMeans_of_mem {s : LinStore} (hI : Inv s) {e : LinCons} (he : e ∈ s.set) (σ : Nat → ℚ) :
    (LitMeans s e.lit σ ↔ LinTrue σ (s.terms e) e.pred e.rhs) ∧
    (LitMeans s e.lit.neg σ ↔ ¬ LinTrue σ (s.terms e) e.pred e.rhs) ∧
    e.lit.ord < s.cons.length := by
  obtain ⟨k, h1, h2⟩ := hI.idx e he
  have hg : s.get k = e := by unfold get; rw [h2]; rfl
  unfold LitMeans
  rw [Lit.neg_isNeg, Lit.neg_ord, h1, Lit.pos_isNeg, Lit.pos_ord, hg]
  refine ⟨by simp, by simp, (List.getElem?_eq_some_iff.mp h2).1⟩

theorem Made.litMeans {s : LinStore} (hI : Inv s) {c ts pred rhs e} (h : Made s c ts pred rhs e)
    (σ : Nat → ℚ) : (LitMeans s c.lit σ ↔ LinTrue σ ts pred rhs) ∧ c.lit.ord < s.cons.length := by
  obtain ⟨h1, h2, h3⟩ := litMeans_of_mem hI h.mem σ
  rcases h.eq with he | he
  · subst he
    refine ⟨?_, h3⟩
    rw [h1, h.means σ, if_pos rfl]
  · subst he
    refine ⟨?_, by show e.lit.neg.ord < _; rw [Lit.neg_ord]; exact h3⟩
    show LitMeans s e.lit.neg σ ↔ _
    rw [h2, h.means σ, if_neg (LinCons.neg_ne e)]
    exact not_not

/-! ### Normal forms -/

/-- Indicator of a variable. -/
def delta (x : Nat) : Nat → ℚ := fun y => if y = x then 1 else 0

theorem lsum_lin (σ τ : Nat → ℚ) (a : ℚ) (ts : List (Nat × ℚ)) :
    lsum (fun y => σ y + a * τ y) ts = lsum σ ts + a * lsum τ ts := by
  induction ts with
  | nil => simp
  | cons p ts ih => simp only [lsum_cons, ih]; ring

theorem lsum_smul (τ : Nat → ℚ) (a : ℚ) (ts : List (Nat × ℚ)) :
    lsum (fun y => a * τ y) ts = a * lsum τ ts := by
  induction ts with
  | nil => simp
  | cons p ts ih => simp only [lsum_cons, ih]; ring

theorem delta_notMem {x : Nat} {ts : List (Nat × ℚ)} (h : x ∉ ts.map (·.1)) :
    lsum (delta x) ts = 0 := by
  induction ts with
  | nil => rfl
  | cons p ts ih =>
    simp only [List.map_cons, List.mem_cons, not_or] at h
    rw [lsum_cons, ih h.2]
    have : p.1 ≠ x := fun e => h.1 e.symm
    simp [delta, this]

theorem delta_mem {p : Nat × ℚ} {ts : List (Nat × ℚ)} (hn : (ts.map (·.1)).Nodup) (h : p ∈ ts) :
    lsum (delta p.1) ts = p.2 := by
  induction ts with
  | nil => cases h
  | cons q ts ih =>
    simp only [List.map_cons, List.nodup_cons] at hn
    rw [lsum_cons]
    rcases List.mem_cons.mp h with rfl | h
    · rw [delta_notMem hn.1]; simp [delta]
    · rw [ih hn.2 h]
      have : q.1 ≠ p.1 := fun e => hn.1 (e ▸ List.mem_map_of_mem h)
      simp [delta, this]

theorem mem_iff_delta {ts : List (Nat × ℚ)} (w : WfTerms ts) (p : Nat × ℚ) :
    p ∈ ts ↔ p.2 ≠ 0 ∧ lsum (delta p.1) ts = p.2 := by
  constructor
  · intro h; exact ⟨w.nz p h, delta_mem w.nodup h⟩
  · rintro ⟨h1, h2⟩
    by_cases hm : p.1 ∈ ts.map (·.1)
    · obtain ⟨q, hq, hqp⟩ := List.mem_map.mp hm
      have := delta_mem w.nodup hq
      rw [hqp, h2] at this
      have : q = p := Prod.ext hqp this.symm
      rwa [← this]
    · rw [delta_notMem hm] at h2
      exact absurd h2.symm h1

theorem rel_not_const (p : Pred) (r : ℚ) : ∃ a b : ℚ, Rel p a r ∧ ¬ Rel p b r := by
  cases p
  · exact ⟨r, r + 1, rfl, by simp [Rel]⟩
  · exact ⟨r - 1, r, by simp [Rel], by simp [Rel]⟩
  · exact ⟨r, r + 1, by simp [Rel], by simp [Rel]⟩

/-- If the truth of the second constraint depends only on the value of the first linear form, the
second form is a multiple of the first. -/
theorem form_multiple {ts1 ts2 : List (Nat × ℚ)} {p2 : Pred} {r2 : ℚ} {x : Nat}
    (hx : lsum (delta x) ts1 = 1)
    (H : ∀ σ τ, lsum σ ts1 = lsum τ ts1 → (LinTrue σ ts2 p2 r2 ↔ LinTrue τ ts2 p2 r2)) (y : Nat) :
    lsum (delta y) ts2 = lsum (delta x) ts2 * lsum (delta y) ts1 := by
  by_contra hne
  set a := lsum (delta y) ts1 with ha
  let d : Nat → ℚ := fun z => delta y z + (-a) * delta x z
  have hd1 : lsum d ts1 = 0 := by
    show lsum (fun z => delta y z + (-a) * delta x z) ts1 = 0
    rw [lsum_lin, hx, ← ha]; ring
  have hd2 : lsum d ts2 ≠ 0 := by
    show lsum (fun z => delta y z + (-a) * delta x z) ts2 ≠ 0
    rw [lsum_lin]
    intro h
    apply hne
    linarith
  obtain ⟨u, v, hu, hv⟩ := rel_not_const p2 r2
  have hval : ∀ t : ℚ, lsum (fun z => (t / lsum d ts2) * d z) ts2 = t := by
    intro t; rw [lsum_smul]; field_simp
  have h0 : ∀ t : ℚ, lsum (fun z => (t / lsum d ts2) * d z) ts1 = 0 := by
    intro t; rw [lsum_smul, hd1]; ring
  have := H (fun z => (u / lsum d ts2) * d z) (fun z => (v / lsum d ts2) * d z) (by rw [h0, h0])
  unfold LinTrue at this
  rw [hval, hval] at this
  exact hv (this.mp hu)

/-- Two normalised constraints whose truth values determine each other have the same terms. -/
theorem normal_forms {ts1 ts2 : List (Nat × ℚ)} {p1 p2 : Pred} {r1 r2 : ℚ} (w1 : WfTerms ts1)
    (w2 : WfTerms ts2) (n1 : Normal ts1 p1 r1) (n2 : Normal ts2 p2 r2) (e1 : ts1 ≠ [])
    (e2 : ts2 ≠ [])
    (H12 : ∀ σ τ, (LinTrue σ ts1 p1 r1 ↔ LinTrue τ ts1 p1 r1) →
      (LinTrue σ ts2 p2 r2 ↔ LinTrue τ ts2 p2 r2))
    (H21 : ∀ σ τ, (LinTrue σ ts2 p2 r2 ↔ LinTrue τ ts2 p2 r2) →
      (LinTrue σ ts1 p1 r1 ↔ LinTrue τ ts1 p1 r1)) :
    ts1.Perm ts2 ∧ ∃ x, lsum (delta x) ts1 = 1 := by
  obtain ⟨a, a1, a2, a3⟩ := n1.resolve_left (fun h => e1 h.1)
  obtain ⟨b, b1, b2, b3⟩ := n2.resolve_left (fun h => e2 h.1)
  have ha : lsum (delta a.1) ts1 = 1 := by rw [delta_mem w1.nodup a1, a2]
  have hb : lsum (delta b.1) ts2 = 1 := by rw [delta_mem w2.nodup b1, b2]
  have m12 := form_multiple (p2 := p2) (r2 := r2) ha
    (fun σ τ h => H12 σ τ (by unfold LinTrue; rw [h]))
  have m21 := form_multiple (p2 := p1) (r2 := r1) hb
    (fun σ τ h => H21 σ τ (by unfold LinTrue; rw [h]))
  -- the least variables agree
  have hba : lsum (delta b.1) ts1 ≠ 0 := by
    intro h
    have := m12 b.1
    rw [hb, h] at this
    simp at this
  have hab : lsum (delta a.1) ts2 ≠ 0 := by
    intro h
    have := m21 a.1
    rw [ha, h] at this
    simp at this
  have l1 : a.1 ≤ b.1 := by
    by_contra hc
    apply hba
    apply delta_notMem
    intro hm
    obtain ⟨q, hq, hqe⟩ := List.mem_map.mp hm
    have := a3 q hq
    omega
  have l2 : b.1 ≤ a.1 := by
    by_contra hc
    apply hab
    apply delta_notMem
    intro hm
    obtain ⟨q, hq, hqe⟩ := List.mem_map.mp hm
    have := b3 q hq
    omega
  have hx : a.1 = b.1 := by omega
  refine ⟨?_, a.1, ha⟩
  rw [List.perm_ext_iff_of_nodup (List.Nodup.of_map _ w1.nodup) (List.Nodup.of_map _ w2.nodup)]
  intro p
  rw [mem_iff_delta w1, mem_iff_delta w2, m12 p.1, hx, hb, one_mul]

theorem rel_ext {p1 p2 : Pred} {r1 r2 : ℚ} (h : ∀ t : ℚ, Rel p1 t r1 ↔ Rel p2 t r2) :
    p1 = p2 ∧ r1 = r2 := by
  have a1 := h r1
  have a2 := h r2
  have a3 := h (r1 - 1)
  have a4 := h (r2 - 1)
  have a5 := h ((r1 + r2) / 2)
  cases p1 <;> cases p2 <;> simp only [Rel] at *
  case eq.eq => exact ⟨trivial, by simpa using a1⟩
  case lt.lt =>
    refine ⟨trivial, ?_⟩
    rcases lt_trichotomy r1 r2 with h | h | h
    · exact absurd (a1.mpr h) (lt_irrefl _)
    · exact h
    · exact absurd (a2.mp h) (lt_irrefl _)
  case leq.leq =>
    exact ⟨trivial, le_antisymm (a1.mp le_rfl) (a2.mpr le_rfl)⟩
  case eq.lt =>
    have : ¬ (r2 = r1) := fun e => absurd (a2.mp e) (lt_irrefl _)
    have := a4.mpr (by linarith)
    have h1 := h (r2 - 2)
    have := h1.mpr (by linarith)
    linarith
  case lt.eq =>
    have := a3.mp (by linarith)
    have h1 := h (r1 - 2)
    have := h1.mp (by linarith)
    linarith
  case eq.leq =>
    have := a4.mpr (by linarith)
    have h1 := h (r2 - 2)
    have := h1.mpr (by linarith)
    linarith
  case leq.eq =>
    have := a3.mp (by linarith)
    have h1 := h (r1 - 2)
    have := h1.mp (by linarith)
    linarith
  case lt.leq =>
    exfalso
    have h1 := a2.mpr le_rfl
    have h2 := a5.mp (by linarith)
    linarith
  case leq.lt =>
    exfalso
    have h1 := a1.mp le_rfl
    have h2 := a5.mpr (by linarith)
    linarith

theorem rel_not_compl {p1 p2 : Pred} {r1 r2 : ℚ} (h : ∀ t : ℚ, Rel p1 t r1 ↔ ¬ Rel p2 t r2) :
    False := by
  have b1 := h (min r1 r2 - 1)
  have b2 := h (max r1 r2 + 1)
  have m1 : min r1 r2 ≤ r1 := min_le_left _ _
  have m2 : min r1 r2 ≤ r2 := min_le_right _ _
  have m3 : r1 ≤ max r1 r2 := le_max_left _ _
  have m4 : r2 ≤ max r1 r2 := le_max_right _ _
  have c1 : ¬ Rel p2 (max r1 r2 + 1) r2 := by
    cases p2 <;> simp only [Rel] <;> intro h <;> linarith
  have c2 := b2.mpr c1
  cases p1 <;> simp only [Rel] at c2 <;> linarith

theorem normal_equiv {ts1 ts2 : List (Nat × ℚ)} {p1 p2 : Pred} {r1 r2 : ℚ} (w1 : WfTerms ts1)
    (w2 : WfTerms ts2) (n1 : Normal ts1 p1 r1) (n2 : Normal ts2 p2 r2) (e1 : ts1 ≠ [])
    (e2 : ts2 ≠ []) (H : ∀ σ, LinTrue σ ts1 p1 r1 ↔ LinTrue σ ts2 p2 r2) :
    ts1.Perm ts2 ∧ p1 = p2 ∧ r1 = r2 := by
  obtain ⟨hp, x, hx⟩ := normal_forms w1 w2 n1 n2 e1 e2 (fun σ τ h => by rw [← H, ← H]; exact h)
    (fun σ τ h => by rw [H, H]; exact h)
  refine ⟨hp, rel_ext fun t => ?_⟩
  have := H (fun y => t * delta x y)
  unfold LinTrue at this
  rwa [← lsum_perm hp, lsum_smul, hx, mul_one] at this

theorem normal_not_compl {ts1 ts2 : List (Nat × ℚ)} {p1 p2 : Pred} {r1 r2 : ℚ} (w1 : WfTerms ts1)
    (w2 : WfTerms ts2) (n1 : Normal ts1 p1 r1) (n2 : Normal ts2 p2 r2) (e1 : ts1 ≠ [])
    (e2 : ts2 ≠ []) (H : ∀ σ, LinTrue σ ts1 p1 r1 ↔ ¬ LinTrue σ ts2 p2 r2) : False := by
  obtain ⟨hp, x, hx⟩ := normal_forms w1 w2 n1 n2 e1 e2
    (fun σ τ h => by rw [H, H] at h; exact not_iff_not.mp h)
    (fun σ τ h => by rw [H, H]; exact not_congr h)
  refine rel_not_compl (p1 := p1) (p2 := p2) (r1 := r1) (r2 := r2) fun t => ?_
  have := H (fun y => t * delta x y)
  unfold LinTrue at this
  rwa [← lsum_perm hp, lsum_smul, hx, mul_one] at this

end LinStore
end Yaga
