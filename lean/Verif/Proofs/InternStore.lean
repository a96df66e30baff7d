/-
The internalizer: state invariant, and what creating variables, linear constraints and clauses does to
the models of the state.
-/
import Verif.Proofs.LinearSteps
import Verif.Proofs.TermOps
import Verif.Spec.Cnf

set_option linter.unusedSectionVars false
set_option linter.unusedVariables false
set_option linter.unusedSimpArgs false

namespace Yaga

open Spec

namespace LinStore

theorem make_cases (hv : Nat → Nat) (hc : ℚ → Nat) {s : LinStore} (hI : Inv s)
    {ts : List (Nat × ℚ)} (hts : (ts.map (·.1)).Nodup) (pred : Pred) (rhs : ℚ) :
    ((make hv hc s ts pred rhs).1 = s ∧
      ∃ e ∈ s.set, (make hv hc s ts pred rhs).2 = e ∨ (make hv hc s ts pred rhs).2 = e.neg) ∨
    (∃ c, (make hv hc s ts pred rhs).1.cons = s.cons ++ [c] ∧ (make hv hc s ts pred rhs).1.set = s.set ++ [c] ∧
      c.lit = Lit.pos s.cons.length ∧
      ((make hv hc s ts pred rhs).2 = c ∨ (make hv hc s ts pred rhs).2 = c.neg) ∧
      ∀ p ∈ (make hv hc s ts pred rhs).1.terms c, p.1 ∈ ts.map (·.1)) := by
  obtain ⟨nt, ha, hnt⟩ : ∃ nt, Appended s (append s ts pred rhs).1 (append s ts pred rhs).2.1 nt ∧
      ∀ p ∈ nt, p.1 ∈ ts.map (·.1) := by
    cases hk : findNorm ts with
    | some k =>
      refine ⟨_, (append_some hI.len hts pred rhs hk).1, ?_⟩
      intro p hp
      obtain ⟨q, h1, _, rfl⟩ := mem_normTerms.mp hp
      exact List.mem_map.mpr ⟨q, h1, rfl⟩
    | none => exact ⟨_, (append_none pred rhs hk).1, by intro p hp; cases hp⟩
  unfold make
  simp only
  generalize (append s ts pred rhs).1 = s1 at *
  generalize (append s ts pred rhs).2.1 = c at *
  generalize (append s ts pred rhs).2.2 = neg at *
  unfold dedup
  cases e : s1.set.find? (fun e => hash hv hc s1 c == hash hv hc s1 e && equal s1 c e) with
  | none =>
    right
    refine ⟨c, ha.cons, by rw [← ha.set], ha.lit, ?_, ?_⟩
    · simp only; cases neg <;> simp
    · intro p hp
      apply hnt
      rw [← ha.terms]; exact hp
  | some d =>
    left
    constructor
    · simp only
      have e1 : s1.vars.take (s1.vars.length - c.size) = s.vars := by
        rw [ha.vars, ha.size]; simp
      have e2 : s1.coefs.take (s1.coefs.length - c.size) = s.coefs := by
        rw [ha.coefs, ha.size]; simp
      have e3 : s1.cons.dropLast = s.cons := by rw [ha.cons]; simp
      rw [e1, e2, e3, ha.set]
    · refine ⟨d, by rw [← ha.set]; exact List.mem_of_find?_eq_some e, ?_⟩
      simp only; cases neg <;> simp

/-- An equality is represented by a positive literal. -/
theorem make_eq_pos (hv : Nat → Nat) (hc : ℚ → Nat) {s : LinStore} (hI : Inv s)
    {ts : List (Nat × ℚ)} (hts : (ts.map (·.1)).Nodup) (rhs : ℚ) (hnz : ∃ p ∈ ts, p.2 ≠ 0) :
    (make hv hc s ts .eq rhs).2.lit.isNeg = false := by
  unfold make
  cases hk : findNorm ts with
  | none => obtain ⟨p, h1, h2⟩ := hnz; exact absurd (findNorm_none hk p h1) h2
  | some k =>
    obtain ⟨ha, _, _, hn⟩ := append_some hI.len hts .eq rhs hk
    simp only [bne_self_eq_false, Bool.false_and] at hn
    obtain ⟨h1, _, _, _, _, e, he, he2, _⟩ := dedup_spec hv hc hI ha (append s ts .eq rhs).2.2
    simp only
    rw [he2, hn]
    obtain ⟨k, h3, _⟩ := h1.idx e he
    simp only [Bool.false_eq_true, if_false]
    rw [h3, Lit.pos_isNeg]

end LinStore

/-- Invariant of the state of the internalizer. -/
structure IInv (s : TermTable) (st : IState) : Prop where
  store : LinStore.Inv st.store
  num : st.store.cons.length = st.numBool
  nonempty : ∀ c ∈ st.store.set, st.store.terms c ≠ []
  cvars : ∀ c ∈ st.store.set, ∀ p ∈ st.store.terms c, p.1 < st.numRat
  clauses : ∀ c ∈ st.clauses, ∀ l ∈ c, l.ord < st.numBool
  ratOrds : (st.ratVars.map (·.2)).Nodup
  rat : ∀ p ∈ st.ratVars, IsReal s p.1 ∧ VarLike s p.1 ∧ p.2 < st.numRat
  bool : ∀ p ∈ st.boolVars, IsBool s p.1 ∧ p.2.ord < st.numBool

/-- The solver's values of all internalized terms are their values in `I`. -/
structure AgreeAll (I : Interp) (s : TermTable) (st : IState) (m : Assignment) (r : Nat → ℚ) : Prop where
  rat : ∀ p ∈ st.ratVars, r p.2 = denQ I s p.1
  bool : ∀ p ∈ st.boolVars, (litTrue m p.2 ↔ denB I s p.1 = true)

theorem iinv_init (s : TermTable) : IInv s IState.init where
  store := LinStore.inv_init
  num := rfl
  nonempty := by intro c hc; cases hc
  cvars := by intro c hc; cases hc
  clauses := by intro c hc; cases hc
  ratOrds := List.nodup_nil
  rat := by intro c hc; cases hc
  bool := by intro c hc; cases hc

/-! ### Locality -/

theorem litTrue_congr {m m' : Assignment} {l : Lit} (h : m' l.ord = m l.ord) : litTrue m' l ↔ litTrue m l := by
  unfold litTrue; rw [h]

theorem litTrue_neg (m : Assignment) (l : Lit) : litTrue m l.neg ↔ ¬ litTrue m l := by
  unfold litTrue
  rw [LinStore.Lit.neg_isNeg, LinStore.Lit.neg_ord]
  cases l.isNeg <;> cases m l.ord <;> simp

theorem litTrue_pos (m : Assignment) (k : Nat) : litTrue m (Lit.pos k) ↔ m k = true := by
  unfold litTrue
  rw [LinStore.Lit.pos_isNeg, LinStore.Lit.pos_ord]; simp

theorem linTrue_congr {r r' : Nat → ℚ} {ts : List (Nat × ℚ)} (h : ∀ p ∈ ts, r' p.1 = r p.1) (p : Pred)
    (q : ℚ) : LinTrue r' ts p q ↔ LinTrue r ts p q := by
  unfold LinTrue; rw [lsum_congr h]

theorem get_mem_of_terms {st : LinStore} (hI : LinStore.Inv st) {k : Nat} (h : st.terms (st.get k) ≠ []) :
    st.get k ∈ st.set ∧ (st.get k).lit = Lit.pos k ∧ k < st.cons.length := by
  unfold LinStore.get at *
  cases e : st.cons[k]? with
  | none => rw [e] at h; exact absurd (LinStore.terms_empty st) h
  | some c =>
    rw [e] at h
    rcases hI.dflt k c e with h1 | h1
    · exact ⟨h1.1, h1.2, (List.getElem?_eq_some_iff.mp e).1⟩
    · simp only [Option.getD_some] at h
      rw [h1] at h
      exact absurd (LinStore.terms_empty st) h

theorem models_congr {s : TermTable} {st : IState} (hI : IInv s st) {m m' : Assignment} {r r' : Nat → ℚ}
    (hm : ∀ k, k < st.numBool → m' k = m k) (hr : ∀ k, k < st.numRat → r' k = r k) (h : Models st m r) :
    Models st m' r' := by
  refine ⟨fun c hc => ?_, fun k hk => ?_⟩
  · obtain ⟨l, hl, ht⟩ := h.1 c hc
    exact ⟨l, hl, (litTrue_congr (hm _ (hI.clauses c hc l hl))).mpr ht⟩
  · obtain ⟨h1, _, h3⟩ := get_mem_of_terms hI.store hk
    rw [hm k (by rw [← hI.num]; exact h3), h.2 k hk]
    exact (linTrue_congr (fun p hp => hr _ (hI.cvars _ h1 p hp)) _ _).symm

theorem agree_congr {I : Interp} {s : TermTable} {st : IState} (hI : IInv s st) {m m' : Assignment}
    {r r' : Nat → ℚ} (hm : ∀ k, k < st.numBool → m' k = m k) (hr : ∀ k, k < st.numRat → r' k = r k)
    (h : AgreeAll I s st m r) : AgreeAll I s st m' r' :=
  ⟨fun p hp => by rw [hr _ (hI.rat p hp).2.2]; exact h.rat p hp,
   fun p hp => (litTrue_congr (hm _ (hI.bool p hp).2)).trans (h.bool p hp)⟩

/-! ### Creating variables -/

theorem get_kept {a b : LinStore} (h : LinStore.Kept a b) {k : Nat} (hk : k < a.cons.length) :
    b.get k = a.get k := by
  have hg : a.cons[k]? = some a.cons[k] := List.getElem?_eq_getElem hk
  unfold LinStore.get
  rw [hg, h.cons _ _ hg]

/-- The constraints of a store hold in all stores that keep it. -/
theorem models_of_kept {st st' : IState} (hI : LinStore.Inv st.store) (hk : LinStore.Kept st.store st'.store)
    (hc : ∀ c ∈ st.clauses, c ∈ st'.clauses) {m : Assignment} {r : Nat → ℚ} (h : Models st' m r) :
    Models st m r := by
  refine ⟨fun c hc' => h.1 c (hc c hc'), fun k hk' => ?_⟩
  obtain ⟨h1, _, h3⟩ := get_mem_of_terms hI hk'
  have e := get_kept hk h3
  have hp := hk.terms _ h1
  have := h.2 k (by rw [e]; intro h0; rw [h0] at hp; exact hk' hp.symm.eq_nil)
  rw [this, e]
  exact LinStore.linTrue_perm hp _ _

theorem newBool_spec {s : TermTable} {st : IState} (hI : IInv s st) :
    IInv s (Internalizer.newBool st).1 ∧
    (∀ m r, Models (Internalizer.newBool st).1 m r ↔ Models st m r) := by
  obtain ⟨h1, h2⟩ := LinStore.resize_spec hI.store (n := st.numBool + 1) (by rw [hI.num]; omega)
  have hset : (st.store.resize (st.numBool + 1)).set = st.store.set := rfl
  have hterms : ∀ c, (st.store.resize (st.numBool + 1)).terms c = st.store.terms c := fun _ => rfl
  refine ⟨⟨h1, ?_, ?_, ?_, ?_, hI.ratOrds, hI.rat, ?_⟩, fun m r => ⟨?_, ?_⟩⟩
  · show (st.store.cons.take _ ++ List.replicate _ _).length = st.numBool + 1
    have := hI.num
    rw [List.length_append, List.length_replicate, List.length_take]
    omega
  · intro c hc; exact hI.nonempty c hc
  · intro c hc; exact hI.cvars c hc
  · intro c hc l hl; exact Nat.lt_succ_of_lt (hI.clauses c hc l hl)
  · intro p hp; exact ⟨(hI.bool p hp).1, Nat.lt_succ_of_lt (hI.bool p hp).2⟩
  · exact models_of_kept (st := st) (st' := (Internalizer.newBool st).1) hI.store h2 fun c hc => hc
  · intro h
    refine ⟨h.1, fun k hk => ?_⟩
    have hk' : st.store.terms ((st.store.resize (st.numBool + 1)).get k) ≠ [] := hk
    by_cases hlt : k < st.store.cons.length
    · have e := get_kept h2 hlt
      have e' : (Internalizer.newBool st).1.store.get k = st.store.get k := e
      rw [e'] at hk ⊢
      exact h.2 k hk
    · exfalso
      apply hk'
      have : (st.store.resize (st.numBool + 1)).get k = LinCons.empty := by
        unfold LinStore.get LinStore.resize
        simp only
        rw [List.take_of_length_le (by rw [hI.num]; omega)]
        rw [List.getElem?_append_right (by omega), List.getElem?_replicate]
        split <;> rfl
      rw [this]
      exact LinStore.terms_empty _

theorem newRat_spec {s : TermTable} {st : IState} (hI : IInv s st) :
    IInv s (Internalizer.newRat st).1 ∧
    (∀ m r, Models (Internalizer.newRat st).1 m r ↔ Models st m r) :=
  ⟨⟨hI.store, hI.num, hI.nonempty, fun c hc p hp => Nat.lt_succ_of_lt (hI.cvars c hc p hp), hI.clauses,
    hI.ratOrds, fun p hp => ⟨(hI.rat p hp).1, (hI.rat p hp).2.1, Nat.lt_succ_of_lt (hI.rat p hp).2.2⟩,
    hI.bool⟩, fun m r => Iff.rfl⟩

/-! ### Linear constraints -/

/-- Effect of `linearConstraint`. -/
structure LCSpec (s : TermTable) (st st' : IState) (l : Lit) (ts : List (Nat × ℚ)) (pred : Pred) (rhs : ℚ) :
    Prop where
  inv : IInv s st'
  rat : st'.ratVars = st.ratVars
  bool : st'.boolVars = st.boolVars
  numRat : st'.numRat = st.numRat
  cls : st'.clauses = st.clauses
  apps : st'.apps = st.apps
  proc : st'.processed = st.processed
  numBool : st.numBool ≤ st'.numBool
  ord : l.ord < st'.numBool
  back : ∀ m r, Models st' m r → Models st m r
  means : ∀ m r, Models st' m r → (litTrue m l ↔ LinTrue r ts pred rhs)
  ext : ∀ m r, Models st m r → ∃ m' : Assignment, (∀ k, k < st.numBool → m' k = m k) ∧ Models st' m' r
  kept : LinStore.Kept st.store st'.store

theorem litTrue_of_models {st : IState} (hI : LinStore.Inv st.store) {m : Assignment} {r : Nat → ℚ}
    (h : Models st m r) {l : Lit} (hl : st.store.terms (st.store.get l.ord) ≠ []) :
    litTrue m l ↔ LitMeans st.store l r := by
  unfold litTrue LitMeans
  have := h.2 l.ord hl
  cases hn : l.isNeg with
  | false => simp [this]
  | true =>
    simp only [if_true, Bool.true_eq_false, false_and, false_or, true_and]
    rw [← this]; simp

open Classical in
theorem linearConstraint_spec {cfg : ICfg} {s : TermTable} {st st' : IState} (hI : IInv s st) {l : Lit}
    {ts : List (Nat × ℚ)} (hts : (ts.map (·.1)).Nodup) {pred : Pred} {rhs : ℚ}
    (h : Internalizer.linearConstraint cfg st ts pred rhs = some (st', l)) :
    LCSpec s st st' l ts pred rhs := by
  unfold Internalizer.linearConstraint at h
  split at h
  · cases h
  rename_i hrange
  have hrange : ∀ p ∈ ts, p.1 < st.numRat := by
    intro p hp
    by_contra hc
    exact hrange (List.any_eq_true.mpr ⟨p, hp, by simpa using hc⟩)
  obtain ⟨g1, g2, e, g3⟩ := LinStore.make_spec cfg.hv cfg.hc hI.store hts pred rhs
  have gc := LinStore.make_cases cfg.hv cfg.hc hI.store hts pred rhs
  simp only at h
  generalize hmk : LinStore.make cfg.hv cfg.hc st.store ts pred rhs = r at *
  obtain ⟨r1, r2⟩ := r
  simp only at h g1 g2 g3 gc
  rcases gc with ⟨rfl, d, hd, hde⟩ | ⟨c, hcons, hset, hlit, hr2, hcv⟩
  · -- the constraint exists
    have hord : r2.lit.ord < st.numBool := by
      obtain ⟨k, h1, h2⟩ := hI.store.idx d hd
      have : r2.lit.ord = k := by
        rcases hde with rfl | rfl
        · rw [h1, LinStore.Lit.pos_ord]
        · show d.lit.neg.ord = k
          rw [LinStore.Lit.neg_ord, h1, LinStore.Lit.pos_ord]
      rw [this, ← hI.num]
      exact (List.getElem?_eq_some_iff.mp h2).1
    rw [if_neg (by omega)] at h
    simp only [Option.some.injEq, Prod.mk.injEq] at h
    obtain ⟨rfl, rfl⟩ := h
    have hst : ({ st with store := st.store } : IState) = st := rfl
    have hne : st.store.terms (st.store.get r2.lit.ord) ≠ [] := by
      obtain ⟨k, h1, h2⟩ := hI.store.idx d hd
      have : r2.lit.ord = k := by
        rcases hde with rfl | rfl
        · rw [h1, LinStore.Lit.pos_ord]
        · show d.lit.neg.ord = k
          rw [LinStore.Lit.neg_ord, h1, LinStore.Lit.pos_ord]
      rw [this]
      have : st.store.get k = d := by unfold LinStore.get; rw [h2]; rfl
      rw [this]
      exact hI.nonempty d hd
    refine ⟨hI, rfl, rfl, rfl, rfl, rfl, rfl, le_refl _, hord, fun m r h => h, ?_,
      fun m r h => ⟨m, fun _ _ => rfl, h⟩, .refl _⟩
    intro m r hm
    rw [litTrue_of_models hI.store hm hne]
    exact (g3.litMeans g1 r).1
  · -- a new constraint
    have hord : r2.lit.ord = st.numBool := by
      rw [← hI.num]
      rcases hr2 with rfl | rfl
      · rw [hlit, LinStore.Lit.pos_ord]
      · show c.lit.neg.ord = _
        rw [LinStore.Lit.neg_ord, hlit, LinStore.Lit.pos_ord]
    rw [if_pos (by omega)] at h
    split at h
    · cases h
    rename_i hempty
    simp only [Option.some.injEq, Prod.mk.injEq] at h
    obtain ⟨hst, rfl⟩ := h
    have hlen : r1.cons.length = st.numBool + 1 := by rw [hcons, ← hI.num]; simp
    obtain ⟨k1, k2⟩ := LinStore.resize_spec g1 (n := r2.lit.ord + 1) (by rw [hlen, hord])
    have hcons' : (r1.resize (r2.lit.ord + 1)).cons = r1.cons := by
      show r1.cons.take _ ++ List.replicate _ _ = _
      rw [List.take_of_length_le (by omega), hord, hlen]
      simp
    have hcmem : c ∈ r1.set := by rw [hset]; simp
    have hcne : r1.terms c ≠ [] := by
      have hsize : 0 < c.size := by
        have : r2.isEmpty = c.isEmpty := by rcases hr2 with rfl | rfl <;> rfl
        rw [this] at hempty
        simp only [LinCons.isEmpty, ge_iff_le, decide_eq_true_eq, not_le] at hempty
        unfold LinCons.size
        omega
      intro h0
      have := LinStore.terms_length g1.len (g1.rng c hcmem).2
      rw [h0] at this
      simp only [List.length_nil] at this
      omega
    have hget : (r1.resize (r2.lit.ord + 1)).get st.numBool = c := by
      unfold LinStore.get
      rw [hcons', hcons, ← hI.num]; simp
    have kept : LinStore.Kept st.store (r1.resize (r2.lit.ord + 1)) := g2.trans k2
    subst hst
    have back : ∀ m r, Models { st with store := r1.resize (r2.lit.ord + 1), numBool := r2.lit.ord + 1 } m r →
        Models st m r := fun m r h => models_of_kept (st := st)
        (st' := { st with store := r1.resize (r2.lit.ord + 1), numBool := r2.lit.ord + 1 }) hI.store kept
        (fun c hc => hc) h
    refine ⟨⟨k1, ?_, ?_, ?_, ?_, hI.ratOrds, hI.rat, ?_⟩, rfl, rfl, rfl, rfl, rfl, rfl, ?_, ?_, back, ?_, ?_, kept⟩
    · show (r1.resize (r2.lit.ord + 1)).cons.length = r2.lit.ord + 1
      rw [hcons', hlen, hord]
    · intro d hd
      show r1.terms d ≠ []
      have hd' : d ∈ st.store.set ++ [c] := by rw [← hset]; exact hd
      rcases List.mem_append.mp hd' with hd' | hd'
      · intro h0
        have := g2.terms d hd'
        rw [h0] at this
        exact hI.nonempty d hd' this.symm.eq_nil
      · rw [List.mem_singleton.mp hd']; exact hcne
    · intro d hd p hp
      have hp' : p ∈ r1.terms d := hp
      have hd' : d ∈ st.store.set ++ [c] := by rw [← hset]; exact hd
      rcases List.mem_append.mp hd' with hd' | hd'
      · exact hI.cvars d hd' p ((g2.terms d hd').mem_iff.mp hp')
      · rw [List.mem_singleton.mp hd'] at hp'
        obtain ⟨q, hq, he⟩ := List.mem_map.mp (hcv p hp')
        rw [← he]; exact hrange q hq
    · intro d hd l hl
      have := hI.clauses d hd l hl
      show l.ord < r2.lit.ord + 1
      omega
    · intro p hp
      have := (hI.bool p hp).2
      exact ⟨(hI.bool p hp).1, by show p.2.ord < r2.lit.ord + 1; omega⟩
    · show st.numBool ≤ r2.lit.ord + 1
      omega
    · show r2.lit.ord < r2.lit.ord + 1
      omega
    · intro m r hm
      have hne : (r1.resize (r2.lit.ord + 1)).terms ((r1.resize (r2.lit.ord + 1)).get r2.lit.ord) ≠ [] := by
        rw [hord, ← hord, hord]
        rw [hord] at hget
        rw [hget]; exact hcne
      rw [litTrue_of_models (st := { st with store := r1.resize (r2.lit.ord + 1), numBool := r2.lit.ord + 1 })
        k1 hm hne]
      show LitMeans (r1.resize (r2.lit.ord + 1)) r2.lit r ↔ _
      rw [LinStore.litMeans_kept g1 k2 (by rw [hlen, hord]; omega)]
      exact (g3.litMeans g1 r).1
    · intro m r hm
      refine ⟨fun k => if k = st.numBool then decide (LinTrue r (r1.terms c) c.pred c.rhs) else m k, ?_, ?_, ?_⟩
      · intro k hk; simp only; rw [if_neg (by omega)]
      · intro d hd
        obtain ⟨l, hl, ht⟩ := hm.1 d hd
        refine ⟨l, hl, (litTrue_congr ?_).mpr ht⟩
        have := hI.clauses d hd l hl
        rw [if_neg (by omega)]
      · intro k hk
        obtain ⟨h1, h2, h3⟩ := get_mem_of_terms k1 hk
        rw [hcons', hlen] at h3
        by_cases he : k = st.numBool
        · subst he
          simp only [if_true]
          show _ ↔ LinTrue r (r1.terms ((r1.resize (r2.lit.ord + 1)).get st.numBool)) _ _
          rw [show ({ st with store := r1.resize (r2.lit.ord + 1), numBool := r2.lit.ord + 1 } : IState).store.get
            st.numBool = c from hget]
          simp
        · simp only [if_neg he]
          have hlt : k < st.store.cons.length := by rw [hI.num]; omega
          have e1 : (r1.resize (r2.lit.ord + 1)).get k = st.store.get k := get_kept kept hlt
          have e2 : ({ st with store := r1.resize (r2.lit.ord + 1), numBool := r2.lit.ord + 1 } : IState).store.get
            k = st.store.get k := e1
          have hk' : r1.terms (st.store.get k) ≠ [] := by rw [← e1]; exact hk
          rw [e2]
          show _ ↔ LinTrue r (r1.terms (st.store.get k)) _ _
          have hmem : st.store.get k ∈ st.store.set := by
            by_contra hc
            have hg : st.store.cons[k]? = some (st.store.get k) := by
              unfold LinStore.get
              rw [List.getElem?_eq_getElem hlt]; rfl
            rcases hI.store.dflt k _ hg with h4 | h4
            · exact hc h4.1
            · rw [h4] at hk'
              exact hk' (LinStore.terms_empty _)
          have hperm := g2.terms _ hmem
          rw [LinStore.linTrue_perm hperm]
          exact hm.2 k (hI.nonempty _ hmem)

/-- `linearConstraint` succeeds if the variables exist and some coefficient is not 0. -/
theorem linearConstraint_some {cfg : ICfg} {s : TermTable} {st : IState} (hI : IInv s st)
    {ts : List (Nat × ℚ)} (hts : (ts.map (·.1)).Nodup) (hr : ∀ p ∈ ts, p.1 < st.numRat)
    (hnz : ∃ p ∈ ts, p.2 ≠ 0) (pred : Pred) (rhs : ℚ) :
    ∃ r, Internalizer.linearConstraint cfg st ts pred rhs = some r ∧
      (pred = .eq → r.2.isNeg = false) := by
  unfold Internalizer.linearConstraint
  rw [if_neg (by
    intro h
    obtain ⟨p, hp, h⟩ := List.any_eq_true.mp h
    have := hr p hp
    simp only [decide_eq_true_eq] at h
    omega)]
  simp only
  have heq : pred = .eq → (st.store.make cfg.hv cfg.hc ts pred rhs).2.lit.isNeg = false := by
    rintro rfl
    exact LinStore.make_eq_pos cfg.hv cfg.hc hI.store hts rhs hnz
  split
  · rename_i hge
    obtain ⟨g1, g2, e, g3⟩ := LinStore.make_spec cfg.hv cfg.hc hI.store hts pred rhs
    have hne := g3.nonempty hnz
    have hsz : ¬ (st.store.make cfg.hv cfg.hc ts pred rhs).2.isEmpty = true := by
      have : (st.store.make cfg.hv cfg.hc ts pred rhs).2.isEmpty = e.isEmpty := by
        rcases g3.eq with h | h <;> rw [h]; rfl
      rw [this]
      intro h0
      apply hne
      have := LinStore.terms_length g1.len (g1.rng e g3.mem).2
      apply List.eq_nil_of_length_eq_zero
      rw [this]
      simp only [LinCons.isEmpty, ge_iff_le, decide_eq_true_eq] at h0
      unfold LinCons.size; omega
    rw [if_neg hsz]
    exact ⟨_, rfl, heq⟩
  · exact ⟨_, rfl, heq⟩

end Yaga
