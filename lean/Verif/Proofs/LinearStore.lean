/-
The invariant of the constraint repository and what its operations preserve.
-/
import Verif.Proofs.LinearConstraint
import Mathlib.Data.List.Perm.Basic

set_option linter.unusedVariables false

namespace Yaga
open Spec
namespace LinStore

/-! ### Slices and exchanges -/

section
variable {α β : Type}

theorem slice_getElem? (l : List α) (a b k : Nat) :
    (slice l a b)[k]? = if k < b - a then l[a + k]? else none := by
  unfold slice
  rw [List.getElem?_take]
  split
  · rw [List.getElem?_drop]
  · rfl

theorem length_slice {l : List α} {a b : Nat} (h : b ≤ l.length) : (slice l a b).length = b - a := by
  unfold slice; simp; omega

theorem slice_append_left {l l' : List α} {a b : Nat} (h : b ≤ l.length) :
    slice (l ++ l') a b = slice l a b := by
  apply List.ext_getElem?
  intro k
  rw [slice_getElem?, slice_getElem?]
  split
  · rw [List.getElem?_append_left (by omega)]
  · rfl

theorem slice_append_right (l l' : List α) :
    slice (l ++ l') l.length (l.length + l'.length) = l' := by
  unfold slice; simp

theorem length_swapAt (l : List α) (i j : Nat) : (swapAt l i j).length = l.length := by
  unfold swapAt; split <;> simp

theorem swapAt_getElem? {l : List α} {i j : Nat} (hi : i < l.length) (hj : j < l.length) (k : Nat) :
    (swapAt l i j)[k]? = if k = j then l[i]? else if k = i then l[j]? else l[k]? := by
  unfold swapAt
  rw [List.getElem?_eq_getElem hi, List.getElem?_eq_getElem hj]
  simp only
  rw [List.getElem?_set, List.getElem?_set]
  simp only [List.length_set]
  by_cases h1 : j = k
  · subst h1; simp [hj]
  · rw [if_neg h1, if_neg (Ne.symm h1)]
    by_cases h2 : i = k
    · subst h2; simp [hi]
    · rw [if_neg h2, if_neg (Ne.symm h2)]

theorem slice_swapAt_inside {l : List α} {a b i j : Nat} (hi : a + i < b) (hj : a + j < b)
    (hb : b ≤ l.length) :
    slice (swapAt l (a + i) (a + j)) a b = swapAt (slice l a b) i j := by
  have hlen := length_slice (a := a) hb
  have hi' : i < b - a := by omega
  have hj' : j < b - a := by omega
  apply List.ext_getElem?
  intro k
  rw [slice_getElem?, swapAt_getElem? (by omega) (by omega), swapAt_getElem? (by omega) (by omega),
    slice_getElem?, slice_getElem?, slice_getElem?]
  by_cases hk : k < b - a
  · by_cases h1 : k = j
    · subst h1; simp [hi', hj']
    · have : a + k ≠ a + j := by omega
      by_cases h2 : k = i
      · subst h2; simp [hi', hj', h1]
      · simp [hk, h1, h2]
  · have h1 : k ≠ j := by omega
    have h2 : k ≠ i := by omega
    simp [hk, h1, h2]

theorem slice_swapAt_outside {l : List α} {a b i j : Nat} (hi : i < a ∨ b ≤ i) (hj : j < a ∨ b ≤ j)
    (hil : i < l.length) (hjl : j < l.length) : slice (swapAt l i j) a b = slice l a b := by
  apply List.ext_getElem?
  intro k
  rw [slice_getElem?, slice_getElem?]
  by_cases hk : k < b - a
  · rw [if_pos hk, if_pos hk, swapAt_getElem? hil hjl, if_neg (by omega), if_neg (by omega)]
  · rw [if_neg hk, if_neg hk]

theorem zip_swapAt {l : List α} {m : List β} {i j : Nat} (h : l.length = m.length)
    (hi : i < l.length) (hj : j < l.length) :
    (swapAt l i j).zip (swapAt m i j) = swapAt (l.zip m) i j := by
  have hz : (l.zip m).length = l.length := by simp [h]
  apply List.ext_getElem?
  intro k
  rw [swapAt_getElem? (by omega) (by omega)]
  simp only [List.zip, List.getElem?_zipWith]
  rw [swapAt_getElem? hi hj, swapAt_getElem? (by omega) (by omega)]
  by_cases h1 : k = j
  · simp [h1]
  · by_cases h2 : k = i
    · by_cases h3 : i = j <;> simp [h2, h3]
    · simp [h1, h2]

theorem swapAt_perm (l : List α) (i j : Nat) : (swapAt l i j).Perm l := by
  unfold swapAt
  split
  · rename_i x y hx hy
    obtain ⟨hi, rfl⟩ := List.getElem?_eq_some_iff.mp hx
    obtain ⟨hj, rfl⟩ := List.getElem?_eq_some_iff.mp hy
    exact List.set_set_perm hi hj
  · exact List.Perm.refl _

end

/-! ### The invariant -/

/-- A normalised constraint: either the constraint without variables `0 = 0`, or the coefficient of
its least variable is 1. -/
def Normal (ts : List (Nat × ℚ)) (pred : Pred) (rhs : ℚ) : Prop :=
  (ts = [] ∧ pred = .eq ∧ rhs = 0) ∨ ∃ p ∈ ts, p.2 = 1 ∧ ∀ q ∈ ts, p.1 ≤ q.1

/-- The stored term list of a constraint is well formed. -/
structure WfTerms (ts : List (Nat × ℚ)) : Prop where
  nodup : (ts.map (·.1)).Nodup
  nz : ∀ p ∈ ts, p.2 ≠ 0

structure Inv (s : LinStore) : Prop where
  len : s.vars.length = s.coefs.length
  idx : ∀ c ∈ s.set, ∃ k : Nat, c.lit = Lit.pos k ∧ s.cons[k]? = some c
  dflt : ∀ (k : Nat) c, s.cons[k]? = some c → (c ∈ s.set ∧ c.lit = Lit.pos k) ∨ c = LinCons.empty
  rng : ∀ c ∈ s.set, c.first ≤ c.second ∧ c.second ≤ s.vars.length
  disj : ∀ c ∈ s.set, ∀ d ∈ s.set, c ≠ d → c.second ≤ d.first ∨ d.second ≤ c.first
  wf : ∀ c ∈ s.set, WfTerms (s.terms c)
  norm : ∀ c ∈ s.set, Normal (s.terms c) c.pred c.rhs
  uniq : ∀ c ∈ s.set, ∀ d ∈ s.set, (s.terms c).Perm (s.terms d) → c.pred = d.pred → c.rhs = d.rhs →
    c = d

theorem inv_init : Inv init where
  len := rfl
  idx := by intro c hc; cases hc
  dflt := by intro k c hc; simp [init] at hc
  rng := by intro c hc; cases hc
  disj := by intro c hc; cases hc
  wf := by intro c hc; cases hc
  norm := by intro c hc; cases hc
  uniq := by intro c hc; cases hc

theorem terms_length {s : LinStore} (hl : s.vars.length = s.coefs.length) {c : LinCons}
    (h : c.second ≤ s.vars.length) : (s.terms c).length = c.size := by
  unfold terms varsOf coefsOf
  rw [List.length_zip, length_slice h, length_slice (by omega)]
  simp [LinCons.size]

theorem varsOf_eq {s : LinStore} (hl : s.vars.length = s.coefs.length) {c : LinCons}
    (h : c.second ≤ s.vars.length) : s.varsOf c = (s.terms c).map (·.1) := by
  unfold terms
  rw [List.map_fst_zip]
  unfold varsOf coefsOf
  rw [length_slice h, length_slice (by omega)]

theorem coefsOf_eq {s : LinStore} (hl : s.vars.length = s.coefs.length) {c : LinCons}
    (h : c.second ≤ s.vars.length) : s.coefsOf c = (s.terms c).map (·.2) := by
  unfold terms
  rw [List.map_snd_zip]
  unfold varsOf coefsOf
  rw [length_slice h, length_slice (by omega)]

theorem foldl_mod_perm {α : Type} (f : α → Nat) {l m : List α} (h : l.Perm m) (i : Nat) :
    l.foldl (fun h x => (h + f x) % 2 ^ 64) i = m.foldl (fun h x => (h + f x) % 2 ^ 64) i := by
  apply h.foldl_eq' 
  intro x _ y _ z
  omega

/-- Equal term lists up to order, equal predicate and right-hand side: equal hash. -/
theorem hash_perm (hv : Nat → Nat) (hc : ℚ → Nat) {s : LinStore}
    (hl : s.vars.length = s.coefs.length) {c d : LinCons} (h1 : c.second ≤ s.vars.length)
    (h2 : d.second ≤ s.vars.length) (hp : (s.terms c).Perm (s.terms d)) (hr : c.rhs = d.rhs) :
    hash hv hc s c = hash hv hc s d := by
  unfold hash
  rw [varsOf_eq hl h1, varsOf_eq hl h2, coefsOf_eq hl h1, coefsOf_eq hl h2, hr,
    foldl_mod_perm hv (hp.map _), foldl_mod_perm hc (hp.map _)]

theorem equal_iff {s : LinStore} (hl : s.vars.length = s.coefs.length) {c d : LinCons}
    (h1 : c.second ≤ s.vars.length) (h2 : d.second ≤ s.vars.length)
    (w1 : WfTerms (s.terms c)) (w2 : WfTerms (s.terms d)) :
    equal s c d = true ↔ (s.terms c).Perm (s.terms d) ∧ c.pred = d.pred ∧ c.rhs = d.rhs := by
  have l1 := terms_length hl h1
  have l2 := terms_length hl h2
  unfold equal
  by_cases h : c.size ≠ d.size ∨ c.pred ≠ d.pred ∨ c.rhs ≠ d.rhs
  · rw [if_pos h]
    constructor
    · intro h; cases h
    · rintro ⟨a, b, c'⟩
      have := a.length_eq
      rcases h with h | h | h
      · omega
      · exact absurd b h
      · exact absurd c' h
  · rw [if_neg h]
    have hs : c.size = d.size := by_contra fun e => h (Or.inl e)
    have hp : c.pred = d.pred := by_contra fun e => h (Or.inr (Or.inl e))
    have hr : c.rhs = d.rhs := by_contra fun e => h (Or.inr (Or.inr e))
    split
    · rw [bruteEqual_perm w1.nodup w2.nodup (by omega)]; simp [hp, hr]
    · rw [sortEqual_perm w1.nodup w2.nodup (by omega)]; simp [hp, hr]

/-! ### Normalised terms -/

theorem mem_normTerms {k : ℚ} {ts : List (Nat × ℚ)} {q : Nat × ℚ} :
    q ∈ normTerms k ts ↔ ∃ p ∈ ts, p.2 ≠ 0 ∧ q = (p.1, p.2 * k) := by
  unfold normTerms
  simp only [List.mem_map, List.mem_filter, decide_eq_true_eq]
  constructor
  · rintro ⟨p, ⟨h1, h2⟩, h3⟩; exact ⟨p, h1, h2, h3.symm⟩
  · rintro ⟨p, h1, h2, h3⟩; exact ⟨p, ⟨h1, h2⟩, h3.symm⟩

theorem wf_normTerms {k : ℚ} (hk : k ≠ 0) {ts : List (Nat × ℚ)} (h : (ts.map (·.1)).Nodup) :
    WfTerms (normTerms k ts) := by
  constructor
  · unfold normTerms
    rw [List.map_map]
    exact h.sublist (List.Sublist.map _ List.filter_sublist)
  · intro q hq
    obtain ⟨p, _, h2, rfl⟩ := mem_normTerms.mp hq
    exact mul_ne_zero h2 hk

theorem normal_normTerms {k : ℚ} {ts : List (Nat × ℚ)} (h : findNorm ts = some k) (p : Pred)
    (r : ℚ) : Normal (normTerms k ts) p r := by
  obtain ⟨q, h1, h2, h3, h4⟩ := findNorm_some h
  right
  refine ⟨(q.1, q.2 * k), mem_normTerms.mpr ⟨q, h1, h2, rfl⟩, ?_, ?_⟩
  · simp only [h3]; field_simp
  · intro q' hq'
    obtain ⟨p', a, b, rfl⟩ := mem_normTerms.mp hq'
    exact h4 p' a b

/-! ### Creating a constraint -/

/-- The result of `append`: a well-formed new constraint behind the old ones. -/
structure Appended (s s1 : LinStore) (c : LinCons) (nt : List (Nat × ℚ)) : Prop where
  vars : s1.vars = s.vars ++ nt.map (·.1)
  coefs : s1.coefs = s.coefs ++ nt.map (·.2)
  cons : s1.cons = s.cons ++ [c]
  set : s1.set = s.set
  lit : c.lit = Lit.pos s.cons.length
  le : c.first ≤ c.second
  ub : c.second ≤ s1.vars.length
  fresh : s.vars.length ≤ c.first ∨ c.second = 0
  size : c.size = nt.length
  terms : s1.terms c = nt
  wf : WfTerms nt
  norm : Normal nt c.pred c.rhs

theorem append_some {s : LinStore} (hl : s.vars.length = s.coefs.length) {ts : List (Nat × ℚ)}
    (hts : (ts.map (·.1)).Nodup) (pred : Pred) (rhs : ℚ) {k : ℚ} (hk : findNorm ts = some k) :
    Appended s (append s ts pred rhs).1 (append s ts pred rhs).2.1 (normTerms k ts) ∧
    (append s ts pred rhs).2.1.pred = normPred k pred ∧
    (append s ts pred rhs).2.1.rhs = k * rhs ∧
    (append s ts pred rhs).2.2 = (pred != .eq && decide (k < 0)) := by
  unfold append
  rw [hk]
  simp only [and_true]
  refine ⟨rfl, rfl, rfl, rfl, rfl, ?_, ?_, Or.inl (le_refl _), ?_, ?_,
    wf_normTerms (findNorm_ne_zero hk) hts, normal_normTerms hk _ _⟩
  · simp
  · simp
  · simp [LinCons.size]
  · unfold terms varsOf coefsOf
    have h1 := slice_append_right s.vars ((normTerms k ts).map (·.1))
    have h2 := slice_append_right s.coefs ((normTerms k ts).map (·.2))
    rw [List.length_map] at h1 h2
    simp only
    rw [h1, hl, h2]
    exact (List.zip_of_prod rfl rfl).symm

theorem append_none {s : LinStore} {ts : List (Nat × ℚ)} (pred : Pred) (rhs : ℚ)
    (hk : findNorm ts = none) :
    Appended s (append s ts pred rhs).1 (append s ts pred rhs).2.1 [] ∧
    (append s ts pred rhs).2.1.pred = .eq ∧ (append s ts pred rhs).2.1.rhs = 0 ∧
    (append s ts pred rhs).2.2 = !pred.app 0 rhs := by
  unfold append
  rw [hk]
  simp only [and_true]
  refine ⟨?_, ?_, rfl, rfl, rfl, ?_, ?_, Or.inr rfl, ?_, ?_, ⟨?_, ?_⟩, Or.inl ⟨rfl, rfl, rfl⟩⟩ <;>
    simp [LinCons.size, terms, varsOf, coefsOf, slice]

/-- Terms of an old constraint after appending. -/
theorem Appended.terms_old {s s1 : LinStore} {c : LinCons} {nt} (h : Appended s s1 c nt)
    (hl : s.vars.length = s.coefs.length) {d : LinCons} (hd : d.second ≤ s.vars.length) :
    s1.terms d = s.terms d := by
  unfold LinStore.terms varsOf coefsOf
  rw [h.vars, h.coefs, slice_append_left hd, slice_append_left (by omega)]

theorem Appended.len {s s1 : LinStore} {c : LinCons} {nt} (h : Appended s s1 c nt)
    (hl : s.vars.length = s.coefs.length) : s1.vars.length = s1.coefs.length := by
  rw [h.vars, h.coefs]; simp [hl]

/-- What `dedup` does after `append`: the old constraints stay as they are, and the element returned
has the normalised terms up to order. -/
theorem dedup_spec (hv : Nat → Nat) (hc : ℚ → Nat) {s s1 : LinStore} {c : LinCons} {nt}
    (hI : Inv s) (h : Appended s s1 c nt) (neg : Bool) :
    Inv (dedup hv hc s1 c neg).1 ∧
    (∀ d ∈ s.set, d ∈ (dedup hv hc s1 c neg).1.set) ∧
    (∀ d, d.second ≤ s.vars.length → (dedup hv hc s1 c neg).1.terms d = s.terms d) ∧
    (∀ (k : Nat) d, s.cons[k]? = some d → (dedup hv hc s1 c neg).1.cons[k]? = some d) ∧
    s.vars.length ≤ (dedup hv hc s1 c neg).1.vars.length ∧
    ∃ e ∈ (dedup hv hc s1 c neg).1.set, (dedup hv hc s1 c neg).2 = (if neg then e.neg else e) ∧
      ((dedup hv hc s1 c neg).1.terms e).Perm nt ∧ e.pred = c.pred ∧ e.rhs = c.rhs ∧
      (∀ d ∈ s.set, (s.terms d).Perm nt → d.pred = c.pred → d.rhs = c.rhs → e = d) := by
  have hl := hI.len
  have hl1 := h.len hl
  have hvl : s.vars.length ≤ s1.vars.length := by rw [h.vars]; simp
  have told : ∀ d ∈ s.set, s1.terms d = s.terms d := fun d hd => h.terms_old hl (hI.rng d hd).2
  have heq : ∀ d ∈ s.set, (equal s1 c d = true ↔ nt.Perm (s.terms d) ∧ c.pred = d.pred ∧
      c.rhs = d.rhs) := by
    intro d hd
    rw [equal_iff hl1 h.ub ((hI.rng d hd).2.trans hvl) (by rw [h.terms]; exact h.wf)
      (by rw [told d hd]; exact hI.wf d hd), h.terms, told d hd]
  cases e : s1.set.find? (fun e => hash hv hc s1 c == hash hv hc s1 e && equal s1 c e) with
  | none =>
    have hne : ∀ d ∈ s.set, ¬ (nt.Perm (s.terms d) ∧ c.pred = d.pred ∧ c.rhs = d.rhs) := by
      intro d hd hp
      have := List.find?_eq_none.mp e d (by rw [h.set]; exact hd)
      apply this
      rw [(heq d hd).mpr hp]
      have : hash hv hc s1 c = hash hv hc s1 d :=
        hash_perm hv hc hl1 h.ub ((hI.rng d hd).2.trans hvl)
          (by rw [h.terms, told d hd]; exact hp.1) hp.2.2
      simp [this]
    have e5 : dedup hv hc s1 c neg = ({ s1 with set := s1.set ++ [c] }, if neg then c.neg else c) := by
      unfold dedup
      rw [e]
    rw [e5]
    have tm : ∀ d, ({ s1 with set := s1.set ++ [c] } : LinStore).terms d = s1.terms d := fun _ => rfl
    have hmem : ∀ d, d ∈ s1.set ++ [c] ↔ d ∈ s.set ∨ d = c := by
      intro d; rw [h.set]; simp
    refine ⟨⟨hl1, ?_, ?_, ?_, ?_, ?_, ?_, ?_⟩, ?_, ?_, ?_, hvl, c, ?_, rfl, ?_, rfl, rfl, ?_⟩
    · intro d hd
      rcases (hmem d).mp hd with hd | rfl
      · obtain ⟨k, h1, h2⟩ := hI.idx d hd
        refine ⟨k, h1, ?_⟩
        show s1.cons[k]? = some d
        rw [h.cons, List.getElem?_append_left (List.getElem?_eq_some_iff.mp h2).1, h2]
      · exact ⟨_, h.lit, by show s1.cons[_]? = _; rw [h.cons]; simp⟩
    · intro k d hd
      have hd' : (s.cons ++ [c])[k]? = some d := by rw [← h.cons]; exact hd
      rw [List.getElem?_append] at hd'
      split at hd'
      · rcases hI.dflt k d hd' with h1 | h1
        · exact Or.inl ⟨(hmem d).mpr (Or.inl h1.1), h1.2⟩
        · exact Or.inr h1
      · left
        rename_i hk
        have hlt := (List.getElem?_eq_some_iff.mp hd').1
        simp only [List.length_cons, List.length_nil] at hlt
        have hke : k = s.cons.length := by omega
        have : d ∈ [c] := List.mem_of_getElem? hd'
        simp at this
        exact ⟨(hmem d).mpr (Or.inr this), by rw [this, h.lit, hke]⟩
    · intro d hd
      rcases (hmem d).mp hd with hd | rfl
      · exact ⟨(hI.rng d hd).1, (hI.rng d hd).2.trans hvl⟩
      · exact ⟨h.le, h.ub⟩
    · intro d hd d' hd' hdd
      rcases (hmem d).mp hd with hds | hds <;> rcases (hmem d').mp hd' with hds' | hds'
      · exact hI.disj d hds d' hds' hdd
      · have := (hI.rng d hds).2
        subst hds'
        rcases h.fresh with hf | hf
        · left; omega
        · right; omega
      · have := (hI.rng d' hds').2
        subst hds
        rcases h.fresh with hf | hf
        · right; omega
        · left; omega
      · exact absurd (hds.trans hds'.symm) hdd
    · intro d hd
      rw [tm]
      rcases (hmem d).mp hd with hd | rfl
      · rw [told d hd]; exact hI.wf d hd
      · rw [h.terms]; exact h.wf
    · intro d hd
      rw [tm]
      rcases (hmem d).mp hd with hd | rfl
      · rw [told d hd]; exact hI.norm d hd
      · rw [h.terms]; exact h.norm
    · intro d hd d' hd'
      rw [tm, tm]
      rcases (hmem d).mp hd with hds | hds <;> rcases (hmem d').mp hd' with hds' | hds'
      · rw [told d hds, told d' hds']; exact hI.uniq d hds d' hds'
      · rw [hds', told d hds, h.terms]
        intro a b c'
        exact absurd ⟨a.symm, b.symm, c'.symm⟩ (hne d hds)
      · rw [hds, told d' hds', h.terms]
        intro a b c'
        exact absurd ⟨a, b, c'⟩ (hne d' hds')
      · intros; exact hds.trans hds'.symm
    · intro d hd; exact (hmem d).mpr (Or.inl hd)
    · intro d hd; rw [tm]; exact h.terms_old hl hd
    · intro k d hd
      show s1.cons[k]? = some d
      rw [h.cons, List.getElem?_append_left (List.getElem?_eq_some_iff.mp hd).1, hd]
    · exact (hmem c).mpr (Or.inr rfl)
    · rw [tm, h.terms]
    · intro d hd a b c'
      exact absurd ⟨a.symm, b.symm, c'.symm⟩ (hne d hd)
  | some d =>
    have hd : d ∈ s.set := by rw [← h.set]; exact List.mem_of_find?_eq_some e
    have hde : equal s1 c d = true := by
      have := List.find?_some e
      simp at this
      exact this.2
    obtain ⟨hp, hpr, hrh⟩ := (heq d hd).mp hde
    have e1 : s1.vars.take (s1.vars.length - c.size) = s.vars := by
      rw [h.vars, h.size]
      simp
    have e2 : s1.coefs.take (s1.coefs.length - c.size) = s.coefs := by
      rw [h.coefs, h.size]
      simp
    have e3 : s1.cons.dropLast = s.cons := by rw [h.cons]; simp
    have e4 : ({ s1 with vars := s1.vars.take (s1.vars.length - c.size),
                         coefs := s1.coefs.take (s1.coefs.length - c.size),
                         cons := s1.cons.dropLast } : LinStore) = s := by
      rw [e1, e2, e3, h.set]
    have e5 : dedup hv hc s1 c neg = (s, if neg then d.neg else d) := by
      unfold dedup
      rw [e]
      simp only
      rw [e4]
    rw [e5]
    refine ⟨hI, fun _ h => h, fun _ _ => rfl, fun _ _ h => h, le_refl _, d, hd, rfl, hp.symm,
      hpr.symm, hrh.symm, ?_⟩
    intro d' hd' a b c'
    exact hI.uniq d hd d' hd' (hp.symm.trans a.symm) (hpr.symm.trans b.symm) (hrh.symm.trans c'.symm)

end LinStore
end Yaga
