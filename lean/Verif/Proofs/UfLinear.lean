/-
`linear_constraint` as the plugins call it: the exchanges made for the watch lists do not change what a
constraint means.
-/
import Verif.Proofs.UfEval
import Verif.Proofs.LraStore

set_option linter.unusedSimpArgs false

namespace Yaga

open Spec TermTable Internalizer

variable {s : TermTable} {R : Type}

/-- Two stores with the same constraints, up to the order of their terms. -/
structure Swapped (a b : LinStore) : Prop where
  inv : LinStore.Inv b
  kept : LinStore.Kept a b
  cons : b.cons = a.cons
  set : b.set = a.set

theorem Swapped.refl {a : LinStore} (h : LinStore.Inv a) : Swapped a a := ⟨h, .refl a, rfl, rfl⟩

theorem Swapped.terms {a b : LinStore} (h : Swapped a b) (hI : LinStore.Inv a) (k : Nat) :
    b.get k = a.get k ∧ (b.terms (b.get k)).Perm (a.terms (a.get k)) := by
  have hg : b.get k = a.get k := by unfold LinStore.get; rw [h.cons]
  refine ⟨hg, ?_⟩
  rw [hg]
  by_cases hk : k < a.cons.length
  · have hc : a.cons[k]? = some (a.get k) := by
      unfold LinStore.get; rw [List.getElem?_eq_getElem hk]; rfl
    rcases hI.dflt k _ hc with hd | hd
    · exact h.kept.terms _ hd.1
    · rw [hd, LinStore.terms_empty, LinStore.terms_empty]
  · have : a.get k = LinCons.empty := by
      unfold LinStore.get; rw [List.getElem?_eq_none (by omega)]; rfl
    rw [this, LinStore.terms_empty, LinStore.terms_empty]

theorem Swapped.models {st : IState} {b : LinStore} (h : Swapped st.store b) (hI : LinStore.Inv st.store)
    (m : Assignment) (r : Nat → ℚ) : Models { st with store := b } m r ↔ Models st m r := by
  unfold Models
  refine and_congr_right fun _ => forall_congr' fun k => ?_
  obtain ⟨h1, h2⟩ := h.terms hI k
  simp only
  rw [LinStore.linTrue_perm h2, h1]
  rw [h1] at h2
  have : b.terms (st.store.get k) ≠ [] ↔ st.store.terms (st.store.get k) ≠ [] := by
    rw [not_iff_not]
    exact ⟨fun e => by rw [e] at h2; exact h2.symm.eq_nil, fun e => by rw [e] at h2; exact h2.eq_nil⟩
  rw [this]

theorem Swapped.iinv {st : IState} {b : LinStore} (h : Swapped st.store b) (hI : IInv s st) :
    IInv s { st with store := b } where
  store := h.inv
  num := by show b.cons.length = _; rw [h.cons]; exact hI.num
  nonempty := by
    intro c hc e
    have hc : c ∈ st.store.set := by rw [← h.set]; exact hc
    have := h.kept.terms c hc
    rw [show b.terms c = [] from e] at this
    exact hI.nonempty c hc this.symm.eq_nil
  cvars := by
    intro c hc p hp
    have hc : c ∈ st.store.set := by rw [← h.set]; exact hc
    exact hI.cvars c hc p ((h.kept.terms c hc).mem_iff.mp hp)
  clauses := hI.clauses
  ratOrds := hI.ratOrds
  rat := hI.rat
  bool := hI.bool

theorem LCSpec.swap {st st' : IState} {l : Lit} {ts : List (Nat × ℚ)} {pred : Pred} {rhs : ℚ} {b : LinStore}
    (hL : LCSpec s st st' l ts pred rhs) (h : Swapped st'.store b) :
    LCSpec s st { st' with store := b } l ts pred rhs where
  inv := h.iinv hL.inv
  rat := hL.rat
  bool := hL.bool
  numRat := hL.numRat
  cls := hL.cls
  apps := hL.apps
  proc := hL.proc
  numBool := hL.numBool
  ord := hL.ord
  back := fun m r hm => hL.back m r ((h.models hL.inv.store m r).mp hm)
  means := fun m r hm => hL.means m r ((h.models hL.inv.store m r).mp hm)
  ext := fun m r hm => by
    obtain ⟨m', h1, h2⟩ := hL.ext m r hm
    exact ⟨m', h1, (h.models hL.inv.store m' r).mpr h2⟩
  kept := hL.kept.trans h.kept

namespace UF

/-- The trail after a constraint was made: it is resized if the constraint is new. -/
def grown (tr : Trail R) (n : Nat) : Trail R := if tr.bools.num < n then tr.resize .boolean n else tr

theorem linear_cases {cfg : ICfg} {u : UF R} (hI : IInv s u.ist) (hb : u.trail.bools.num = u.ist.numBool)
    {ts : List (Nat × ℚ)} (hnd : (ts.map (·.1)).Nodup) {pred : Pred} {rhs : ℚ} {st : IState} {l : Lit}
    (h : linearConstraint cfg u.ist ts pred rhs = some (st, l)) :
    ∃ b w, Swapped st.store b ∧ linear cfg u ts pred rhs = some ({ u with
      ist := { st with store := b }, trail := grown u.trail st.numBool, lraWatch := w }, l) ∧
      (u.lra.constraint cfg.hv cfg.hc ts pred rhs).1.store = b ∧
      (u.lra.constraint cfg.hv cfg.hc ts pred rhs).1.trail = grown u.trail st.numBool ∧
      (u.lra.constraint cfg.hv cfg.hc ts pred rhs).1.watched = w ∧
      (u.lra.constraint cfg.hv cfg.hc ts pred rhs).2.lit = l := by
  have hL := linearConstraint_spec hI hnd h
  unfold linearConstraint at h
  split at h
  · cases h
  rename_i hrange
  simp only at h
  obtain ⟨g1, g2, e, g3⟩ := LinStore.make_spec cfg.hv cfg.hc hI.store hnd pred rhs
  unfold linear
  rw [if_neg hrange]
  unfold LA.constraint Lra.constraint
  have e1 : u.lra.store = u.ist.store := rfl
  have e2 : u.lra.models.bools.num = u.ist.numBool := hb
  have e3 : u.lra.trail = u.trail := rfl
  simp only
  rw [e1, e2]
  by_cases hord : u.ist.numBool ≤ (u.ist.store.make cfg.hv cfg.hc ts pred rhs).2.lit.ord
  · rw [if_pos hord] at h
    split at h
    · cases h
    rename_i hem
    simp only [Option.some.injEq, Prod.mk.injEq] at h
    obtain ⟨rfl, rfl⟩ := h
    have hI2 : LinStore.Inv ((u.ist.store.make cfg.hv cfg.hc ts pred rhs).1.resize
      ((u.ist.store.make cfg.hv cfg.hc ts pred rhs).2.lit.ord + 1)) := hL.inv.store
    have hsz : (u.ist.store.make cfg.hv cfg.hc ts pred rhs).2.size = e.size := by
      rcases g3.eq with h | h <;> rw [h]; rfl
    obtain ⟨k1, k2, k3, k4, _⟩ := Lra.watchLoop_spec u.lra.models.rats g3.eq
      (u.ist.store.make cfg.hv cfg.hc ts pred rhs).2.size 0 0 _ hI2 g3.mem (by omega) (le_refl _)
    have hge : (u.ist.store.make cfg.hv cfg.hc ts pred rhs).2.lit.ord ≥ u.ist.numBool := hord
    simp only [ge_iff_le, hord, if_true, e3, hb, hem, Bool.false_eq_true, if_false, decide_true, Bool.true_and,
      Bool.and_false]
    refine ⟨_, _, ⟨k1, k2, k3, k4⟩, ?_, rfl, ?_, rfl, trivial⟩
    · unfold grown
      rw [if_pos (by rw [hb]; show _ < _ + 1; omega)]
      rfl
    · unfold grown
      rw [if_pos (by rw [hb]; show _ < _ + 1; omega)]
  · rw [if_neg hord] at h
    simp only [Option.some.injEq, Prod.mk.injEq] at h
    obtain ⟨rfl, rfl⟩ := h
    simp only [ge_iff_le, hord, if_false, e3, hb, decide_false, Bool.false_and, Bool.false_eq_true]
    refine ⟨_, u.lraWatch, .refl hL.inv.store, ?_, rfl, ?_, rfl, trivial⟩
    · unfold grown
      rw [if_neg (by rw [hb]; exact Nat.lt_irrefl _)]
      rfl
    · unfold grown
      rw [if_neg (by rw [hb]; exact Nat.lt_irrefl _)]

/-- The range of the variables and the emptiness of a new constraint are tested as in the internalizer. -/
theorem linear_some {cfg : ICfg} {u u' : UF R} (hb : u.trail.bools.num = u.ist.numBool)
    {ts : List (Nat × ℚ)} {pred : Pred} {rhs : ℚ} {l : Lit} (h : linear cfg u ts pred rhs = some (u', l)) :
    ∃ st l', linearConstraint cfg u.ist ts pred rhs = some (st, l') := by
  unfold linear at h
  split at h
  · cases h
  rename_i hrange
  unfold linearConstraint
  rw [if_neg hrange]
  simp only at h ⊢
  split at h
  · cases h
  rename_i hn
  have e2 : (u.lra.constraint cfg.hv cfg.hc ts pred rhs).2 = (u.ist.store.make cfg.hv cfg.hc ts pred rhs).2 := by
    unfold LA.constraint Lra.constraint
    simp only
    split <;> split <;> rfl
  rw [e2] at hn
  split
  · rename_i hord
    rw [if_neg (by rw [hb] at hn; simpa [hord] using hn)]
    exact ⟨_, _, rfl⟩
  · exact ⟨_, _, rfl⟩

end UF
end Yaga
