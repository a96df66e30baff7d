/-
The constraints made by the plugin for uninterpreted functions, seen from the plugin for linear arithmetic.
-/
import Verif.Proofs.UfDerived
import Verif.Proofs.LraGood
import Verif.Proofs.QfCore
import Verif.Model.UfLra

set_option linter.unusedSectionVars false
set_option linter.unusedVariables false

namespace Yaga
open LinStore (Kept)
open Spec

namespace Ufl

/-- The members that the plugin for uninterpreted functions changes are taken from `x`. -/
def over (la x : LA Nat) : LA Nat := { la with trail := x.trail, store := x.store, watched := x.watched }

theorem over_constraint {hv : Nat → Nat} {hc : ℚ → Nat} (la x : LA Nat) (ts : List (Nat × ℚ)) (p : Pred) (r : ℚ) :
    (over la x).constraint hv hc ts p r = (over la (x.constraint hv hc ts p r).1, (x.constraint hv hc ts p r).2) := by
  unfold LA.constraint over LA.models
  simp only
  split <;> rfl

theorem over_setBool (la x : LA Nat) (o : Nat) (b : Bool) (r : Option Nat) (lvl : Nat) :
    (over la x).setBool o b r lvl = over la (x.setBool o b r lvl) := rfl

/-- The literal of an equality is positive. -/
theorem constraint_pos {hv : Nat → Nat} {hc : ℚ → Nat} {la : LA Nat} (hI : la.store.Inv) {ts : List (Nat × ℚ)}
    (hnd : (ts.map (·.1)).Nodup) (hnz : ∃ q ∈ ts, q.2 ≠ 0) (rhs : ℚ) :
    (la.constraint hv hc ts .eq rhs).2.lit.isNeg = false := by
  have h := LinStore.make_eq_pos hv hc hI hnd rhs hnz
  have : (la.constraint hv hc ts .eq rhs).2 = (la.store.make hv hc ts .eq rhs).2 := by
    unfold LA.constraint Lra.constraint
    simp only
    split <;> split <;> rfl
  rw [this]; exact h

/-- Making a constraint for assigned variables and assigning its literal its value at the largest level of
the variables. -/
theorem derive_assign {hv : Nat → Nat} {hc : ℚ → Nat} {la : LA Nat} {X Y : Nat → Nat → Prop}
    (h : LA.Keep hv hc la X Y (fun _ => LA.lev la.trail)) {ts : List (Nat × ℚ)} {rhs : ℚ} (hs : UF.Side la ts)
    (hd : (la.constraint hv hc ts .eq rhs).1.trail.bools.defined (la.constraint hv hc ts .eq rhs).2.lit.ord = false)
    {b : Bool} {lvl : Nat} (hb : b = true ↔ LinTrue la.trail.rats.value ts .eq rhs)
    (hle : ∀ q ∈ ts, ∀ k, la.level q.1 = some k → k ≤ lvl) (hN : ∃ q ∈ ts, la.level q.1 = some lvl) :
    la.derive hv hc ts .eq rhs = (la.constraint hv hc ts .eq rhs).1.setBool
      (la.constraint hv hc ts .eq rhs).2.lit.ord b none lvl := by
  have has : ∀ q ∈ ts, la.trail.rats.defined q.1 = true := fun q hq =>
    h.defined.mpr (Option.isSome_iff_exists.mp (hs.asg q hq))
  have hwi : LA.WI (LA.lev la.trail) (LA.nzVars ts) := by
    refine LA.wi_sorted (fun y hy => ?_) ?_
    · obtain ⟨q, hq, rfl⟩ := LA.nzVars_mem hy
      exact h.defined.mp (has q hq)
    · unfold LA.nzVars
      rw [List.pairwise_map]
      exact hs.srt.sublist List.filter_sublist
  obtain ⟨hf, hcc, hp, _, hcore, hlit, _⟩ := h.constraint hs.nodup hs.nz (fun q hq => by
    obtain ⟨l, hl⟩ := h.defined.mp (has q hq)
    exact h.base.tinv.range _ _ hl) (Or.inl has) .eq rhs hwi
  have hpos := constraint_pos (hv := hv) (hc := hc) h.base.inv hs.nodup hs.nz rhs
  have hl : la.store.cons.length = la.models.bools.num := h.base.linv.len
  obtain ⟨hI', _, _, _, _, e, hM⟩ := Lra.constraint_spec hv hc (m := la.models) h.base.inv hl hs.nodup .eq rhs
  have hst : (la.constraint hv hc ts .eq rhs).1.store = (Lra.constraint hv hc la.store la.models ts .eq rhs).1 :=
    congrArg Lra.St.store hcore
  rw [← hst, ← hlit] at hM
  unfold LA.derive
  simp only
  rw [if_neg (by rw [hd]; simp)]
  generalize hr : la.constraint hv hc ts .eq rhs = r at *
  have hvars : ∀ x, x ∈ r.1.store.varsOf r.2 ↔ x ∈ ts.map (·.1) := by
    intro x
    rw [hp.mem_iff]
    unfold LA.nzVars
    constructor
    · intro hx
      obtain ⟨q, hq, rfl⟩ := List.mem_map.mp hx
      exact List.mem_map.mpr ⟨q, (List.mem_filter.mp hq).1, rfl⟩
    · intro hx
      obtain ⟨q, hq, rfl⟩ := List.mem_map.mp hx
      exact List.mem_map.mpr ⟨q, List.mem_filter.mpr ⟨hq, by simpa using hs.all q hq⟩, rfl⟩
  have hlevel : ∀ x, r.1.level x = la.level x := hf.lev
  -- the level
  have hmax : r.1.maxLevel r.2 = lvl := by
    obtain ⟨_, m2, m3⟩ := LA.foldl_max (fun x => (r.1.level x).getD 0) (r.1.store.varsOf r.2) 0
    obtain ⟨q, hq, hql⟩ := hN
    refine le_antisymm ?_ ?_
    · unfold LA.maxLevel
      rcases m3 with h0 | ⟨x, hx, h0⟩
      · rw [h0]; exact Nat.zero_le _
      · rw [h0]
        obtain ⟨q', hq', rfl⟩ := List.mem_map.mp ((hvars x).mp hx)
        obtain ⟨k, hk⟩ := Option.isSome_iff_exists.mp (hs.asg q' hq')
        rw [hlevel, hk]
        exact hle q' hq' k hk
    · have := m2 q.1 ((hvars _).mpr (List.mem_map.mpr ⟨q, hq, rfl⟩))
      rw [hlevel, hql] at this
      exact this
  -- the value
  have hce : r.2 = e := by
    rcases hM.eq with h1 | h1
    · exact h1
    · exfalso
      obtain ⟨k, hk, _⟩ := (hst ▸ hI' : r.1.store.Inv).idx e hM.mem
      rw [h1] at hpos
      have : e.neg.lit.isNeg = !e.lit.isNeg := LinStore.Lit.neg_isNeg _
      rw [this, hk] at hpos
      simp at hpos
  have hval : xor r.2.lit.isNeg (r.1.store.eval r.1.trail.rats r.2) = b := by
    have h1 := LinStore.eval_iff r.1.store r.1.trail.rats r.2
    have h2 := hM.means r.1.trail.rats.value
    rw [if_pos hce, ← hce, hf.rats] at h2
    rw [hpos, hf.rats] at h1 ⊢
    simp only [true_and, Bool.false_eq_true, false_and, or_false] at h1
    rw [h2, ← hb] at h1
    rw [Bool.false_xor]
    exact Bool.eq_iff_iff.mpr h1
  -- the assertion
  have hok : ((evalLit r.1.trail.bools r.2.lit).isNone &&
      (r.1.store.varsOf r.2).all fun x => (r.1.level x).isSome) = true := by
    rw [Bool.and_eq_true]
    refine ⟨?_, List.all_eq_true.mpr fun x hx => ?_⟩
    · unfold evalLit
      rw [if_neg (by rw [hd]; simp)]; rfl
    · obtain ⟨q, hq, rfl⟩ := List.mem_map.mp ((hvars x).mp hx)
      rw [hlevel]
      exact hs.asg q hq
  unfold LA.propagateCons LA.setBool LA.check
  rw [hok, Bool.and_true]
  simp only
  rw [hmax, hval]

/-- The equalities asserted by the plugin for uninterpreted functions are derived constraints. -/
theorem derived_reach {hv : Nat → Nat} {hc : ℚ → Nat} {op : LaOpts} {N : Prop} (hN : N) {a b : LA Nat}
    (h : UF.Derived hv hc N a b) (la : LA Nat) {st : Stage} (hr : LA.Reach hv hc op True (over la a) st)
    (hst : st = .settled ∨ st = .changed) :
    ∃ st', (st' = .settled ∨ st' = .changed) ∧ LA.Reach hv hc op True (over la b) st' ∧
      LA.Frame (over la a) (over la b) := by
  have side : ∀ {x : LA Nat} {ts : List (Nat × ℚ)}, UF.Side x ts → UF.Side (over la x) ts :=
    fun h => ⟨h.nodup, h.nz, h.all, h.asg, h.srt⟩
  have key : ∀ {x y : LA Nat} {ts : List (Nat × ℚ)} {rhs : ℚ} {s' : Stage}, UF.Side x ts →
      (s' = .settled ∨ s' = .changed) → LA.Reach hv hc op True (over la x) s' →
      LA.Frame (over la a) (over la x) → over la y = (over la x).derive hv hc ts .eq rhs →
      ∃ st', (st' = Stage.settled ∨ st' = Stage.changed) ∧ LA.Reach hv hc op True (over la y) st' ∧
        LA.Frame (over la a) (over la y) := by
    intro x y ts rhs s' hs h1 h2 h3 e
    have hs := side hs
    obtain ⟨w, hg⟩ := h2.good
    have hw := hg.normal (by rcases h1 with rfl | rfl <;> rintro ⟨⟩)
    subst hw
    obtain ⟨_, k2⟩ := LA.Keep.derive hg.keep hs.nodup hs.nz
      (fun q hq => hg.keep.defined.mpr (Option.isSome_iff_exists.mp (hs.asg q hq))) hs.srt .eq rhs
    refine ⟨.changed, .inr rfl, ?_, ?_⟩
    · rw [e]; exact .derive h2 h1 ts .eq rhs hs.nodup hs.nz hs.asg hs.srt
    · rw [e]; exact h3.trans k2
  induction h with
  | refl => exact ⟨st, hst, hr, LA.Frame.refl _⟩
  | @found x h ts rhs hs hd ih =>
    obtain ⟨s', h1, h2, h3⟩ := ih
    refine key (rhs := rhs) hs h1 h2 h3 ?_
    unfold LA.derive
    simp only
    rw [over_constraint]
    exact (if_pos hd).symm
  | @assign x h ts rhs hs hd b lvl hb hle hN' ih =>
    obtain ⟨s', h1, h2, h3⟩ := ih
    refine key (rhs := rhs) hs h1 h2 h3 ?_
    obtain ⟨w, hg⟩ := h2.good
    have hw := hg.normal (by rcases h1 with rfl | rfl <;> rintro ⟨⟩)
    subst hw
    have := derive_assign (rhs := rhs) hg.keep (side hs) (by rw [over_constraint]; exact hd) hb hle (hN' hN)
    rw [this, over_constraint]
    rfl

end Ufl
end Yaga
