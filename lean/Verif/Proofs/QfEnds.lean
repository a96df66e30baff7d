/-
Propagation in the solver for QF_LRA ends.
-/
import Verif.Proofs.LraValue
import Verif.Proofs.QfModel
import Verif.Proofs.BcpTerm

namespace Yaga
open LinStore (Kept)

/-! ### Without a conflict the arithmetic plugin creates no variables -/

namespace LA
variable {R : Type} {hv : Nat → Nat} {hc : ℚ → Nat} {o : LaOpts} {la : LA R} {s : Stage} {w : Option Nat}

theorem num_onWatched (la : LA R) (c : LinCons) : (la.onWatched c).trail.bools.num = la.trail.bools.num := by
  unfold onWatched
  split
  · split <;> rfl
  · split <;> rfl

theorem replaceOne_trail (la : LA R) (c : LinCons) (i x : Nat) : (la.replaceOne c i x).1.trail = la.trail := by
  unfold replaceOne
  split
  · rfl
  · split
    · rfl
    · dsimp only
      split
      · split <;> rfl
      · rfl

theorem num_replaceLoop (x : Nat) : ∀ (k i : Nat) (la : LA R),
    (replaceLoop x k i la).trail.bools.num = la.trail.bools.num := by
  intro k
  induction k with
  | zero => intro i la; rfl
  | succ k ih =>
    intro i la
    unfold replaceLoop
    split
    · rfl
    · rename_i c idx _
      dsimp only
      rw [← replaceOne_trail la c idx x]
      split
      · generalize swapPop _ i = w
        exact ih i { (la.replaceOne c idx x).1 with
          watched := Function.update (la.replaceOne c idx x).1.watched x w }
      · generalize ((la.replaceOne c idx x).1.watched x).set i _ = w
        exact (ih _ _).trans (num_onWatched { (la.replaceOne c idx x).1 with
          watched := Function.update (la.replaceOne c idx x).1.watched x w } c)

theorem num_onAssigned (la : LA R) (v : Var) : (la.onAssigned v).trail.bools.num = la.trail.bools.num := by
  unfold onAssigned
  split
  · unfold onBool
    dsimp only
    split
    · rfl
    · split <;> rfl
  · exact num_replaceLoop _ _ _ (la.check _)

theorem num_deduceOne (la : LA R) (a : Asg R) : (la.deduceOne a).trail.bools.num = la.trail.bools.num := by
  unfold deduceOne
  split
  · rfl
  · dsimp only
    split <;> rfl

theorem num_foldl {α : Type} (f : LA R → α → LA R)
    (hf : ∀ la a, (f la a).trail.bools.num = la.trail.bools.num) :
    ∀ (l : List α) (la : LA R), (l.foldl f la).trail.bools.num = la.trail.bools.num := by
  intro l
  induction l with
  | nil => intro la; rfl
  | cons a l ih => intro la; exact (ih _).trans (hf la a)

theorem Good.num_propagate (hg : Good hv hc la s w) (hn : (la.propagate hv hc o).2 = []) :
    (la.propagate hv hc o).1.trail.bools.num = la.trail.bools.num := by
  obtain ⟨X, Y, k1, k2⟩ := hg.handled
  have h1 : ((la.todo.filter la.relevant).foldl onAssigned la.takeAssigned.1).trail.bools.num =
      la.trail.bools.num := num_foldl _ num_onAssigned _ _
  have hprop : la.propagate hv hc o = (if o.propBounds then
      ((la.todo.filter la.relevant).foldl onAssigned la.takeAssigned.1).propagateBounds
      else (la.todo.filter la.relevant).foldl onAssigned la.takeAssigned.1).finish hv hc o := rfl
  rw [hprop] at hn ⊢
  split at hn
  · rename_i hb
    rw [if_pos hb]
    obtain ⟨m1, m2⟩ := k1.propagateBounds
    rw [← m2.lev_eq] at m1
    rw [(Keep.finishQuiet o m1 hn).1, ← h1]
    exact num_foldl _ num_deduceOne _ _
  · rename_i hb
    rw [if_neg hb, (Keep.finishQuiet o k1 hn).1, h1]

end LA

namespace Qf
open Spec BS Check

variable {hv : Nat → Nat} {hc : ℚ → Nat} {op : LaOpts} {S : LinStore} {A : List Clause}
  {b : Bool} {O : Type} {W : QOrder O} {Th : Assignment → Prop}

theorem assigns_num {t t' : Trail Nat} (h : Assigns t t') : t'.bools.num = t.bools.num := by
  induction h with
  | refl => rfl
  | step h _ _ ih => exact ih

theorem propagates_num {s s' : BS} {c : Option Clause} (h : Check.Good Th A b s) (hp : Propagates s c s') :
    s'.t.bools.num = s.t.bools.num := by
  obtain ⟨s0, a1, a2, a3, -, -, -, -, hx, -⟩ := propagates_spec (Q := fun _ => False)
    h.base.inv h.base.db (fun h' => h.base.ws (Or.inr h')) (by simp) (by simp) hp
  rw [← a2]; exact assigns_num hx.steps

/-- The list of a level is no longer than the number of variables. -/
theorem recentSize_le {t : Trail Nat} (hi : t.Inv) : recentSize t ≤ t.bools.num + t.rats.num := by
  have hsub : (t.assigned t.decisionLevel).map Asg.var ⊆
      (List.range t.bools.num).map Var.bool ++ (List.range t.rats.num).map Var.rat := by
    intro v hv
    obtain ⟨a, ha, rfl⟩ := List.mem_map.mp hv
    obtain ⟨k, -, hk⟩ := level_of_listed hi ha
    have hr := hi.range _ _ hk
    obtain ⟨⟨ty, n⟩, r⟩ := a
    cases ty with
    | boolean => exact List.mem_append_left _ (List.mem_map.mpr ⟨n, List.mem_range.mpr hr, rfl⟩)
    | rational => exact List.mem_append_right _ (List.mem_map.mpr ⟨n, List.mem_range.mpr hr, rfl⟩)
  have hnd : ((t.assigned t.decisionLevel).map Asg.var).Nodup := by
    unfold Trail.assigned
    cases h : t.levels[t.decisionLevel]? with
    | none => simp [List.getD_eq_getElem?_getD, h]
    | some xs => simpa [List.getD_eq_getElem?_getD, h] using hi.nodup _ xs h
  have := (List.subperm_of_subset hnd hsub).length_le
  simpa [recentSize] using this

/-- The loop of `Theory_combination::propagate` ends. -/
theorem prop_ends {st : Yaga.Stage} {q : QS} (h : Core hv hc op S A b st q) (hs : st ≠ .conflict) :
    ∃ cs q', QProp hv hc op q cs q' := by
  obtain ⟨n, hn⟩ : ∃ n, n = q.s.t.bools.num + q.s.t.rats.num - recentSize q.s.t := ⟨_, rfl⟩
  induction n using Nat.strong_induction_on generalizing q st b with
  | _ n ih =>
  obtain ⟨c, s', hp⟩ := propagates_ends q.s
  cases c with
  | some c => exact ⟨_, _, .boolConflict hp⟩
  | none =>
    obtain ⟨st1, h1, c1, e1, l1, -⟩ := core_bool h hs hp
    cases hq : (withTrail q.la s'.t).propagate hv hc op with
    | mk la cs =>
    by_cases hne : cs = []
    · subst hne
      obtain ⟨c2, e2, e3, l2, -⟩ := core_lra c1 h1 hq
      by_cases hz : recentSize q.s.t = recentSize la.trail
      · exact ⟨_, _, .done hp hq hz⟩
      · obtain ⟨w, hg⟩ := c1.reach.good
        have hI := hg.keep.base.inv
        have hG := c1.good _ hI (Kept.refl _)
        obtain ⟨w0, hgq⟩ := h.reach.good
        have hG0 := h.good _ hgq.keep.base.inv (Kept.refl _)
        have n1 : la.trail.bools.num = q.s.t.bools.num := by
          have := hg.num_propagate (o := op) (by rw [hq])
          rw [hq] at this
          rw [← propagates_num hG0 hp]
          exact this
        have n2 : la.trail.rats = q.s.t.rats := by
          obtain ⟨-, g2, -⟩ := hg.propagate (o := op)
          simp only at g2
          rw [hq] at g2
          rw [← propagates_rats hG0 hp]
          exact g2.rats
        have n3 : recentSize q.s.t ≤ recentSize la.trail := by
          unfold recentSize
          rw [e2, e1]
          exact ((l1 _).trans (l2 _)).length_le
        have hi2 : la.trail.Inv := by
          obtain ⟨w', hg'⟩ := c2.reach.good
          exact hg'.keep.base.tinv
        have n4 := recentSize_le hi2
        rw [n1, n2] at n4
        have hft : (follow s' la).t = la.trail := rfl
        obtain ⟨cs, q', hr⟩ := ih (q.s.t.bools.num + q.s.t.rats.num - recentSize la.trail) (by omega) c2
          (by split <;> [skip; split] <;> simp_all) (by rw [hft, n1, n2])
        exact ⟨cs, q', .again hp hq hz hr⟩
    · exact ⟨_, _, .lraConflict hp hq hne⟩

end Qf
end Yaga
