/-
C10: gating of the Glucose restart policy and the LBD.
-/
import Verif.Proofs.Std
import Verif.Proofs.Trail
import Verif.Props.C09

namespace Yaga
open Spec
variable {R : Type}

/-- C10. If all literals of a learned clause are assigned, the LBD given to the averages is the
number of distinct decision levels in the clause. -/
theorem C10_lbd (t : Trail R) (c : Clause) (h : ∀ l ∈ c, t.level l.var ≠ none) :
    ∃ n, lbdOf t c = some n ∧
      n = ((c.filterMap fun l => t.level l.var).toFinset).card := by
  have hex : ∃ ys, c.mapM (fun l => t.level l.var) = some ys := by
    induction c with
    | nil => exact ⟨[], rfl⟩
    | cons l c ih =>
      obtain ⟨ys, hys⟩ := ih fun l hl => h l (List.mem_cons_of_mem _ hl)
      rcases hl : t.level l.var with _ | x
      · exact absurd hl (h l List.mem_cons_self)
      · exact ⟨x :: ys, by simp [List.mapM_cons, hl, hys]⟩
  obtain ⟨ys, hys⟩ := hex
  have hmap := (mapM_eq_some_iff _ c ys).1 hys
  have hfm : c.filterMap (fun l => t.level l.var) = ys := by
    have : c.filterMap (fun l => t.level l.var) = (c.map fun l => t.level l.var).filterMap id := by
      rw [List.filterMap_map]; rfl
    rw [this, hmap]
    simp
  refine ⟨(uniq (sortBy (fun a b : Nat => decide (a < b)) ys)).length,
    by simp only [lbdOf, hys, Option.map_some], ?_⟩
  rw [hfm]
  have hs : (sortBy (fun a b : Nat => decide (a < b)) ys).Pairwise (· ≤ ·) := by
    have := sortBy_pairwise (fun a b : Nat => decide (a < b))
      (by intro a b c; simp; omega) (by intro a b; simp; omega) ys
    simpa using this
  have hnd := uniq_nodup (r := (· ≤ ·)) (fun a b => by omega) _ hs
  rw [← List.toFinset_card_of_nodup hnd]
  congr 1
  ext x
  simp [mem_uniq, mem_sortBy]

/-- C10. After any history of events, a restart is requested only if at least `minConflicts`
clauses were learned since the last restart (or since the start), and then iff the averages ask
for it; the averages are fed with the LBDs of all learned clauses, in order. -/
theorem C10_restart_gate {F : Type} (add : F → Nat → F) (exceeds : F → Bool) (ema : F) (m : Int)
    (es : List REvent) :
    let s := es.foldl (GlucoseState.step add) (GlucoseState.init ema m)
    let fed := es.filterMap fun e => match e with | .learned n => some n | .restart => none
    s.ema = fed.foldl add ema ∧
    (s.shouldRestart exceeds = true ↔
      m ≤ learnedSince es ∧ exceeds (fed.foldl add ema) = true) := by
  have key : let s := es.foldl (GlucoseState.step add) (GlucoseState.init ema m)
      s.minConflicts = m ∧ s.countdown = m - learnedSince es ∧
      s.ema = (es.filterMap fun e => match e with
        | .learned n => some n | .restart => none).foldl add ema := by
    induction es using List.reverseRecOn with
    | nil => simp [GlucoseState.init, learnedSince]
    | append_singleton es e ih =>
      obtain ⟨h1, h2, h3⟩ := ih
      cases e with
      | learned n =>
        have hl : learnedSince (es ++ [.learned n]) = learnedSince es + 1 := by simp [learnedSince]
        simp only [List.foldl_append, List.foldl_cons, List.foldl_nil, GlucoseState.step, h1, h2, hl,
          List.filterMap_append, List.filterMap_cons, List.filterMap_nil, h3]
        refine ⟨trivial, ?_, trivial⟩
        push_cast; omega
      | restart =>
        have hl : learnedSince (es ++ [.restart]) = 0 := by simp [learnedSince]
        simp [List.foldl_append, GlucoseState.step, h1, hl, h3]
  obtain ⟨h1, h2, h3⟩ := key
  refine ⟨h3, ?_⟩
  simp only [GlucoseState.shouldRestart, Bool.and_eq_true, decide_eq_true_eq, h2, h3]
  constructor
  · rintro ⟨a, b⟩; exact ⟨by omega, b⟩
  · rintro ⟨a, b⟩; exact ⟨by omega, b⟩

/-- A trail with levels 0, 2, 2 for three variables: LBD 2. -/
example :
    let t : Trail Nat := { Trail.init with level := fun v => if v.ord = 0 then some 0 else some 2 }
    lbdOf t [Lit.pos 0, (Lit.pos 1).neg, Lit.pos 2] = some 2 := by decide

example : learnedSince (List.replicate 50 (.learned 3)) = 50 := by decide

#print axioms C10_lbd
#print axioms C10_restart_gate

end Yaga
