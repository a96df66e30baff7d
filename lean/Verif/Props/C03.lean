/-
C03: bookkeeping of the trail, for every history of calls.
-/
import Verif.Model.TrailHistory
import Verif.Proofs.Trail

namespace Yaga
variable {R : Type}

theorem Trail.step_inv {t : Trail R} (h : t.Inv) (op : TOp R) (hp : t.Pre op) : (t.step op).Inv := by
  cases op with
  | resize ty n => exact Trail.resize_inv h ty n hp
  | decide v x => exact Trail.decide_inv h v x hp.1 hp.2.1 hp.2.2
  | propagate v r lvl x => exact Trail.propagate_inv h v r lvl x hp.1 hp.2.1 hp.2.2.1 hp.2.2.2
  | backtrack lvl => exact Trail.backtrack_inv h lvl hp
  | clear => exact Trail.clear_inv t

theorem Trail.run_inv {t t' : Trail R} {ops} (hr : Trail.Run t ops t') (h : t.Inv) : t'.Inv := by
  induction hr with
  | nil => exact h
  | cons hp _ ih => exact ih (Trail.step_inv h _ hp)

/-- C03. In every state reached by any history of calls:
* exactly the variables with a decision level have a value, and their level is at most the current
  decision level;
* an assigned variable is in the list of its own level, exactly once, with the reason reported by
  `reason()`, in no list of a lower level, and the lists it is in form an interval;
* everything in a list is assigned;
* each level above 0 starts with a variable of that level without a reason (the decision). -/
theorem C03_trail_bookkeeping (ops : List (TOp R)) (t : Trail R)
    (hr : Trail.Run Trail.init ops t) :
    (∀ v, t.isDefined v = true ↔ t.level v ≠ none) ∧
    (∀ v l, t.level v = some l → l ≤ t.decisionLevel ∧
      (∃ a ∈ t.assigned l, a.var = v ∧ a.reason = t.reason v) ∧
      ((t.assigned l).map Asg.var).count v = 1 ∧
      (∀ i, i < l → ∀ a ∈ t.assigned i, a.var ≠ v) ∧
      (∀ i j, l ≤ i → i ≤ j → (∃ a ∈ t.assigned j, a.var = v) → ∃ a ∈ t.assigned i, a.var = v)) ∧
    (∀ i, ∀ a ∈ t.assigned i, t.level a.var ≠ none) ∧
    (∀ i, 0 < i → i ≤ t.decisionLevel → ∃ a rest, t.assigned i = a :: rest ∧
      t.level a.var = some i ∧ a.reason = none) := by
  have h := Trail.run_inv hr Trail.init_inv
  have hlen := h.length_pos
  have hass : ∀ (i : Nat) a, a ∈ t.assigned i → t.levels[i]? = some (t.assigned i) := by
    intro i a ha
    rcases hx : t.levels[i]? with _ | xs
    · simp [Trail.assigned, List.getD_eq_getElem?_getD, hx] at ha
    · simp [Trail.assigned, List.getD_eq_getElem?_getD, hx]
  have hget : ∀ (i : Nat) xs, t.levels[i]? = some xs → t.assigned i = xs := by
    intro i xs hi; simp [Trail.assigned, List.getD_eq_getElem?_getD, hi]
  refine ⟨?_, ?_, ?_, ?_⟩
  · intro v
    rw [h.defined v]
    cases t.level v <;> simp
  · intro v l hl
    obtain ⟨xs, h1, a, h2, h3⟩ := h.own v l hl
    have hxs := hget l xs h1
    obtain ⟨l', h4, h5, h6⟩ := h.listed l xs a h1 h2
    refine ⟨h.bound v l hl, ⟨a, by rw [hxs]; exact h2, h3, by rw [← h6, h3]⟩, ?_, ?_, ?_⟩
    · rw [hxs]
      exact List.count_eq_one_of_mem (h.nodup l xs h1) (by rw [← h3]; exact List.mem_map_of_mem h2)
    · intro i hi b hb hbv
      obtain ⟨l'', h7, h8, -⟩ := h.listed i _ b (hass i b hb) hb
      rw [hbv, hl] at h7; cases h7; omega
    · rintro i j hli hij ⟨b, hb, hbv⟩
      have hj := hass j b hb
      have hj' : j < t.levels.length := by
        by_contra hc; rw [List.getElem?_eq_none (by omega)] at hj; cases hj
      have hi : t.levels[i]? = some (t.assigned i) := by
        rw [List.getElem?_eq_getElem (by omega), ← hget i _ (List.getElem?_eq_getElem (by omega))]
      exact h.interval v l i j _ _ hl hli hij hj ⟨b, hb, hbv⟩ hi
  · intro i a ha
    obtain ⟨l, h1, -⟩ := h.listed i _ a (hass i a ha) ha
    simp [h1]
  · intro i hpos hi
    have hi' : i < t.levels.length := by simp only [Trail.decisionLevel] at hi; omega
    obtain ⟨a, rest, h1, h2, h3⟩ := h.decision i _ hpos (List.getElem?_eq_getElem hi')
    exact ⟨a, rest, by rw [hget i _ (List.getElem?_eq_getElem hi')]; exact h1, h2, h3⟩

/-- A history with a late propagation at a level below the current one, followed by backtracking. -/
example : ∃ t : Trail Nat, Trail.Run Trail.init
    [.resize .boolean 3, .resize .rational 1, .decide (Var.bool 0) (.b true),
     .decide (Var.rat 0) (.q 2), .propagate (Var.bool 2) (some 7) 1 (.b false), .backtrack 1] t ∧
    t.level (Var.bool 2) = some 1 ∧ t.level (Var.rat 0) = none ∧ t.decisionLevel = 1 := by
  refine ⟨_, .cons ?_ (.cons ?_ (.cons ?_ (.cons ?_ (.cons ?_ (.cons ?_ (.nil _)))))), ?_⟩
  · intro v l _ h; cases h
  · intro v l _ h; simp [Trail.step, Trail.resize, Trail.init] at h
  all_goals first | decide | (simp only [Trail.Pre]; decide)

#print axioms C03_trail_bookkeeping

end Yaga
