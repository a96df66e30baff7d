/-
C50: event delivery.
-/
import Verif.Model.Events
import Mathlib.Data.List.Induction
import Mathlib.Data.List.Nodup
import Mathlib.Data.List.Pairwise

namespace Yaga
variable {L E : Type} [DecidableEq L]

/-- Position (1-based) of the last `add l` that is not followed by a `remove l`; 0 if `l` is not
registered. -/
def Spec.registeredAt (ops : List (DOp L E)) (l : L) : Nat :=
  (ops.foldl (fun (p : Nat × Nat) op => (p.1 + 1, match op with
    | .add l' => if l' = l then p.1 + 1 else p.2
    | .remove l' => if l' = l then 0 else p.2
    | .raise _ => p.2)) (0, 0)).2

/-- No listener is added while it is already registered. -/
def Spec.NoDoubleAdd (ops : List (DOp L E)) : Prop :=
  ∀ pre l post, ops = pre ++ DOp.add l :: post → Spec.registeredAt pre l = 0

open Spec

theorem registeredAt_snoc (ops : List (DOp L E)) (op : DOp L E) (l : L) :
    registeredAt (ops ++ [op]) l = match op with
      | .add l' => if l' = l then ops.length + 1 else registeredAt ops l
      | .remove l' => if l' = l then 0 else registeredAt ops l
      | .raise _ => registeredAt ops l := by
  have hlen : ∀ (ops : List (DOp L E)) (p : Nat × Nat),
      (ops.foldl (fun (p : Nat × Nat) op => (p.1 + 1, match op with
        | .add l' => if l' = l then p.1 + 1 else p.2
        | .remove l' => if l' = l then 0 else p.2
        | .raise _ => p.2)) p).1 = p.1 + ops.length := by
    intro ops
    induction ops with
    | nil => simp
    | cons o os ih => intro p; simp [ih]; omega
  unfold registeredAt
  rw [List.foldl_append]
  simp only [List.foldl_cons, List.foldl_nil, hlen]
  cases op <;> simp

theorem registeredAt_le (ops : List (DOp L E)) (l : L) : registeredAt ops l ≤ ops.length := by
  induction ops using List.reverseRecOn with
  | nil => simp [registeredAt]
  | append_singleton ops op ih =>
    rw [registeredAt_snoc]
    cases op <;> simp only [List.length_append, List.length_singleton] <;> (try split) <;> omega

theorem dispatcher_listeners (ops : List (DOp L E)) (h : NoDoubleAdd ops) :
    (∀ l, l ∈ (Dispatcher.run ops).listeners ↔ registeredAt ops l ≠ 0) ∧
    (Dispatcher.run ops).listeners.Pairwise
      (fun a b => registeredAt ops a < registeredAt ops b) := by
  induction ops using List.reverseRecOn with
  | nil => simp [Dispatcher.run, registeredAt]
  | append_singleton ops op ih =>
    have h' : NoDoubleAdd ops := by
      intro pre l post he
      exact h pre l (post ++ [op]) (by rw [he]; simp)
    obtain ⟨ih1, ih2⟩ := ih h'
    have hrun : Dispatcher.run (ops ++ [op]) = (Dispatcher.run ops).step op := by
      simp [Dispatcher.run]
    have hnd : (Dispatcher.run ops).listeners.Nodup := by
      rw [List.nodup_iff_pairwise_ne]
      exact ih2.imp (by rintro a b hab rfl; omega)
    rw [hrun]
    cases op with
    | raise e => simpa [Dispatcher.step, registeredAt_snoc] using ⟨ih1, ih2⟩
    | add l0 =>
      have h0 : registeredAt ops l0 = 0 := h ops l0 [] rfl
      have hnot : l0 ∉ (Dispatcher.run ops).listeners := fun hm => (ih1 l0).1 hm h0
      refine ⟨?_, ?_⟩
      · intro l
        simp only [Dispatcher.step, List.mem_append, List.mem_singleton, registeredAt_snoc, ih1 l]
        by_cases e : l0 = l
        · subst e; simp
        · have e' : ¬ l = l0 := fun h => e h.symm
          simp [e, e']
      · simp only [Dispatcher.step]
        rw [List.pairwise_append]
        refine ⟨?_, by simp, ?_⟩
        · refine ih2.imp_of_mem ?_
          intro a b ha hb hab
          have ea : l0 ≠ a := by rintro rfl; exact hnot ha
          have eb : l0 ≠ b := by rintro rfl; exact hnot hb
          simpa [registeredAt_snoc, ea, eb] using hab
        · intro a ha b hb
          simp only [List.mem_singleton] at hb
          subst hb
          have ea : b ≠ a := by rintro rfl; exact hnot ha
          have := registeredAt_le ops a
          simp [registeredAt_snoc, ea]; omega
    | remove l0 =>
      have hmem : ∀ l, l ∈ (Dispatcher.run ops).listeners.erase l0 ↔
          l ≠ l0 ∧ l ∈ (Dispatcher.run ops).listeners := fun l => hnd.mem_erase_iff
      refine ⟨?_, ?_⟩
      · intro l
        simp only [Dispatcher.step, hmem, registeredAt_snoc, ih1 l]
        by_cases e : l0 = l
        · subst e; simp
        · have e' : l ≠ l0 := fun h => e h.symm
          simp [e, e']
      · simp only [Dispatcher.step]
        refine (ih2.sublist List.erase_sublist).imp_of_mem ?_
        intro a b ha hb hab
        have ea : l0 ≠ a := fun h => ((hmem a).1 ha).1 h.symm
        have eb : l0 ≠ b := fun h => ((hmem b).1 hb).1 h.symm
        simpa [registeredAt_snoc, ea, eb] using hab

/-- C50. After any history in which no listener is added while registered, raising an event calls
exactly the registered listeners, each once, in the order of registration. -/
theorem C50_event_delivery (ops : List (DOp L E)) (h : NoDoubleAdd ops) (e : E) :
    ∃ ls : List L, (Dispatcher.run (ops ++ [.raise e])).log =
        (Dispatcher.run ops).log ++ ls.map (fun l => (l, e)) ∧
      (∀ l, l ∈ ls ↔ registeredAt ops l ≠ 0) ∧ ls.Nodup ∧
      ls.Pairwise (fun a b => registeredAt ops a < registeredAt ops b) := by
  obtain ⟨h1, h2⟩ := dispatcher_listeners ops h
  refine ⟨(Dispatcher.run ops).listeners, ?_, h1, ?_, h2⟩
  · simp [Dispatcher.run, Dispatcher.step]
  · rw [List.nodup_iff_pairwise_ne]
    exact h2.imp (by rintro a b hab rfl; omega)

/-- Adding and removing does not deliver anything. -/
theorem C50_only_events_deliver (ops : List (DOp L E)) (l : L) :
    (Dispatcher.run (ops ++ [.add l])).log = (Dispatcher.run ops).log ∧
    (Dispatcher.run (ops ++ [.remove l])).log = (Dispatcher.run ops).log := by
  simp [Dispatcher.run, Dispatcher.step]

/-- Listener 2 is removed and 1 re-registered: the event reaches 3 and then 1. -/
example :
    (Dispatcher.run (L := Nat) (E := Unit)
      [.add 1, .add 2, .add 3, .remove 2, .remove 1, .add 1, .raise ()]).log = [(3, ()), (1, ())] ∧
    registeredAt (L := Nat) (E := Unit) [.add 1, .add 2, .add 3, .remove 2, .remove 1, .add 1] 1 = 6 := by
  decide

#print axioms C50_event_delivery
#print axioms C50_only_events_deliver

end Yaga
