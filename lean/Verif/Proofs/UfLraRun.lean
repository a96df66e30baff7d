/-
The executable check loop for QF_UFLRA follows the model.
-/
import Verif.Model.UfLraRun
import Verif.Proofs.QfRun

set_option linter.unusedSectionVars false
set_option linter.unusedVariables false

namespace Yaga
namespace Ufl
open BS
open Qf (anyOrder)

variable {E : Env} {prio : List Var}

theorem propRun_sound (fuel : Nat) (x : US) {cs : List Clause} {x' : US}
    (h : propRun E fuel x = some (cs, x')) : UProp E x cs x' := by
  induction fuel generalizing x with
  | zero => cases h
  | succ fuel ih =>
    unfold propRun at h
    split at h
    · cases h
    · rename_i c s hp
      cases h
      exact .boolConflict ⟨fuel, hp⟩
    · rename_i s hp
      have hP : x.q.s.Propagates none s := ⟨fuel, hp⟩
      simp only at h
      split at h
      · rename_i hne
        cases h
        exact .lraConflict hP rfl hne
      · rename_i hne
        have he : E.lra x.q s = ((E.lra x.q s).1, []) := by
          rw [not_not] at hne
          exact Prod.ext rfl hne
        split at h
        · cases h
        · rename_i u cs' hu
          split at h
          · rename_i hne'
            cases h
            exact .ufConflict hP he hu hne'
          · rename_i hne'
            rw [not_not] at hne'
            subst hne'
            split at h
            · rename_i hz
              cases h
              exact .done hP he hu hz
            · rename_i hz
              exact .again hP he hu hz (ih _ h)

theorem firstOf_spec (t : Trail Nat) :
    (∀ v, firstOf prio t = some v → v.ord < t.numVars v.type ∧ t.level v = none) ∧
    (firstOf prio t = none → ∀ v : Var, v.ord < t.numVars v.type → t.level v ≠ none) := by
  obtain ⟨f1, f2⟩ := Qf.firstFree_spec t
  unfold firstOf
  split
  · rename_i w hw
    have := List.find?_some hw
    simp only [Bool.and_eq_true, decide_eq_true_eq, Option.isNone_iff_eq_none] at this
    refine ⟨fun v hv => ?_, fun h => by cases h⟩
    cases hv; exact this
  · exact ⟨f1, f2⟩

theorem iterRun_sound (fuel : Nat) (c : UC Unit) {out : Out Unit} (h : iterRun E prio fuel c = some out) :
    Iter E anyOrder c out := by
  unfold iterRun at h
  split at h
  · cases h
  · rename_i x hp
    have hq := propRun_sound _ _ hp
    obtain ⟨f1, f2⟩ := firstOf_spec (prio := prio) x.q.la.trail
    split at h
    · rename_i hf
      cases h
      exact .sat (o := ()) hq ⟨rfl, f2 hf⟩
    · rename_i n hf
      cases h
      exact .decideBool hq ⟨rfl, f1 _ hf⟩
    · rename_i n hf
      rw [Option.map_eq_some_iff] at h
      obtain ⟨la, hd, rfl⟩ := h
      exact .decideRat hq ⟨rfl, f1 _ hf⟩ hd
  · rename_i cs x hne hp
    have hq := propRun_sound _ _ hp
    have hne' : cs ≠ [] := by rintro rfl; exact hne rfl
    split at h
    · rename_i h0
      cases h
      exact .unsatZero hq hne' h0
    · rename_i h0
      split at h
      · cases h
      · rename_i learned lvl ha
        split at h
        · rename_i he
          cases h
          exact .unsatEmpty hq hne' h0 ha he
        · rename_i he
          split at h
          · rename_i L
            rw [Option.map_eq_some_iff] at h
            obtain ⟨q', hb, rfl⟩ := h
            have hl : Check.Learned x.q.s cs (learnSelect x.q.s.t learned) (L : Int) := ⟨learned, ha, he, rfl⟩
            unfold Qf.backtrackRun at hb
            split at hb
            · cases hb
            · rename_i c0 hc0
              split at hb
              · rename_i hsp
                split at hb
                · cases hb
                · rename_i y hy
                  split at hb
                  · rename_i hu
                    cases hb
                    exact .split hq hne' h0 hl trivial hc0 hsp (List.mem_of_mem_head? hy)
                      (Option.isNone_iff_eq_none.1 hu)
                  · cases hb
              · rename_i hsp
                cases hb
                refine .uip hq hne' h0 hl trivial ?_
                rw [hc0]
                simpa using hsp
          · cases h

theorem checkRun_sound (fuel n : Nat) (c : UC Unit) {out : Out Unit} (h : checkRun E prio fuel n c = some out) :
    ∀ c0, Reach E anyOrder c0 c → Returns E anyOrder c0 out := by
  induction n generalizing c with
  | zero => cases h
  | succ n ih =>
    intro c0 hr
    unfold checkRun at h
    split at h
    · rename_i c' hi
      exact ih c' h c0 (.step hr (iterRun_sound _ _ hi))
    · exact ⟨c, hr, iterRun_sound _ _ h⟩

theorem stepsRun_sound (fuel n : Nat) (c : UC Unit) {c' : UC Unit} (h : stepsRun E prio fuel n c = some c') :
    ∀ c0, Reach E anyOrder c0 c → Reach E anyOrder c0 c' := by
  induction n generalizing c with
  | zero => intro c0 hr; cases h; exact hr
  | succ n ih =>
    intro c0 hr
    unfold stepsRun at h
    split at h
    · rename_i c1 hi
      exact ih c1 h c0 (.step hr (iterRun_sound _ _ hi))
    · cases h

theorem startRun_sound (as : List Qf.BAct) {c : UC Unit} {P : List QAtom} (h : startRun E as = some (c, P)) :
    Start E P c := by
  unfold startRun at h
  split at h
  · cases h
  · rename_i c0 P0 hs
    split at h
    · rename_i he
      cases h
      obtain ⟨e1, e2, e3, e4, e5, e6⟩ := he
      refine ⟨Qf.startRun_sound _ _ hs, ?_, e5, e6, rfl⟩
      show c0.q.la.store = E.st.store
      generalize c0.q.la.store = a at e1 e2 e3 e4
      generalize E.st.store = b at e1 e2 e3 e4
      obtain ⟨a1, a2, a3, a4⟩ := a
      obtain ⟨b1, b2, b3, b4⟩ := b
      cases e1; cases e2; cases e3; cases e4
      rfl
    · cases h

theorem anyOrder_ok (c : UC Unit) : PicksFree E anyOrder c ∧ PicksAll E anyOrder c :=
  ⟨fun _ _ _ _ _ h => h.2, fun _ _ _ _ h => h.2⟩

end Ufl
end Yaga
