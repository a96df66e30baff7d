/-
The executable check loop for QF_LRA follows the model.
-/
import Verif.Model.QfRun
import Verif.Model.TrailHistory

set_option linter.unusedSectionVars false
set_option linter.unusedVariables false

namespace Yaga
namespace Qf
open BS

variable {hv : Nat → Nat} {hc : ℚ → Nat} {op : LaOpts}

theorem propRun_sound (fuel : Nat) (q : QS) {cs : List Clause} {q' : QS}
    (h : propRun hv hc op fuel q = some (cs, q')) : QProp hv hc op q cs q' := by
  induction fuel generalizing q with
  | zero => cases h
  | succ fuel ih =>
    unfold propRun at h
    split at h
    · cases h
    · rename_i c s hp
      cases h
      exact .boolConflict ⟨fuel, hp⟩
    · rename_i s hp
      have hP : q.s.Propagates none s := ⟨fuel, hp⟩
      simp only at h
      split at h
      · rename_i hne
        cases h
        exact .lraConflict hP rfl hne
      · rename_i hne
        have he : (withTrail q.la s.t).propagate hv hc op =
            (((withTrail q.la s.t).propagate hv hc op).1, []) := by
          rw [not_not] at hne
          exact Prod.ext rfl hne
        split at h
        · rename_i hz
          cases h
          exact .done hP he hz
        · rename_i hz
          exact .again hP he hz (ih _ h)

theorem firstFree_spec (t : Trail Nat) :
    (∀ v, firstFree t = some v → v.ord < t.numVars v.type ∧ t.level v = none) ∧
    (firstFree t = none → ∀ v : Var, v.ord < t.numVars v.type → t.level v ≠ none) := by
  unfold firstFree
  refine ⟨fun v h => ?_, fun h v hv => ?_⟩
  · have h1 := List.find?_some h
    have h2 := List.mem_of_find?_eq_some h
    refine ⟨?_, by simpa using h1⟩
    rcases List.mem_append.1 h2 with h2 | h2
    all_goals
      simp only [List.mem_map, List.mem_range] at h2
      obtain ⟨n, hn, rfl⟩ := h2
      exact hn
  · rw [List.find?_eq_none] at h
    have := h v (by
      obtain ⟨ty, n⟩ := v
      cases ty
      · exact List.mem_append_left _ (List.mem_map.2 ⟨n, List.mem_range.2 hv, rfl⟩)
      · exact List.mem_append_right _ (List.mem_map.2 ⟨n, List.mem_range.2 hv, rfl⟩))
    simpa using this

theorem iterRun_sound (fuel : Nat) (c : QC Unit) {out : Out Unit} (h : iterRun hv hc op fuel c = some out) :
    Iter hv hc op anyOrder c out := by
  unfold iterRun at h
  split at h
  · cases h
  · rename_i q hp
    have hq := propRun_sound _ _ hp
    obtain ⟨f1, f2⟩ := firstFree_spec q.la.trail
    split at h
    · rename_i hf
      cases h
      exact .sat (o := ()) hq ⟨rfl, f2 hf⟩
    · rename_i n hf
      cases h
      exact .decideBool hq ⟨rfl, f1 _ hf⟩
    · rename_i n hf
      rw [Option.map_eq_some_iff] at h
      obtain ⟨la, hd, rfl⟩ := h
      exact .decideRat hq ⟨rfl, f1 _ hf⟩ hd
  · rename_i cs q hne hp
    have hq := propRun_sound _ _ hp
    have hne' : cs ≠ [] := by rintro rfl; exact hne rfl
    split at h
    · rename_i h0
      cases h
      exact .unsatZero hq hne' h0
    · rename_i h0
      split at h
      · cases h
      · rename_i learned lvl ha
        split at h
        · rename_i he
          cases h
          exact .unsatEmpty hq hne' h0 ha he
        · rename_i he
          split at h
          · rename_i L
            rw [Option.map_eq_some_iff] at h
            obtain ⟨q', hb, rfl⟩ := h
            have hl : Check.Learned q.s cs (learnSelect q.s.t learned) (L : Int) := ⟨learned, ha, he, rfl⟩
            unfold backtrackRun at hb
            split at hb
            · cases hb
            · rename_i c0 hc0
              split at hb
              · rename_i hsp
                split at hb
                · cases hb
                · rename_i x hx
                  split at hb
                  · rename_i hu
                    cases hb
                    exact .split hq hne' h0 hl trivial hc0 hsp (List.mem_of_mem_head? hx)
                      (Option.isNone_iff_eq_none.1 hu)
                  · cases hb
              · rename_i hsp
                cases hb
                refine .uip hq hne' h0 hl trivial ?_
                rw [hc0]
                simpa using hsp
          · cases h

theorem checkRun_sound (fuel n : Nat) (c : QC Unit) {out : Out Unit} (h : checkRun hv hc op fuel n c = some out) :
    ∀ c0, Reach hv hc op anyOrder c0 c → Returns hv hc op anyOrder c0 out := by
  induction n generalizing c with
  | zero => cases h
  | succ n ih =>
    intro c0 hr
    unfold checkRun at h
    split at h
    · rename_i c' hi
      exact ih c' h c0 (.step hr (iterRun_sound _ _ hi))
    · exact ⟨c, hr, iterRun_sound _ _ h⟩

theorem buildRun_sound (as : List BAct) {la : LA Nat} {P : List QAtom} {r : LA Nat × List QAtom}
    (h : buildRun hv hc as (la, P) = some r) (hb : Built hv hc la P) : Built hv hc r.1 r.2 := by
  induction as generalizing la P with
  | nil => cases h; exact hb
  | cons a as ih =>
    cases a with
    | vars ty n =>
      unfold buildRun at h
      split at h
      · rename_i hn
        exact ih h (.resize hb ty n hn)
      · cases h
    | cons ts p q =>
      unfold buildRun at h
      split at h
      · rename_i hn
        exact ih h (.cons hb ts p q hn.1 hn.2.1 hn.2.2)
      · cases h

theorem startRun_sound (as : List BAct) (A : List Clause) {c : QC Unit} {P : List QAtom}
    (h : startRun hv hc as A = some (c, P)) : Start hv hc A P c := by
  unfold startRun at h
  split at h
  · cases h
  · rename_i la P' hb
    split at h
    · rename_i hA
      cases h
      refine ⟨buildRun_sound as hb .init, rfl, rfl, rfl, rfl, by simp [BS.new], ?_⟩
      rw [List.all_eq_true] at hA
      have hm : ∀ r < A.length, A.getD r [] ∈ A := by
        intro r hr
        rw [List.getD_eq_getElem?_getD, List.getElem?_eq_getElem hr]
        exact List.getElem_mem hr
      refine ⟨?_, ?_⟩
      · intro r hr
        have := hA _ (hm r hr)
        rw [Bool.and_eq_true_iff] at this
        simpa [BS.clause] using this.1
      · intro r hr l hl
        have := hA _ (hm r hr)
        rw [Bool.and_eq_true_iff, List.all_eq_true] at this
        simpa using this.2 l hl
    · cases h

theorem anyOrder_ok (c : QC Unit) : PicksFree hv hc op anyOrder c ∧ PicksAll hv hc op anyOrder c :=
  ⟨fun _ _ _ _ _ h => h.2, fun _ _ _ _ h => h.2⟩

end Qf
end Yaga
