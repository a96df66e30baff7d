/-
The executable check loop for QF_UFLRA with `Generalized_vsids` follows the model.
-/
import Verif.Model.UfLraOrder
import Verif.Proofs.UfLraRun
import Verif.Proofs.QfOrderRun

set_option linter.unusedSectionVars false
set_option linter.unusedVariables false

namespace Yaga
namespace Ufl
open BS
open Qf (gvOrder)

variable {E : Env} {S : Type} [LinearOrder S] [ScoreOps S]

theorem gvIterRun_sound (fuel : Nat) (rs : Bool) (c : UC (GVsids S)) {out : Out (GVsids S)}
    (h : gvIterRun E fuel rs c = some out) : Iter E (gvOrder S) c out := by
  unfold gvIterRun at h
  split at h
  · cases h
  · rename_i x hp
    have hq := propRun_sound _ _ hp
    split at h
    · cases h
    · rename_i hf
      cases h
      exact .sat hq hf
    · rename_i n hf
      cases h
      exact .decideBool hq hf
    · rename_i n la0 hf
      rw [Option.map_eq_some_iff] at h
      obtain ⟨la, hd, rfl⟩ := h
      exact .decideRat hq hf hd
  · rename_i cs x hne hp
    have hq := propRun_sound _ _ hp
    have hne' : cs ≠ [] := by rintro rfl; exact hne rfl
    split at h
    · rename_i h0
      cases h
      exact .unsatZero hq hne' h0
    · rename_i h0
      split at h
      · cases h
      · rename_i learned lvl ha
        split at h
        · rename_i he
          cases h
          exact .unsatEmpty hq hne' h0 ha he
        · rename_i he
          split at h
          · rename_i L
            have hl : Check.Learned x.q.s cs (learnSelect x.q.s.t learned) (L : Int) := ⟨learned, ha, he, rfl⟩
            dsimp only at h
            split at h
            · cases h
              exact .restart hq hne' h0 hl (Qf.gvEvents_bumped c.o x.q.la _ none)
            have hev := Qf.gvEvents_bumped c.o x.q.la (learnSelect x.q.s.t learned) (some L)
            rw [Option.map_eq_some_iff] at h
            obtain ⟨q', hb, rfl⟩ := h
            unfold Qf.backtrackRun at hb
            split at hb
            · cases hb
            · rename_i c0 hc0
              split at hb
              · rename_i hsp
                split at hb
                · cases hb
                · rename_i y hx
                  split at hb
                  · rename_i hu
                    cases hb
                    exact .split hq hne' h0 hl hev hc0 hsp (List.mem_of_mem_head? hx)
                      (Option.isNone_iff_eq_none.1 hu)
                  · cases hb
              · rename_i hsp
                cases hb
                refine .uip hq hne' h0 hl hev ?_
                rw [hc0]
                simpa using hsp
          · cases h

theorem gvCheckRun_sound (fuel : Nat) (rss : List Bool) (c : UC (GVsids S)) {out : Out (GVsids S)}
    (h : gvCheckRun E fuel rss c = some out) :
    ∀ c0, Reach E (gvOrder S) c0 c → Returns E (gvOrder S) c0 out := by
  induction rss generalizing c with
  | nil => cases h
  | cons rs rss ih =>
    intro c0 hr
    unfold gvCheckRun at h
    split at h
    · rename_i c' hi
      exact ih c' h c0 (.step hr (gvIterRun_sound _ _ _ hi))
    · exact ⟨c, hr, gvIterRun_sound _ _ _ h⟩

theorem gvStart_sound (as : List Qf.BAct) {c : UC Unit} {P : List QAtom} (h : startRun E as = some (c, P)) :
    Start E P (gvStart (S := S) E c) ∧ OrderStart E (gvStart (S := S) E c) := by
  obtain ⟨⟨h1, h2, h3, h4, h5, h6, h7⟩, k1, k2, k3, k4⟩ := startRun_sound as h
  refine ⟨⟨⟨h1, h2, h3, h4, h5, h6, h7⟩, k1, k2, k3, k4⟩, _,
    .resize (.resize .new _ _ (Nat.zero_le _)) _ _ (Nat.zero_le _), ?_, rfl⟩
  funext ty
  cases ty <;> rfl

end Ufl
end Yaga
