/-
The executable check loop with `Generalized_vsids` follows the model.
-/
import Verif.Model.QfOrderRun
import Verif.Proofs.QfRun

set_option linter.unusedSectionVars false
set_option linter.unusedVariables false

namespace Yaga
namespace Qf
open BS

variable {hv : Nat → Nat} {hc : ℚ → Nat} {op : LaOpts} {S : Type} [LinearOrder S] [ScoreOps S]

theorem gvEvents_bumped (o : GVsids S) (la : LA Nat) (ls : List Clause) (L : Option Nat) :
    (gvOrder S).events o la L (gvEvents o la ls (L.getD 0)) := by
  refine ⟨ls.foldl (GVsids.onLearned la.cvars) (o.sync la.trail), ?_, rfl⟩
  suffices ∀ g, GVsids.Bumped la.cvars (o.sync la.trail) g →
      GVsids.Bumped la.cvars (o.sync la.trail) (ls.foldl (GVsids.onLearned la.cvars) g) from this _ .refl
  induction ls with
  | nil => exact fun g h => h
  | cons c ls ih => exact fun g h => ih _ (.learned h c)

theorem gvIterRun_sound (fuel : Nat) (rs : Bool) (c : QC (GVsids S)) {out : Out (GVsids S)}
    (h : gvIterRun hv hc op fuel rs c = some out) : Iter hv hc op (gvOrder S) c out := by
  unfold gvIterRun at h
  split at h
  · cases h
  · rename_i q hp
    have hq := propRun_sound _ _ hp
    split at h
    · cases h
    · rename_i hf
      cases h
      exact .sat hq hf
    · rename_i n hf
      cases h
      exact .decideBool hq hf
    · rename_i n la0 hf
      rw [Option.map_eq_some_iff] at h
      obtain ⟨la, hd, rfl⟩ := h
      exact .decideRat hq hf hd
  · rename_i cs q hne hp
    have hq := propRun_sound _ _ hp
    have hne' : cs ≠ [] := by rintro rfl; exact hne rfl
    split at h
    · rename_i h0
      cases h
      exact .unsatZero hq hne' h0
    · rename_i h0
      split at h
      · cases h
      · rename_i learned lvl ha
        split at h
        · rename_i he
          cases h
          exact .unsatEmpty hq hne' h0 ha he
        · rename_i he
          split at h
          · rename_i L
            have hl : Check.Learned q.s cs (learnSelect q.s.t learned) (L : Int) := ⟨learned, ha, he, rfl⟩
            dsimp only at h
            split at h
            · cases h
              exact .restart hq hne' h0 hl (gvEvents_bumped c.o q.la _ none)
            have hev := gvEvents_bumped c.o q.la (learnSelect q.s.t learned) (some L)
            rw [Option.map_eq_some_iff] at h
            obtain ⟨q', hb, rfl⟩ := h
            unfold backtrackRun at hb
            split at hb
            · cases hb
            · rename_i c0 hc0
              split at hb
              · rename_i hsp
                split at hb
                · cases hb
                · rename_i x hx
                  split at hb
                  · rename_i hu
                    cases hb
                    exact .split hq hne' h0 hl hev hc0 hsp (List.mem_of_mem_head? hx)
                      (Option.isNone_iff_eq_none.1 hu)
                  · cases hb
              · rename_i hsp
                cases hb
                refine .uip hq hne' h0 hl hev ?_
                rw [hc0]
                simpa using hsp
          · cases h

theorem gvCheckRun_sound (fuel : Nat) (rss : List Bool) (c : QC (GVsids S)) {out : Out (GVsids S)}
    (h : gvCheckRun hv hc op fuel rss c = some out) :
    ∀ c0, Reach hv hc op (gvOrder S) c0 c → Returns hv hc op (gvOrder S) c0 out := by
  induction rss generalizing c with
  | nil => cases h
  | cons rs rss ih =>
    intro c0 hr
    unfold gvCheckRun at h
    split at h
    · rename_i c' hi
      exact ih c' h c0 (.step hr (gvIterRun_sound _ _ _ hi))
    · exact ⟨c, hr, gvIterRun_sound _ _ _ h⟩

theorem gvFails_sound (fuel n : Nat) (c : QC (GVsids S)) (h : gvFails hv hc op fuel n c = true) :
    ∀ c0, Reach hv hc op (gvOrder S) c0 c → ∃ c q, Reach hv hc op (gvOrder S) c0 c ∧
      QProp hv hc op c.q [] q ∧ (c.o.sync q.la.trail).pickLa q.la = none := by
  induction n generalizing c with
  | zero => cases h
  | succ n ih =>
    intro c0 hr
    unfold gvFails at h
    split at h
    · rename_i q hp
      split at h
      · rename_i hn
        exact ⟨c, q, hr, propRun_sound _ _ hp, Option.isNone_iff_eq_none.1 hn⟩
      · split at h
        · rename_i c' hi
          exact ih c' h c0 (.step hr (gvIterRun_sound _ _ _ hi))
        · cases h
    · cases h

theorem gvStart_sound (as : List BAct) (A : List Clause) {c : QC Unit} {P : List QAtom}
    (h : startRun hv hc as A = some (c, P)) :
    Start hv hc A P (gvStart (S := S) A c) ∧ OrderStart A (gvStart (S := S) A c) := by
  obtain ⟨h1, h2, h3, h4, h5, h6, h7⟩ := startRun_sound as A h
  refine ⟨⟨h1, h2, h3, h4, h5, h6, h7⟩, _, .resize (.resize .new _ _ (Nat.zero_le _)) _ _ (Nat.zero_le _), ?_, rfl⟩
  funext ty
  cases ty <;> rfl

end Qf
end Yaga
