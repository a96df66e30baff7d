/-
The loop of the solver for QF_UFLRA: propagation ends, and conflicts can be handled.
-/
import Verif.Proofs.UfLraScript
import Verif.Proofs.QfSplit
import Verif.Proofs.QfEnds

namespace Yaga
namespace Ufl
open Spec BS Check TermTable Internalizer
open Qf (CoreQ TheoryQ BoolOk BoolInv DecOk)

variable {E : Env} {H : TermHash} {I : Interp} {A : List Clause} {b : Bool} {O : Type} {W : QOrder O}

/-- One round of `Theory_combination::propagate` up to the plugin for functions. -/
theorem dec_uf (hO : Ok H E) {stg : Yaga.Stage} {d : Bool} {s : BS} {la la' : LA Nat} {f : FS}
    (h2 : Inv E I A true stg d ⟨⟨s, la⟩, f⟩) (h1 : stg ≠ .conflict)
    (hp : la.propagate E.cfg.hv E.cfg.hc E.op = (la', [])) (hd : DecOk s.t) {u : UF Nat} {cs : List Clause}
    (hu : UF.propagate E.cfg E.s (view E.st la' f) = some (u, cs)) : DecOk (absorb la' u).trail := by
  obtain ⟨w, g1, g2, g3⟩ := lra_frame h2.core.reach h1 hp
  have k := inv_lra hO h2 g1 g2 g3
  obtain ⟨-, -, ⟨stg2, hst, u3, u4⟩, -⟩ := uf_call (I := I) (A := A) hO g1
    (by rw [if_neg (by simp)]; split <;> simp) k.uf hu
  exact Qf.dec_frame (Qf.dec_lra h2.core hd hp) rfl u4

theorem dec_prop (hO : Ok H E) {x x' : US} {cs : List Clause} (hp : UProp E x cs x') :
    ∀ {b : Bool} {stg : Yaga.Stage} {d : Bool}, Inv E I A b stg d x → stg ≠ .conflict → DecOk x.q.s.t →
      DecOk x'.q.s.t := by
  induction hp with
  | @boolConflict x s c h =>
    intro b stg d hI hs hd
    obtain ⟨w, hg⟩ := hI.core.reach.good
    exact Qf.dec_propagates (hI.core.good _ hg.keep.base.inv (LinStore.Kept.refl _)) hd h
  | @lraConflict x s la cs h hp hne =>
    intro b stg d hI hs hd
    obtain ⟨w, hg⟩ := hI.core.reach.good
    obtain ⟨stg', h1, h2, _⟩ := inv_bool hO hI hs h
    exact Qf.dec_lra h2.core (Qf.dec_propagates (hI.core.good _ hg.keep.base.inv (LinStore.Kept.refl _)) hd h) hp
  | @ufConflict x s la u cs h hp hu hne =>
    intro b stg d hI hs hd
    obtain ⟨w, hg⟩ := hI.core.reach.good
    obtain ⟨stg', h1, h2, _⟩ := inv_bool hO hI hs h
    exact dec_uf hO h2 h1 hp (Qf.dec_propagates (hI.core.good _ hg.keep.base.inv (LinStore.Kept.refl _)) hd h) hu
  | @done x s la u h hp hu hz =>
    intro b stg d hI hs hd
    obtain ⟨w, hg⟩ := hI.core.reach.good
    obtain ⟨stg', h1, h2, _⟩ := inv_bool hO hI hs h
    exact dec_uf hO h2 h1 hp (Qf.dec_propagates (hI.core.good _ hg.keep.base.inv (LinStore.Kept.refl _)) hd h) hu
  | @again x x' s la u cs h hp hu hz hr ih =>
    intro b stg d hI hs hd
    obtain ⟨w0, hg⟩ := hI.core.reach.good
    obtain ⟨stg', h1, h2, _⟩ := inv_bool hO hI hs h
    have hd' := dec_uf hO h2 h1 hp
      (Qf.dec_propagates (hI.core.good _ hg.keep.base.inv (LinStore.Kept.refl _)) hd h) hu
    obtain ⟨w, g1, g2, g3⟩ := lra_frame h2.core.reach h1 hp
    have k := inv_lra hO h2 g1 g2 g3
    obtain ⟨u1, u2, -, -⟩ := uf_call (I := I) (A := A) hO g1
      (by rw [if_neg (by simp)]; split <;> simp) k.uf hu
    have ea := u2 rfl
    rw [ea] at u1 ih hd'
    exact ih (⟨k.core, k.num, u1⟩ : Inv E I A true _ _ ⟨⟨Qf.follow s la, la⟩, .of u⟩)
      (by rw [if_neg (by simp)]; split <;> simp) hd'

theorem dec_iter (hO : Ok H E) {stg : Yaga.Stage} {d : Bool} {c c' : UC O} (h : Inv E I A b stg d c.u)
    (hs : stg ≠ .conflict) (hd : DecOk c.u.q.s.t) (hP : PicksFree E W c) (hi : Iter E W c (.run c')) :
    DecOk c'.u.q.s.t := by
  cases hi with
  | @restart cs x ls lvl o hp hne h0 hl he =>
    intro o l h1
    cases h1
  | @uip cs x ls L o hp hne h0 hl he hsp =>
    obtain ⟨stg', d', h1, _, h2, _⟩ := inv_prop hO hp h hs
    exact Qf.dec_uip h1.core (dec_prop hO hp h hs hd) h2 h0 hl
  | @split cs x ls L o c0 y hp hne h0 hl he hc0 hsp hx hu =>
    obtain ⟨stg', d', h1, _, h2, _⟩ := inv_prop hO hp h hs
    exact Qf.dec_split h1.core (dec_prop hO hp h hs hd) h2 h0 hl hc0 hx hu
  | @decideBool x o la0 n hp hpk =>
    obtain ⟨stg', d', h1, h4, _, _⟩ := inv_prop hO hp h hs
    obtain ⟨g1, g2⟩ := hP _ _ _ _ hp hpk
    rw [h1.core.trail] at g1 g2
    exact Qf.dec_decideBool h1.core (dec_prop hO hp h hs hd) g1 g2
  | @decideRat x o la0 n fuel la hp hpk hde =>
    obtain ⟨stg', d', h1, h4, _, _⟩ := inv_prop hO hp h hs
    obtain ⟨rfl, rfl⟩ := h4 rfl
    obtain ⟨g1, g2⟩ := hP _ _ _ _ hp hpk
    rw [h1.core.trail] at g1 g2
    exact Qf.dec_decideRat (Qf.core_queried h1.core (W.queried hpk)) (dec_prop hO hp h hs hd) g1 g2 hde

theorem dec_reach (hO : Ok H E) (h0 : UF.Inv E.s E.st (UF.start Nat E.s E.st) true) {P : List QAtom} {c0 c : UC O}
    (h : Start E P c0) (hP : ∀ c, Reach E W c0 c → PicksFree E W c) (hr : Reach E W c0 c) : DecOk c.u.q.s.t := by
  induction hr with
  | refl => exact Qf.dec_start h.qf
  | @step c c' hr hi ih =>
    obtain ⟨b, stg, d, hs, hI, -⟩ :=
      inv_reach (I := ⟨fun _ => false, fun _ => 0, fun _ _ => false, fun _ _ => 0⟩) hO h0 h hP hr
    exact dec_iter hO hI hs ih (hP c hr) hi

/-- The loop of `Theory_combination::propagate` ends. -/
theorem prop_ends (hO : Ok H E) {stg : Yaga.Stage} {d : Bool} {x : US} (h : Inv E I A b stg d x) (hs : stg ≠ .conflict) :
    ∃ cs x', UProp E x cs x' := by
  obtain ⟨n, hn⟩ : ∃ n, n = x.q.s.t.bools.num + x.q.s.t.rats.num - Qf.recentSize x.q.s.t := ⟨_, rfl⟩
  induction n using Nat.strong_induction_on generalizing x stg d b with
  | _ n ih =>
  obtain ⟨c, s', hp⟩ := propagates_ends x.q.s
  cases c with
  | some c => exact ⟨_, _, .boolConflict hp⟩
  | none =>
    obtain ⟨stg1, h1, c1, e1, l1, -⟩ := inv_bool hO h hs hp
    cases hq : E.lra x.q s' with
    | mk la cs =>
    by_cases hne : cs = []
    · subst hne
      obtain ⟨c2, e2, e3, l2, -⟩ := Qf.core_lra c1.core h1 hq
      obtain ⟨w', g1, g2, g3⟩ := lra_frame c1.core.reach h1 hq
      have k := inv_lra hO c1 g1 g2 g3
      obtain ⟨u, cs, hu, -, -⟩ := UF.propagate_spec hO.wf (cfg := E.cfg) k.uf
      by_cases hcs : cs = []
      · subst hcs
        obtain ⟨u1, u2, -, -⟩ := uf_call (I := I) (A := A) hO g1
          (by rw [if_neg (by simp)]; split <;> simp) k.uf hu
        have ea := u2 rfl
        have et : u.trail = la.trail := congrArg LA.trail ea
        by_cases hz : Qf.recentSize x.q.s.t = Qf.recentSize u.trail
        · exact ⟨_, _, .done hp hq hu hz⟩
        · obtain ⟨w, hg⟩ := c1.core.reach.good
          obtain ⟨w0, hgq⟩ := h.core.reach.good
          have hG0 := h.core.good _ hgq.keep.base.inv (LinStore.Kept.refl _)
          have n1 : la.trail.bools.num = x.q.s.t.bools.num := by
            have hq' : (Qf.withTrail x.q.la s'.t).propagate E.cfg.hv E.cfg.hc E.op = (la, []) := hq
            have := hg.num_propagate (o := E.op) (by rw [hq'])
            rw [hq'] at this
            rw [← Qf.propagates_num hG0 hp]
            exact this
          have n2 : la.trail.rats = x.q.s.t.rats := by
            rw [← Qf.propagates_rats hG0 hp]
            exact g3.rats
          have n3 : Qf.recentSize x.q.s.t ≤ Qf.recentSize la.trail := by
            unfold Qf.recentSize
            rw [e2, e1]
            exact ((l1 _).trans (l2 _)).length_le
          have n4 := Qf.recentSize_le g2.keep.base.tinv
          rw [n1, n2] at n4
          rw [et] at hz
          have hft : (Qf.follow s' la).t = la.trail := rfl
          have hz' : Qf.recentSize x.q.s.t ≠ Qf.recentSize u.trail := by rw [et]; exact hz
          rw [ea] at u1
          obtain ⟨cs, x', hr⟩ := ih (x.q.s.t.bools.num + x.q.s.t.rats.num - Qf.recentSize la.trail) (by omega)
            (⟨k.core, k.num, u1⟩ : Inv E I A true _ _ ⟨⟨Qf.follow s' la, la⟩, .of u⟩)
            (by rw [if_neg (by simp)]; split <;> simp) (by rw [hft, n1, n2])
          rw [← ea] at hr
          exact ⟨cs, x', .again hp hq hu hz' hr⟩
      · exact ⟨_, _, .ufConflict hp hq hu hcs⟩
    · exact ⟨_, _, .lraConflict hp hq hne⟩

/-- A round without conflict keeps the invariant. -/
theorem inv_round (hO : Ok H E) {stg : Yaga.Stage} {d : Bool} {x x' : US} (h : Inv E I A b stg d x) (hs : stg ≠ .conflict)
    (hr : Round E x x') : ∃ stg' d', stg' ≠ .conflict ∧ Inv E I A true stg' d' x' := by
  obtain ⟨s, la, u, hp, hq, hu, rfl⟩ := hr
  obtain ⟨stg1, h1, c1, e1, l1, -⟩ := inv_bool hO h hs hp
  obtain ⟨w', g1, g2, g3⟩ := lra_frame c1.core.reach h1 hq
  have k := inv_lra hO c1 g1 g2 g3
  obtain ⟨u1, u2, -, -⟩ := uf_call (I := I) (A := A) hO g1
    (by rw [if_neg (by simp)]; split <;> simp) k.uf hu
  rw [u2 rfl] at u1 ⊢
  exact ⟨_, _, by rw [if_neg (by simp)]; split <;> simp, k.core, k.num, u1⟩

theorem inv_rounds (hO : Ok H E) {stg : Yaga.Stage} {d : Bool} {x x' : US} (h : Inv E I A b stg d x) (hs : stg ≠ .conflict)
    (hr : Relation.ReflTransGen (Round E) x x') : ∃ b' stg' d', stg' ≠ .conflict ∧ Inv E I A b' stg' d' x' := by
  induction hr with
  | refl => exact ⟨_, _, _, hs, h⟩
  | tail _ hr ih =>
    obtain ⟨b', stg', d', h1, h2⟩ := ih
    obtain ⟨stg2, d2, h3, h4⟩ := inv_round hO h2 h1 hr
    exact ⟨_, _, _, h3, h4⟩

end Ufl
end Yaga
