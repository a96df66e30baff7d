/-
The solver for QF_UFLRA with `Generalized_vsids`: invariant of the loop for the variable order.
-/
import Verif.Proofs.UfLraScript
import Verif.Proofs.QfOrder
import Verif.Model.UfLraOrder

namespace Yaga
namespace Ufl
open Spec BS Check TermTable Internalizer GVsids
open Qf (CoreQ TheoryQ BoolOk BoolInv Moves Later OHead OProp gvOrder)

variable {E : Env} {H : TermHash} {I : Interp} {A : List Clause} {b : Bool} {S : Type} [LinearOrder S] [ScoreOps S]

/-- The plugins for linear arithmetic and functions after the Boolean plugin. -/
theorem uf_later (hO : Ok H E) {stg : Yaga.Stage} {d : Bool} {s : BS} {la la' : LA Nat} {f : FS}
    (h2 : Inv E I A true stg d ⟨⟨s, la⟩, f⟩) (h1 : stg ≠ .conflict)
    (hp : la.propagate E.cfg.hv E.cfg.hc E.op = (la', [])) {u : UF Nat} {cs : List Clause}
    (hu : UF.propagate E.cfg E.s (view E.st la' f) = some (u, cs)) :
    Moves s (Qf.follow s (absorb la' u)) ∧ Later s.t (Qf.follow s (absorb la' u)).t := by
  obtain ⟨w, g1, g2, g3⟩ := lra_frame h2.core.reach h1 hp
  have k := inv_lra hO h2 g1 g2 g3
  obtain ⟨-, -, ⟨stg2, hst, u3, u4⟩, -⟩ := uf_call (I := I) (A := A) hO g1
    (by rw [if_neg (by simp)]; split <;> simp) k.uf hu
  exact Qf.frame_later (la := la.takeAssigned.1) h2.core.trail (g3.trans u4)

/-- `Theory_combination::propagate` moves literals in clauses and assigns variables. -/
theorem prop_later (hO : Ok H E) {x x' : US} {cs : List Clause} (hp : UProp E x cs x') :
    ∀ {b : Bool} {stg : Yaga.Stage} {d : Bool}, Inv E I A b stg d x → stg ≠ .conflict →
      Moves x.q.s x'.q.s ∧ Later x.q.s.t x'.q.s.t := by
  induction hp with
  | @boolConflict x s c h =>
    intro b stg d hI hs
    obtain ⟨w, hg⟩ := hI.core.reach.good
    exact Qf.propagates_later (hI.core.good _ hg.keep.base.inv (LinStore.Kept.refl _)) h
  | @lraConflict x s la cs h hp hne =>
    intro b stg d hI hs
    obtain ⟨w, hg⟩ := hI.core.reach.good
    obtain ⟨stg', h1, h2, _⟩ := inv_bool hO hI hs h
    obtain ⟨a1, a2⟩ := Qf.propagates_later (hI.core.good _ hg.keep.base.inv (LinStore.Kept.refl _)) h
    obtain ⟨w, g1, g2, g3⟩ := lra_frame h2.core.reach h1 hp
    obtain ⟨b1, b2⟩ := Qf.frame_later (la := (Qf.withTrail x.q.la s.t).takeAssigned.1) h2.core.trail g3
    exact ⟨a1.trans b1, a2.trans b2⟩
  | @ufConflict x s la u cs h hp hu hne =>
    intro b stg d hI hs
    obtain ⟨w, hg⟩ := hI.core.reach.good
    obtain ⟨stg', h1, h2, _⟩ := inv_bool hO hI hs h
    obtain ⟨a1, a2⟩ := Qf.propagates_later (hI.core.good _ hg.keep.base.inv (LinStore.Kept.refl _)) h
    obtain ⟨b1, b2⟩ := uf_later hO h2 h1 hp hu
    exact ⟨a1.trans b1, a2.trans b2⟩
  | @done x s la u h hp hu hz =>
    intro b stg d hI hs
    obtain ⟨w, hg⟩ := hI.core.reach.good
    obtain ⟨stg', h1, h2, _⟩ := inv_bool hO hI hs h
    obtain ⟨a1, a2⟩ := Qf.propagates_later (hI.core.good _ hg.keep.base.inv (LinStore.Kept.refl _)) h
    obtain ⟨b1, b2⟩ := uf_later hO h2 h1 hp hu
    exact ⟨a1.trans b1, a2.trans b2⟩
  | @again x x' s la u cs h hp hu hz hr ih =>
    intro b stg d hI hs
    obtain ⟨w0, hg⟩ := hI.core.reach.good
    obtain ⟨stg', h1, h2, _⟩ := inv_bool hO hI hs h
    obtain ⟨a1, a2⟩ := Qf.propagates_later (hI.core.good _ hg.keep.base.inv (LinStore.Kept.refl _)) h
    obtain ⟨b1, b2⟩ := uf_later hO h2 h1 hp hu
    obtain ⟨w, g1, g2, g3⟩ := lra_frame h2.core.reach h1 hp
    have k := inv_lra hO h2 g1 g2 g3
    obtain ⟨u1, u2, -, -⟩ := uf_call (I := I) (A := A) hO g1
      (by rw [if_neg (by simp)]; split <;> simp) k.uf hu
    have ea := u2 rfl
    rw [ea] at u1 ih b1 b2
    obtain ⟨c1, c2⟩ := ih (⟨k.core, k.num, u1⟩ : Inv E I A true _ _ ⟨⟨Qf.follow s la, la⟩, .of u⟩)
      (by rw [if_neg (by simp)]; split <;> simp)
    exact ⟨(a1.trans b1).trans c1, (a2.trans b2).trans c2⟩

theorem o_prop (hO : Ok H E) {c : UC (GVsids S)} {x : US} {cs : List Clause} {stg : Yaga.Stage} {d : Bool}
    (h : OHead c.u.q c.o) (hI : Inv E I A b stg d c.u) (hs : stg ≠ .conflict) (hp : UProp E c.u cs x) :
    OProp x.q c.o := by
  obtain ⟨h1, h2⟩ := prop_later hO hp hI hs
  obtain ⟨stg', d', g1, -⟩ := inv_prop hO hp hI hs
  exact OHead.prop h h1 h2 g1.core

theorem o_picks (hO : Ok H E) {c : UC (GVsids S)} {stg : Yaga.Stage} {d : Bool} (h : OHead c.u.q c.o)
    (hI : Inv E I A b stg d c.u) (hs : stg ≠ .conflict) (hB : BoolInv A c.u.q.s) :
    PicksFree E (gvOrder S) c ∧ PicksAll E (gvOrder S) c := by
  have key : ∀ x, UProp E c.u [] x → ∀ v o' la', (gvOrder S).pick c.o x.q.la v o' la' →
      (∀ y, v = some y → inRange x.q.la.trail y ∧ x.q.la.trail.level y = none) ∧
      (v = none → ∀ y, inRange x.q.la.trail y → x.q.la.trail.level y ≠ none) := by
    intro x hp v o' la' hpk
    obtain ⟨stg', d', g1, -, -, g2⟩ := inv_prop hO hp hI hs
    exact (o_prop hO h hI hs hp).picks g1.core (by simpa using g2 hB) hpk
  exact ⟨fun x v o' la' hp hpk => (key x hp _ _ _ hpk).1 v rfl, fun x o' la' hp hpk => (key x hp _ _ _ hpk).2 rfl⟩

theorem o_iter (hO : Ok H E) {c c' : UC (GVsids S)} {stg : Yaga.Stage} {d : Bool} (h : OHead c.u.q c.o)
    (hI : Inv E I A b stg d c.u) (hs : stg ≠ .conflict) (hB : BoolInv A c.u.q.s)
    (hi : Iter E (gvOrder S) c (.run c')) : OHead c'.u.q c'.o := by
  have hP := (o_picks hO h hI hs hB).1
  cases hi with
  | @restart cs x ls lvl o hp hne h0 hl he =>
    obtain ⟨stg', d', h1, _, h2, h3⟩ := inv_prop hO hp hI hs
    have hB' := h3 hB
    rw [if_neg hne] at hB'
    exact (o_prop hO h hI hs hp).restart h1.core hB' h2 hl he _
  | @uip cs x ls L o hp hne h0 hl he hsp =>
    obtain ⟨stg', d', h1, _, h2, h3⟩ := inv_prop hO hp hI hs
    have hB' := h3 hB
    rw [if_neg hne] at hB'
    exact (o_prop hO h hI hs hp).uip h1.core hB' h2 h0 hl he
  | @split cs x ls L o c0 y hp hne h0 hl he hc0 hsp hx hu =>
    obtain ⟨stg', d', h1, _, h2, h3⟩ := inv_prop hO hp hI hs
    have hB' := h3 hB
    rw [if_neg hne] at hB'
    exact (o_prop hO h hI hs hp).split h1.core hB' h2 h0 hl he hu
  | @decideBool x o la0 n hp hpk =>
    obtain ⟨stg', d', h1, h4, _, h3⟩ := inv_prop hO hp hI hs
    obtain ⟨g1, g2⟩ := hP _ _ _ _ hp hpk
    exact (o_prop hO h hI hs hp).decideBool h1.core hpk g2
  | @decideRat x o la0 n fuel la hp hpk hd =>
    obtain ⟨stg', d', h1, h4, _, h3⟩ := inv_prop hO hp hI hs
    obtain ⟨rfl, rfl⟩ := h4 rfl
    obtain ⟨g1, g2⟩ := hP _ _ _ _ hp hpk
    exact (o_prop hO h hI hs hp).decideRat h1.core hpk g1 g2 hd

/-- All reachable states with `Generalized_vsids`. -/
theorem gv_reach (hO : Ok H E) (h0 : UF.Inv E.s E.st (UF.start Nat E.s E.st) true) {P : List QAtom}
    {c0 c : UC (GVsids S)} (h : Start E P c0) (ho : OrderStart E c0) (hr : Reach E (gvOrder S) c0 c) :
    OHead c.u.q c.o ∧ ∃ b stg d, stg ≠ .conflict ∧ Inv E I E.st.clauses b stg d c.u ∧
      BoolInv E.st.clauses c.u.q.s := by
  induction hr with
  | refl =>
    obtain ⟨h1, h2⟩ := inv_start (I := I) hO h0 h
    exact ⟨Qf.oInv_start h.qf ho, false, .changed, true, by simp, h1, h2⟩
  | step hr hi ih =>
    obtain ⟨hh, b, stg, d, hs, hI, hB⟩ := ih
    obtain ⟨b', stg', d', k1, k2, k3⟩ := (inv_iter hO hI hs hB (o_picks hO hh hI hs hB).1 hi).2.2 _ rfl
    exact ⟨o_iter hO hh hI hs hB hi, b', stg', d', k1, k2, k3⟩

theorem gv_picks (hO : Ok H E) (h0 : UF.Inv E.s E.st (UF.start Nat E.s E.st) true) {P : List QAtom}
    {c0 c : UC (GVsids S)} (h : Start E P c0) (ho : OrderStart E c0) (hr : Reach E (gvOrder S) c0 c) :
    PicksFree E (gvOrder S) c ∧ PicksAll E (gvOrder S) c := by
  obtain ⟨hh, b, stg, d, hs, hI, hB⟩ :=
    gv_reach (I := ⟨fun _ => false, fun _ => 0, fun _ _ => false, fun _ _ => 0⟩) hO h0 h ho hr
  exact o_picks hO hh hI hs hB

theorem gv_handles (c : UC (GVsids S)) : Handles E (gvOrder S) c := fun _ _ _ _ _ => ⟨_, _, .refl, rfl⟩

/-- Without propagation of rational variables no assertion of the queues fails. -/
theorem gv_answers (hop : E.op.propRational = false) (hO : Ok H E)
    (h0 : UF.Inv E.s E.st (UF.start Nat E.s E.st) true) {P : List QAtom}
    {c0 c : UC (GVsids S)} (h : Start E P c0) (ho : OrderStart E c0) (hr : Reach E (gvOrder S) c0 c) :
    Answers E (gvOrder S) c := by
  obtain ⟨hh, b, stg, d, hs, hI, hB⟩ :=
    gv_reach (I := ⟨fun _ => false, fun _ => 0, fun _ _ => false, fun _ _ => 0⟩) hO h0 h ho hr
  intro x hp
  obtain ⟨stg', d', h1, -⟩ := inv_prop hO hp hI hs
  have hd := h1.core.reach.decided_nil hop
  have : ∃ r, (c.o.sync x.q.la.trail).pickLa x.q.la = some r := by
    simp only [pickLa, hd, pushEff]
    exact ⟨_, rfl⟩
  obtain ⟨⟨o', v, la'⟩, hr⟩ := this
  exact ⟨v, o', la', hr⟩

end Ufl
end Yaga
