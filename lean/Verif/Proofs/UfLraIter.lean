/-
The iterations of the solver for QF_UFLRA keep the invariant.
-/
import Verif.Proofs.UfLraInv

namespace Yaga
namespace Ufl
open Spec BS Check TermTable Internalizer
open Qf (CoreQ TheoryQ BoolOk BoolInv)

variable {E : Env} {H : TermHash} {I : Interp} {A : List Clause} {b : Bool} {O : Type} {W : QOrder O}

/-- The conflicts are false and entailed. -/
def Confl (E : Env) (I : Interp) (A : List Clause) (x : US) (cs : List Clause) : Prop :=
  ∀ c ∈ cs, (∀ l ∈ c, evalLit x.q.s.t.bools l = some false) ∧
    ∀ F : LinStore, F.Inv → LinStore.Kept x.q.la.store F → Ent (TheoryQ (Fits E I) F) A c

/-- The plugin for functions sees the trail of the plugin for linear arithmetic. -/
theorem uf_view (hO : Ok H E) {u : UF Nat} {d : Bool} {la : LA Nat} {f : FS} {stg : Yaga.Stage}
    (h : UF.Inv E.s E.st u d) (hr : LA.Reach E.cfg.hv E.cfg.hc E.op True la stg)
    (hK : LinStore.Kept E.st.store la.store) (ht : Assigns u.trail la.trail) (hn : u.trail.rats.num = E.st.numRat)
    (hw : f.watch = u.watch) (hf : f.fns = u.fns) : UF.Inv E.s E.st (view E.st la f) d := by
  have hr' := Qf.assigns_rats ht
  exact h.same (view_base hO.iinv hr hK (by rw [hr', hn]) f)
    ⟨hw, hf, (assigns_same ht).2, (assigns_same ht).1, by show la.trail.rats.value = _; rw [hr'], h.base.rv.symm⟩

theorem inv_restart (hO : Ok H E) {stg : Yaga.Stage} {d : Bool} {x : US} (h : Inv E I A true stg d x)
    {cs : List Clause} (h2 : Confl E I A x cs) {ls : List Clause} {lvl : Int} (hl : Check.Learned x.q.s cs ls lvl)
    (old : Nat) : Inv E I A false .changed true ⟨Qf.restart x.q ls old, x.f.back 0⟩ := by
  have hc := Qf.conf_restart h.core h2 hl old
  have ht : (Qf.restart x.q ls old).la.trail = x.q.la.trail.clear := by
    show (x.q.s.learnAll ls).t.clear = _
    rw [Qf.learned_trail h.core h2 hl, h.core.trail]
  have hn : x.q.la.trail.clear.rats.num = E.st.numRat := h.num
  exact ⟨hc, by rw [ht]; exact hn, uf_view hO h.uf.restart hc.reach hc.kept (by rw [ht]; exact .refl _) hn rfl rfl⟩

theorem inv_uip (hO : Ok H E) {stg : Yaga.Stage} {d : Bool} {x : US} (h : Inv E I A true stg d x)
    {cs : List Clause} (h2 : Confl E I A x cs) {ls : List Clause} {L : Nat} (h0 : x.q.s.t.decisionLevel ≠ 0)
    (hl : Check.Learned x.q.s cs ls L) (hsp : ls.head?.any (isSemanticSplit x.q.s.t) = false) :
    ∃ stg', stg' ≠ .conflict ∧ Inv E I A true stg' true ⟨Qf.uip x.q ls L, x.f.back L⟩ := by
  obtain ⟨stg', hs, hc⟩ := Qf.conf_uip h.core h2 h0 hl hsp
  obtain ⟨hL, ha⟩ := Qf.uip_trail h.core h2 h0 hl
  rw [← h.core.trail] at hL ha
  obtain ⟨w, hg⟩ := h.core.reach.good
  have hn : (x.q.la.trail.backtrack L).rats.num = E.st.numRat := by
    rw [Qf.backtrack_num hg.keep.base.tinv hL.le]; exact h.num
  have hu := h.uf.backtrack (lvl := L) hL.le
  rw [show (d || decide (L < (view E.st x.q.la x.f).trail.decisionLevel)) = true by
    rw [Bool.or_eq_true]; exact .inr (decide_eq_true hL)] at hu
  refine ⟨stg', hs, hc, ?_, uf_view hO hu hc.reach hc.kept ha hn rfl rfl⟩
  show (Qf.uip x.q ls L).s.t.rats.num = _
  rw [Qf.assigns_rats ha]; exact hn

theorem inv_split (hO : Ok H E) {stg : Yaga.Stage} {d : Bool} {x : US} (h : Inv E I A true stg d x)
    {cs : List Clause} (h2 : Confl E I A x cs) {ls : List Clause} {L : Nat} {c0 : Clause} {y : Lit}
    (h0 : x.q.s.t.decisionLevel ≠ 0) (hl : Check.Learned x.q.s cs ls L) (hc0 : ls.head? = some c0)
    (hx : y ∈ Qf.topLits x.q.s.t c0) (hu : (x.q.s.t.backtrack L).level y.var = none) :
    Inv E I A true .changed false ⟨Qf.split x.q ls L y, x.f.back L⟩ := by
  have hc := Qf.conf_split h.core h2 h0 hl hc0 hx hu
  obtain ⟨hL, -⟩ := Qf.uip_trail h.core h2 h0 hl
  obtain ⟨w, hg⟩ := h.core.reach.good
  have hG := h.core.good _ hg.keep.base.inv (LinStore.Kept.refl _)
  have hyr : y.ord < x.q.s.t.bools.num :=
    ((learned_spec hG (fun c hc => ⟨(h2 c hc).1, (h2 c hc).2 _ hg.keep.base.inv (LinStore.Kept.refl _)⟩) hl).1
      c0 (List.mem_of_mem_head? hc0)).1.2 y (Qf.topLits_mem hx)
  have ht : (Qf.split x.q ls L y).la.trail = (x.q.la.trail.backtrack L).step (.decide y.var (.b (!y.isNeg))) := by
    show ((((x.q.s.learnAll ls).t.backtrack L).decide y.var).setValue y.var (.b (!y.isNeg))) = _
    rw [Qf.learned_trail h.core h2 hl, h.core.trail]; rfl
  have hi : x.q.s.t.Inv := hG.base.inv
  have hnb : (x.q.s.t.backtrack L).bools.num = x.q.s.t.bools.num := numBools_backtrack hi hL.le
  rw [← h.core.trail] at hL hu hyr hnb
  have hn : (x.q.la.trail.backtrack L).rats.num = E.st.numRat := by
    rw [Qf.backtrack_num hg.keep.base.tinv hL.le]; exact h.num
  have hu1 := h.uf.backtrack (lvl := L) hL.le
  rw [show (d || decide (L < (view E.st x.q.la x.f).trail.decisionLevel)) = true by
    rw [Bool.or_eq_true]; exact .inr (decide_eq_true hL)] at hu1
  have hu2 := hu1.decide (v := y.var) (x := .b (!y.isNeg)) ⟨by
    show y.ord < (x.q.la.trail.backtrack L).bools.num
    rw [hnb]; exact hyr, hu, rfl⟩
  have hn2 : ((x.q.la.trail.backtrack L).step (.decide y.var (.b (!y.isNeg)))).rats.num = E.st.numRat := by
    unfold Trail.step; rw [Qf.setValue_num]; exact hn
  exact ⟨hc, by rw [ht]; exact hn2, uf_view hO hu2 hc.reach hc.kept (by rw [ht]; exact .refl _) hn2 rfl rfl⟩

theorem inv_queried (hO : Ok H E) {stg : Yaga.Stage} {d : Bool} {x : US} (h : Inv E I A b stg d x) {la : LA Nat}
    (hq : Queried x.q.la la) : Inv E I A b stg d ⟨⟨x.q.s, la⟩, x.f⟩ := by
  have hc := Qf.core_queried h.core hq
  have ht := hq.frame.1
  exact ⟨hc, by rw [ht]; exact h.num, uf_view hO h.uf hc.reach hc.kept (by rw [ht]; exact .refl _) h.num rfl rfl⟩

theorem inv_decideBool (hO : Ok H E) {x : US} (h : Inv E I A true .settled true x) {la0 : LA Nat} {n : Nat}
    (hpk : Queried x.q.la la0) (g1 : n < x.q.la.trail.bools.num) (g2 : x.q.la.trail.level (.bool n) = none) :
    Inv E I A true .changed false ⟨⟨x.q.s.decide (.bool n), Qf.withTrail la0 (x.q.s.decide (.bool n)).t⟩, x.f⟩ := by
  have hc := Qf.core_decideBool h.core hpk g1 g2
  obtain ⟨v, e⟩ := decide_eq_decideOther x.q.s n
  have ht : (x.q.s.decide (.bool n)).t = x.q.la.trail.step (.decide (.bool n) (.b v)) := by
    rw [e, h.core.trail]; rfl
  have hu := h.uf.decide (v := .bool n) (x := .b v) ⟨g1, g2, rfl⟩
  have hn : (x.q.la.trail.step (.decide (.bool n) (.b v))).rats.num = E.st.numRat := by
    unfold Trail.step; rw [Qf.setValue_num]; exact h.num
  refine ⟨hc, ?_, uf_view hO hu hc.reach hc.kept ?_ hn rfl rfl⟩
  · show (x.q.s.decide (.bool n)).t.rats.num = _
    rw [ht]; exact hn
  · show Assigns _ (x.q.s.decide (.bool n)).t
    rw [ht]; exact .refl _

theorem decideRat_trail {hv : Nat → Nat} {hc : ℚ → Nat} {op : LaOpts} {la0 la : LA Nat} {n fuel : Nat}
    (h : LA.Reach hv hc op True la0 .settled) (g1 : n < la0.trail.rats.num) (g2 : la0.trail.level (.rat n) = none)
    (hd : la0.decide fuel n = some la) : ∃ v, la.trail = la0.trail.step (.decide (.rat n) (.q v)) := by
  obtain ⟨w, hg⟩ := h.good
  have hw := hg.normal (by rintro ⟨⟩)
  subst hw
  obtain ⟨_, _, _, e3, v, e4⟩ := LA.Keep.decide hg.keep (by
    rintro o (⟨h1, _⟩ | ⟨_, h2⟩ | h1)
    · omega
    · rw [hg.settled rfl] at h2; cases h2
    · exact absurd h1 LA.not_fresh) (fun k o => LA.not_fresh) g1 g2 hd
  exact ⟨v, e4⟩

theorem inv_decideRat (hO : Ok H E) {x : US} (h : Inv E I A true .settled true x) {la0 la : LA Nat} {n fuel : Nat}
    (hpk : Queried x.q.la la0) (g1 : n < x.q.la.trail.rats.num) (g2 : x.q.la.trail.level (.rat n) = none)
    (hd : la0.decide fuel n = some la) :
    Inv E I A true .decided false ⟨⟨{ x.q.s with t := la.trail }, la⟩, x.f⟩ := by
  have hc := Qf.core_decideRat h.core hpk g1 g2 hd
  have ht0 := hpk.frame.1
  obtain ⟨v, ht⟩ := decideRat_trail (hpk.reach h.core.reach) (by rw [ht0]; exact g1) (by rw [ht0]; exact g2) hd
  rw [ht0] at ht
  have hu := h.uf.decide (v := .rat n) (x := .q v) ⟨g1, g2, rfl⟩
  have hn : (x.q.la.trail.step (.decide (.rat n) (.q v))).rats.num = E.st.numRat := by
    unfold Trail.step; rw [Qf.setValue_num]; exact h.num
  exact ⟨hc, by rw [ht]; exact hn, uf_view hO hu hc.reach hc.kept (by rw [ht]; exact .refl _) hn rfl rfl⟩

/-- One iteration. -/
theorem inv_iter (hO : Ok H E) {stg : Yaga.Stage} {d : Bool} {c : UC O} {out : Out O} (h : Inv E I A b stg d c.u)
    (hs : stg ≠ .conflict) (hB : BoolInv A c.u.q.s) (hP : PicksFree E W c) (hi : Iter E W c out) :
    (out = .unsat → ∃ x stg' d', Inv E I A true stg' d' x ∧ UnsatIn (TheoryQ (Fits E I) x.q.la.store) A) ∧
    (∀ x, out = .sat x → Inv E I A true .settled true x ∧ BoolOk A .complete x.q.s) ∧
    ∀ c', out = .run c' → ∃ b' stg' d', stg' ≠ .conflict ∧ Inv E I A b' stg' d' c'.u ∧ BoolInv A c'.u.q.s := by
  cases hi with
  | @unsatZero cs x hp hne h0 =>
    obtain ⟨stg', d', h1, _, h2, _⟩ := inv_prop hO hp h hs
    exact ⟨fun _ => ⟨x, stg', d', h1, Qf.conf_zero h1.core h2 hne h0⟩, by simp, by simp⟩
  | @unsatEmpty cs x learned lvl hp hne h0 ha hem =>
    obtain ⟨stg', d', h1, _, h2, _⟩ := inv_prop hO hp h hs
    exact ⟨fun _ => ⟨x, stg', d', h1, Qf.conf_empty h1.core h2 ha hem⟩, by simp, by simp⟩
  | @restart cs x ls lvl o hp hne h0 hl he =>
    refine ⟨by simp, by simp, ?_⟩
    rintro c' h'
    cases h'
    obtain ⟨stg', d', h1, _, h2, h3⟩ := inv_prop hO hp h hs
    have hB' := h3 hB
    rw [if_neg hne] at hB'
    exact ⟨false, .changed, true, by simp, inv_restart hO h1 h2 hl c.old,
      .inr (Qf.bconf_restart h1.core h2 hB' hl c.old)⟩
  | @uip cs x ls L o hp hne h0 hl he hsp =>
    refine ⟨by simp, by simp, ?_⟩
    rintro c' h'
    cases h'
    obtain ⟨stg', d', h1, _, h2, h3⟩ := inv_prop hO hp h hs
    have hB' := h3 hB
    rw [if_neg hne] at hB'
    obtain ⟨stg2, k1, k2⟩ := inv_uip hO h1 h2 h0 hl hsp
    exact ⟨true, stg2, true, k1, k2, .inl (Qf.bconf_uip h1.core h2 hB' hne h0 hl hsp)⟩
  | @split cs x ls L o c0 y hp hne h0 hl he hc0 hsp hx hu =>
    refine ⟨by simp, by simp, ?_⟩
    rintro c' h'
    cases h'
    obtain ⟨stg', d', h1, _, h2, h3⟩ := inv_prop hO hp h hs
    have hB' := h3 hB
    rw [if_neg hne] at hB'
    exact ⟨true, .changed, false, by simp, inv_split hO h1 h2 h0 hl hc0 hx hu,
      .inl (Qf.bconf_split h1.core h2 hB' hne h0 hl hc0 hsp hx hu)⟩
  | @sat x o la0 hp hpk =>
    refine ⟨by simp, ?_, by simp⟩
    intro x' e
    cases e
    obtain ⟨stg', d', h1, h4, _, h3⟩ := inv_prop hO hp h hs
    obtain ⟨rfl, rfl⟩ := h4 rfl
    have hB' := h3 hB
    rw [if_pos rfl] at hB'
    exact ⟨inv_queried hO h1 (W.queried hpk), hB'⟩
  | @decideBool x o la0 n hp hpk =>
    refine ⟨by simp, by simp, ?_⟩
    rintro c' h'
    cases h'
    obtain ⟨stg', d', h1, h4, _, h3⟩ := inv_prop hO hp h hs
    obtain ⟨rfl, rfl⟩ := h4 rfl
    have hB' := h3 hB
    rw [if_pos rfl] at hB'
    obtain ⟨g1, g2⟩ := hP _ _ _ _ hp hpk
    exact ⟨true, .changed, false, by simp, inv_decideBool hO h1 (W.queried hpk) g1 g2,
      .inl (Qf.bool_decideBool h1.core hB' g1 g2)⟩
  | @decideRat x o la0 n fuel la hp hpk hd =>
    refine ⟨by simp, by simp, ?_⟩
    rintro c' h'
    cases h'
    obtain ⟨stg', d', h1, h4, _, h3⟩ := inv_prop hO hp h hs
    obtain ⟨rfl, rfl⟩ := h4 rfl
    have hB' := h3 hB
    rw [if_pos rfl] at hB'
    obtain ⟨g1, g2⟩ := hP _ _ _ _ hp hpk
    exact ⟨true, .decided, false, by simp, inv_decideRat hO h1 (W.queried hpk) g1 g2 hd,
      .inl (Qf.bool_decideRat h1.core (W.queried hpk) hB' g1 g2 hd)⟩

end Ufl
end Yaga
