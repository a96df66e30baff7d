/-
The check loop for QF_LRA: the answer `sat` comes with a model.
-/
import Verif.Proofs.QfUnsat
import Verif.Proofs.QfStep
import Verif.Props.C56

set_option linter.unusedSectionVars false
set_option linter.unusedVariables false

namespace Yaga
open LinStore (Kept)
namespace Qf
open Spec BS Check

variable {hv : Nat → Nat} {hc : ℚ → Nat} {op : LaOpts} {S : LinStore} {A : List Clause}
  {b : Bool} {O : Type} {W : QOrder O} {Th : Assignment → Prop}

theorem setValue_bool_rats (t : Trail Nat) (l : Lit) (x : Bool) : (t.setValue l.var (.b x)).rats = t.rats := rfl

theorem assigns_rats {t t' : Trail Nat} (h : Assigns t t') : t'.rats = t.rats := by
  induction h with
  | refl => rfl
  | step h _ _ ih => exact ih

theorem propagates_rats {s s' : BS} {c : Option Clause} (h : Check.Good Th A b s) (hp : Propagates s c s') :
    s'.t.rats = s.t.rats := by
  obtain ⟨s0, a1, a2, a3, -, -, -, -, hx, -⟩ := propagates_spec (Q := fun _ => False)
    h.base.inv h.base.db (fun h' => h.base.ws (Or.inr h')) (by simp) (by simp) hp
  rw [← a2]; exact assigns_rats hx.steps

theorem prop_rats {q q' : QS} {cs : List Clause} (hp : QProp hv hc op q cs q') :
    ∀ {b : Bool} {st : Yaga.Stage}, Core hv hc op S A b st q → st ≠ .conflict → q'.s.t.rats = q.s.t.rats := by
  have lra : ∀ {st : Yaga.Stage} {s : BS} {la la' : LA Nat} {cs : List Clause}, Core hv hc op S A true st ⟨s, la⟩ →
      st ≠ .conflict → la.propagate hv hc op = (la', cs) → la'.trail.rats = s.t.rats := by
    intro st s la la' cs h hs hp
    obtain ⟨w, hg⟩ := h.reach.good
    obtain ⟨-, g2, -⟩ := hg.propagate (o := op)
    simp only at g2
    rw [hp] at g2
    have ht : la.trail = s.t := h.trail
    rw [← ht]; exact g2.rats
  induction hp with
  | @boolConflict q s c h =>
    intro b st hC hs
    obtain ⟨w, hg⟩ := hC.reach.good
    exact propagates_rats (hC.good q.la.store hg.keep.base.inv (Kept.refl _)) h
  | @lraConflict q s la cs h hp hne =>
    intro b st hC hs
    obtain ⟨w, hg⟩ := hC.reach.good
    have h1 := propagates_rats (hC.good q.la.store hg.keep.base.inv (Kept.refl _)) h
    obtain ⟨st', h2, h3, -⟩ := core_bool hC hs h
    exact (lra h3 h2 hp).trans h1
  | @done q s la h hp hz =>
    intro b st hC hs
    obtain ⟨w, hg⟩ := hC.reach.good
    have h1 := propagates_rats (hC.good q.la.store hg.keep.base.inv (Kept.refl _)) h
    obtain ⟨st', h2, h3, -⟩ := core_bool hC hs h
    exact (lra h3 h2 hp).trans h1
  | @again q q' s la cs h hp hz hr ih =>
    intro b st hC hs
    obtain ⟨w, hg⟩ := hC.reach.good
    have h1 := propagates_rats (hC.good q.la.store hg.keep.base.inv (Kept.refl _)) h
    obtain ⟨st', h2, h3, -⟩ := core_bool hC hs h
    obtain ⟨g1, -⟩ := core_lra h3 h2 hp
    refine (ih g1 ?_).trans ((lra h3 h2 hp).trans h1)
    rw [if_neg (by simp)]
    split <;> simp

theorem backtrack_num {t : Trail Nat} (hi : t.Inv) {L : Nat} (hL : L ≤ t.decisionLevel) :
    (t.backtrack L).rats.num = t.rats.num :=
  congrFun (Trail.backtrack_spec hi L hL).2.2.2.2 .rational

theorem setValue_num (t : Trail Nat) (v : Var) (x : Val) : (t.setValue v x).rats.num = t.rats.num :=
  congrFun (Trail.numVars_setValue t v x) .rational

/-- The number of rational variables does not change. -/
theorem iter_num {st : Yaga.Stage} {c c' : QC O} (h : Core hv hc op S A b st c.q)
    (hs : st ≠ .conflict) (hP : PicksFree hv hc op W c) (hi : Iter hv hc op W c (.run c')) :
    c'.q.s.t.rats.num = c.q.s.t.rats.num := by
  cases hi with
  | @restart cs q ls lvl o hp hne h0 hl he =>
    obtain ⟨st', h1, _, h2⟩ := core_prop hp h hs
    obtain ⟨w, hg⟩ := h1.reach.good
    have hI := hg.keep.base.inv
    have hG := h1.good _ hI (Kept.refl _)
    have e := (good_learnAll hG (learned_spec hG (fun c hc => ⟨(h2 c hc).1, (h2 c hc).2 _ hI (Kept.refl _)⟩) hl).1).2.1
    rw [← prop_rats hp h hs]
    show (q.s.learnAll ls).t.rats.num = _
    rw [e]
  | @uip cs q ls L o hp hne h0 hl he hsp =>
    obtain ⟨st', h1, _, h2⟩ := core_prop hp h hs
    obtain ⟨w, hg⟩ := h1.reach.good
    have hI := hg.keep.base.inv
    have hG := h1.good _ hI (Kept.refl _)
    have hL := learned_below hG.base.inv hG.rok (fun c hc => (h2 c hc).1) h0 hl
    have hL' : L < q.s.t.decisionLevel := by omega
    have e := (good_learnAll hG (learned_spec hG (fun c hc => ⟨(h2 c hc).1, (h2 c hc).2 _ hI (Kept.refl _)⟩) hl).1).2.1
    rw [← prop_rats hp h hs, ← backtrack_num hG.base.inv hL'.le, ← e]
    have key : ∀ (ls : List Clause) (r : Nat) (s : BS), (propHeads L ls r s).t.rats = s.t.rats := by
      intro ls
      induction ls with
      | nil => intro r s; rfl
      | cons c cs ih =>
        intro r s
        cases c with
        | nil => exact ih _ _
        | cons x xs =>
          unfold propHeads
          rw [ih]
          split <;> rfl
    show (propHeads L ls _ ((q.s.learnAll ls).backtrackTo L)).t.rats.num = _
    rw [key]; rfl
  | @split cs q ls L o c0 x hp hne h0 hl he hc0 hsp hx hu =>
    obtain ⟨st', h1, _, h2⟩ := core_prop hp h hs
    obtain ⟨w, hg⟩ := h1.reach.good
    have hI := hg.keep.base.inv
    have hG := h1.good _ hI (Kept.refl _)
    have hL := learned_below hG.base.inv hG.rok (fun c hc => (h2 c hc).1) h0 hl
    have hL' : L < q.s.t.decisionLevel := by omega
    have e := (good_learnAll hG (learned_spec hG (fun c hc => ⟨(h2 c hc).1, (h2 c hc).2 _ hI (Kept.refl _)⟩) hl).1).2.1
    rw [← prop_rats hp h hs, ← backtrack_num hG.base.inv hL'.le, ← e]
    rfl
  | @decideBool q o la0 n hp hpk =>
    rw [← prop_rats hp h hs]
    obtain ⟨b, e⟩ := decide_eq_decideOther q.s n
    simp only
    rw [e]
    exact setValue_num _ _ _
  | @decideRat q o la0 n fuel la hp hpk hd =>
    rw [← prop_rats hp h hs]
    obtain ⟨st', h1, h3, _⟩ := core_prop hp h hs
    rw [h3 rfl] at h1
    obtain ⟨g1, g2⟩ := hP _ _ _ _ hp hpk
    rw [h1.trail] at g1 g2
    replace h1 := core_queried h1 (W.queried hpk)
    obtain ⟨w, hg⟩ := h1.reach.good
    have hx : n < la0.trail.rats.num := by rw [h1.trail]; exact g1
    have hu : la0.level n = none := by
      show la0.trail.level ⟨.rational, n⟩ = none
      rw [h1.trail]; exact g2
    have hw := hg.normal (by rintro ⟨⟩)
    subst hw
    obtain ⟨_, _, _, e3, v, e4⟩ := LA.Keep.decide hg.keep (by
      rintro o (⟨h1, _⟩ | ⟨_, h2⟩ | h1)
      · omega
      · rw [hg.settled rfl] at h2; cases h2
      · exact absurd h1 LA.not_fresh) (fun k o => LA.not_fresh) hx hu hd
    show la.trail.rats.num = _
    rw [e4, setValue_num, ← h1.trail]; rfl

/-- The variables of the created constraints are declared. -/
theorem built_dom {la : LA Nat} {P : List QAtom} (h : Built hv hc la P) :
    ∀ e ∈ la.store.set, ∀ x ∈ la.store.varsOf e, x < la.trail.rats.num := by
  induction h with
  | init => intro e he; cases he
  | @resize la P h ty n hn ih =>
    cases ty with
    | rational =>
      intro e he x hx
      have hn' : la.trail.rats.num ≤ n := hn
      exact lt_of_lt_of_le (ih e he x hx) hn'
    | boolean => exact fun e he x hx => ih e he x hx
  | @cons la P h ts p r hnd hne hdom ih =>
    obtain ⟨h1, h2, h3⟩ := built_spec (op := ⟨true, true, true⟩) h
    obtain ⟨w, hg⟩ := h1.good
    have hlev : ∀ v, la.trail.level v = none := by
      intro v
      refine isEmpty_level hg.keep.base.tinv ?_ v
      simp [Trail.isEmpty, Trail.assigned, h2]
    have hl : la.store.cons.length = la.models.bools.num := hg.keep.base.linv.len
    obtain ⟨c1, c2, -⟩ := Lra.constraint_spec hv hc (m := la.models) hg.keep.base.inv hl hnd p r
    obtain ⟨_, hcases⟩ := Lra.constraint_cases hv hc (m := la.models) hg.keep.base.inv hl hnd hne (by
      right; intro q hq
      show la.trail.rats.defined q.1 = false
      by_contra hcon
      obtain ⟨k, hk⟩ := (hg.keep.base.tinv.defined ⟨.rational, q.1⟩).mp (by simpa [Trail.isDefined] using hcon)
      rw [hlev] at hk; cases hk) p r
    have hst : (la.constraint hv hc ts p r).1.store = (Lra.constraint hv hc la.store la.models ts p r).1 := by
      unfold LA.constraint; simp only; split <;> rfl
    have hnum : (la.constraint hv hc ts p r).1.trail.rats.num = la.trail.rats.num := by
      unfold LA.constraint; simp only; split <;> rfl
    rw [hst, hnum]
    have old : ∀ e ∈ la.store.set, ∀ x ∈ (Lra.constraint hv hc la.store la.models ts p r).1.varsOf e,
        x < la.trail.rats.num := by
      intro e he x hx
      refine ih e he x ?_
      rw [IsCons.varsOf c1 ⟨e, c2.set e he, Or.inl rfl⟩] at hx
      rw [IsCons.varsOf hg.keep.base.inv ⟨e, he, Or.inl rfl⟩]
      exact ((c2.terms e he).map _).mem_iff.1 hx
    rcases hcases with ⟨_, h2, _⟩ | ⟨_, _, e', he1, he2, he3, he4⟩
    · intro e he; rw [h2] at he; exact old e he
    · intro e he
      rw [he2] at he
      rcases List.mem_append.1 he with he | he
      · exact old e he
      · simp only [List.mem_singleton] at he
        subst he
        rw [he4]
        intro x hx
        obtain ⟨q, hq, rfl⟩ := List.mem_map.1 hx
        exact hdom q (List.mem_of_mem_filter hq)

theorem boolInv_start {P : List QAtom} {c : QC O} (h : Start hv hc A P c) : BoolInv A c.q.s := by
  obtain ⟨h1, h2, h3⟩ := built_spec (op := ⟨true, true, true⟩) h.built
  obtain ⟨w, hg⟩ := h1.good
  have hi : c.q.s.t.Inv := by rw [h.trail]; exact hg.keep.base.tinv
  have hem : c.q.s.t.isEmpty = true := by
    rw [h.trail]; simp [Trail.isEmpty, Trail.assigned, h2]
  have hlev := isEmpty_level hi hem
  have hre : ∀ v, c.q.s.t.reason v = none := fun v => hi.noReason _ (hlev v)
  refine Or.inr ⟨⟨hi, hem, h.db⟩, ?_, tight_of_noReason hre, zeroReason_of_unassigned hlev, h.na, by rw [h.cls], ?_⟩
  · intro r hr w hw hf k hk
    rw [hlev] at hk; cases hk
  · intro r hr
    have : c.q.s.clause r = A[r] := by
      simp [clause, h.cls, List.getD_eq_getElem?_getD, List.getElem?_eq_getElem hr]
    rw [this]

/-- The invariants hold in every state of the loop. -/
theorem all_reach {P : List QAtom} {c0 c : QC O} (h : Start hv hc A P c0)
    (hP : ∀ c, Reach hv hc op W c0 c → PicksFree hv hc op W c) (hr : Reach hv hc op W c0 c) :
    ∃ b st, st ≠ .conflict ∧ Core hv hc op c0.q.la.store A b st c.q ∧ BoolInv A c.q.s ∧
      c.q.s.t.rats.num = c0.q.s.t.rats.num := by
  induction hr with
  | refl => exact ⟨false, .changed, by simp, (core_start h).1, boolInv_start h, rfl⟩
  | step hr hi ih =>
    obtain ⟨b, st, hs, hb, hB, hn⟩ := ih
    obtain ⟨b', st', hs', hb'⟩ := (core_iter hb hs (hP _ hr) hi).2.2 _ rfl
    exact ⟨b', st', hs', hb', (bool_iter hb hs hB (hP _ hr) hi).2 _ rfl, (iter_num hb hs (hP _ hr) hi).trans hn⟩

/-- When all Boolean variables are assigned and propagation is complete, the clauses are true. -/
theorem complete_true {s : BS} (h : BoolOk A .complete s)
    (hall : ∀ v, v < s.t.bools.num → s.t.level (.bool v) ≠ none) : allTrue (fun n => s.t.bools.value n) A := by
  obtain ⟨hi, hws, hdom, -, -⟩ := h.stage
  have htrue : ∀ {l : Lit}, evalLit s.t.bools l = some true → litTrue (fun n => s.t.bools.value n) l := by
    intro l hl
    unfold evalLit at hl
    split at hl
    · simp only [litTrue]
      rcases hn : l.isNeg with _ | _ <;> rcases hv : s.t.bools.value l.ord with _ | _ <;> simp_all
    · cases hl
  intro a ha
  obtain ⟨r, hr, rfl⟩ := List.getElem_of_mem ha
  have hlen : r < s.cls.length := lt_of_lt_of_le hr h.asr.le
  have hperm := h.asr.perm r hr
  suffices ∃ l ∈ s.clause r, evalLit s.t.bools l = some true by
    obtain ⟨l, hl, ht⟩ := this
    exact ⟨l, hperm.mem_iff.1 hl, htrue ht⟩
  have hne := hws.ne r hlen
  obtain ⟨w, rest, hc⟩ := List.exists_cons_of_ne_nil hne
  have hw : w ∈ (s.clause r).take 2 := by rw [hc]; simp
  have hwm : w ∈ s.clause r := List.mem_of_mem_take hw
  rcases he : evalLit s.t.bools w with _ | _ | _
  · exfalso
    exact hall _ (hws.range r hlen w hwm) ((evalLit_none hi w).1 he)
  · obtain ⟨o, ⟨rest, h1⟩, h2, -⟩ := (hdom r hlen w hw he).resolve_right id
    exact ⟨o, by rcases h1 with h1 | h1 <;> rw [h1] <;> simp, h2⟩
  · exact ⟨w, hwm, he⟩

/-- The values at the end are a model. -/
theorem final_model {Q : (Nat → ℚ) → Prop} {P : List QAtom} {c0 : QC O} {q : QS} (h : Start hv hc A P c0)
    (hC : CoreQ Q hv hc op c0.q.la.store A true .settled q) (hBo : BoolOk A .complete q.s)
    (hrn : q.s.t.rats.num = c0.q.la.trail.rats.num)
    (hall : ∀ v : Var, v.ord < q.s.t.numVars v.type → q.s.t.level v ≠ none) :
    QfModel A P (fun n => q.s.t.bools.value n) (fun x => q.s.t.rats.value x) ∧
    ∀ v : Var, v.ord < q.s.t.numVars v.type → q.s.t.isDefined v = true := by
  have hI := hBo.stage.1
  refine ⟨⟨complete_true hBo fun v hv' => hall (.bool v) hv', ?_⟩, fun v hv' => ?_⟩
  · obtain ⟨-, hst⟩ := core_start (Q := fun _ => True) (op := op) h
    obtain ⟨h1, -, -⟩ := built_spec (op := op) h.built
    obtain ⟨w, hg0⟩ := h1.good
    obtain ⟨w', hg⟩ := hC.reach.good
    have hK := hC.kept
    intro a ha
    obtain ⟨⟨e, he, ho⟩, hm⟩ := hst.atom a ha
    rw [← hm]
    obtain ⟨m1, m2, m3⟩ := LinStore.litMeans_of_mem hg0.keep.base.inv he (fun x => q.s.t.rats.value x)
    have k1 := (LinStore.litMeans_of_mem hg.keep.base.inv (hK.set e he) (fun x => q.s.t.rats.value x)).1
    have k2 := LinStore.litMeans_kept hg0.keep.base.inv hK m3 (fun x => q.s.t.rats.value x)
    obtain ⟨v, g1, g2⟩ := C56_evaluated hv hc op True q.la _ hC.reach (by rintro ⟨⟩) e ⟨e, hK.set e he, Or.inl rfl⟩ (by
      intro x hx
      rw [IsCons.varsOf hg.keep.base.inv ⟨e, hK.set e he, Or.inl rfl⟩] at hx
      have hx' := ((hK.terms e he).map Prod.fst).mem_iff.1 hx
      have hlt := built_dom h.built e he x (by
        rw [IsCons.varsOf hg0.keep.base.inv ⟨e, he, Or.inl rfl⟩]; exact hx')
      rw [← hrn] at hlt
      rw [hC.trail]
      have hl := hall (.rat x) hlt
      obtain ⟨k, hk⟩ := Option.ne_none_iff_exists'.1 hl
      exact (hI.defined (.rat x)).2 ⟨k, hk⟩)
    rw [hC.trail] at g1 g2
    obtain ⟨k, hk, -⟩ := hg0.keep.base.inv.idx e he
    have hpos : e.lit.isNeg = false := by rw [hk]; rfl
    have hCT : ConsTrue q.la.store e (fun x => q.s.t.rats.value x) ↔
        LitMeans c0.q.la.store e.lit (fun x => q.s.t.rats.value x) := by
      rw [← k2, k1]; simp [ConsTrue, hpos]
    have hlit : litTrue (fun n => q.s.t.bools.value n) e.lit ↔
        LitMeans c0.q.la.store e.lit (fun x => q.s.t.rats.value x) := by
      rw [← hCT, ← g2]
      unfold evalLit at g1
      split at g1
      · simp only [hpos] at g1
        simp only [litTrue, hpos]
        cases v <;> rcases hv : q.s.t.bools.value e.lit.ord with _ | _ <;> simp_all
      · cases g1
    rcases Lit.eq_or_eq_neg_of_ord ho.symm with e1 | e1
    · rw [e1]; exact hlit
    · rw [e1, litTrue_neg, m2, ← m1]; exact not_iff_not.2 hlit
  · obtain ⟨k, hk⟩ := Option.ne_none_iff_exists'.1 (hall v hv')
    exact (hI.defined v).2 ⟨k, hk⟩

/-- The answer `sat` comes with a model. -/
theorem sat_model {P : List QAtom} {c0 : QC O} {q : QS} (h : Start hv hc A P c0)
    (hP : ∀ c, Reach hv hc op W c0 c → PicksFree hv hc op W c ∧ PicksAll hv hc op W c)
    (hr : Returns hv hc op W c0 (.sat q)) :
    QfModel A P (fun n => q.s.t.bools.value n) (fun x => q.s.t.rats.value x) ∧
    ∀ v : Var, v.ord < q.s.t.numVars v.type → q.s.t.isDefined v = true := by
  obtain ⟨c, hr, hi⟩ := hr
  obtain ⟨b, st, hs, hb, hB, hn⟩ := all_reach h (fun c hc => (hP c hc).1) hr
  have hC := (core_iter hb hs (hP c hr).1 hi).2.1 q rfl
  have hBo := (bool_iter hb hs hB (hP c hr).1 hi).1 q rfl
  cases hi with
  | @sat q o la0 hp hpk =>
    have hall := (hP c hr).2 _ _ _ hp hpk
    rw [← (W.queried hpk).frame.1, hC.trail] at hall
    exact final_model h hC hBo (by rw [prop_rats hp hb hs, hn, h.trail]) hall

end Qf
end Yaga
