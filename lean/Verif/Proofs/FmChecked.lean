/-
No assertion of the conflict analysis of the arithmetic plugin fails.
-/
import Verif.Model.FmChecked
import Verif.Proofs.LraGood
import Verif.Proofs.Eval

set_option linter.unusedVariables false
set_option linter.unusedSimpArgs false

namespace Yaga
open Spec
open LinStore (delta WfTerms Inv Kept Made)

theorem ensure_true {b : Bool} (h : b = true) : ensure b = some () := by rw [h]; rfl

theorem IsCons.not_empty {s : LinStore} (hI : Inv s) {c : LinCons} (h : IsCons s c) {y : Nat}
    (hy : co y (s.terms c) ≠ 0) : c.isEmpty = false := by
  cases he : c.isEmpty with
  | false => rfl
  | true =>
    exfalso
    have hm := (co_ne_zero_iff (h.terms_wf hI) y).mp hy
    rw [← h.varsOf hI] at hm
    have hz : (s.varsOf c).length ≤ c.size := by
      unfold LinStore.varsOf LinStore.slice LinCons.size
      rw [List.length_take]
      omega
    have h0 : c.size = 0 := by
      unfold LinCons.isEmpty at he
      unfold LinCons.size
      simp at he
      omega
    have : s.varsOf c = [] := List.eq_nil_of_length_eq_zero (by omega)
    rw [this] at hm
    cases hm

namespace Fm

theorem find_some {ts : List (Nat × ℚ)} {x : Nat} (w : WfTerms ts) (h : co x ts ≠ 0) :
    ∃ a, (ts.find? fun t => t.1 == x) = some a ∧ a.1 = x ∧ a.2 ≠ 0 := by
  obtain ⟨p, hp, hpx⟩ := List.mem_map.mp ((co_ne_zero_iff w x).mp h)
  cases e : ts.find? (fun t => t.1 == x) with
  | none =>
    have := List.find?_eq_none.mp e p hp
    simp [hpx] at this
  | some a =>
    have h1 := List.find?_some e
    exact ⟨a, rfl, by simpa using h1, w.nz a (List.mem_of_find?_eq_some e)⟩

theorem terms_ne {ts : List (Nat × ℚ)} {x : Nat} (h : co x ts ≠ 0) : ts.isEmpty = false := by
  cases ts with
  | nil => exact absurd rfl h
  | cons _ _ => rfl

theorem resolveC_some {f g : Fm} (hf : WfTerms f.poly.terms) (hg : WfTerms g.poly.terms) {x : Nat}
    (ha : co x f.poly.terms ≠ 0) (hb : co x g.poly.terms ≠ 0) :
    f.resolveC g x = some (f.resolve g x) := by
  obtain ⟨a, a1, a2, a3⟩ := find_some hf ha
  obtain ⟨b, b1, b2, b3⟩ := find_some hg hb
  obtain ⟨u, k, _, r2, r3, r4⟩ := resolve_spec (f := f) (g := g) hf.nodup hg.nodup hb
  have h0 : co x (f.resolve g x).poly.terms = 0 := by
    rw [r2]
    rcases r4 with ⟨h1, h2, _⟩ | ⟨h1, h2, _⟩
    · rw [h1, h2, div_mul_cancel₀ _ hb]; ring
    · rw [h1, h2, div_mul_cancel₀ _ hb]; ring
  have hnone : ((f.resolve g x).poly.terms.find? fun t => t.1 == x).isNone = true := by
    rw [Option.isNone_iff_eq_none, List.find?_eq_none]
    intro p hp hpx
    have : x ∈ (f.resolve g x).poly.terms.map (·.1) :=
      List.mem_map.mpr ⟨p, hp, by simpa using hpx⟩
    exact (co_ne_zero_iff r3 x).mpr this h0
  unfold resolveC
  rw [terms_ne ha, terms_ne hb, a1, b1]
  have e1 : ensure (b.1 == a.1) = some () := ensure_true (by rw [a2, b2]; simp)
  have e2 : ensure (decide (b.2 ≠ 0)) = some () := ensure_true (by simpa using b3)
  show (Option.bind (ensure (b.1 == a.1)) fun _ => Option.bind (ensure (decide (b.2 ≠ 0))) fun _ =>
    Option.bind (ensure ((f.resolve g x).poly.terms.find? fun t => t.1 == x).isNone) fun _ =>
      some (f.resolve g x)) = _
  rw [e1, e2, ensure_true hnone]
  rfl

theorem initWithC_some {s : LinStore} {c : LinCons} (h : c.isEmpty = false) (p : Pred) (k : ℚ) :
    initWithC s c p k = some (initWith s c p k) := by
  unfold initWithC
  rw [ensure_true (by rw [h]; rfl)]
  rfl

theorem initC_some {s : LinStore} {c : LinCons} (hne : ¬ (c.pred = .eq ∧ c.lit.isNeg = true))
    (h : c.isEmpty = false) : initC s c = some (init s c) := by
  unfold initC
  rw [ensure_true (b := decide (c.pred ≠ .eq) || !c.lit.isNeg), initWithC_some h]
  · rfl
  · by_cases h1 : c.pred = .eq
    · have : c.lit.isNeg = false := by
        cases h2 : c.lit.isNeg with
        | false => rfl
        | true => exact absurd ⟨h1, h2⟩ hne
      rw [this]; simp
    · simp [h1]

end Fm

theorem eliminateDepsC_some {s : LinStore} {m : LModels} (dd : Bnd → Bool) (ds : List Bnd) : ∀ (f : Fm),
    (∀ d ∈ ds, m.rats.defined d.var = false →
      Elim s m (dd d) d (d.eliminate s m).1 (d.eliminate s m).2 ∧ d.eliminateC s m = some (d.eliminate s m)) →
    WfTerms f.poly.terms →
    (∀ d ∈ ds, m.rats.defined d.var = false → co d.var f.poly.terms ≠ 0) →
    (ds.map Bnd.var).Nodup →
    Bnd.eliminateDepsC s m ds f = some (Bnd.eliminateDeps s m ds f) := by
  induction ds with
  | nil => intro f _ _ _ _; rw [Bnd.eliminateDepsC, Bnd.eliminateDeps]
  | cons d ds ih =>
    intro f hE hw hnz hnd
    rw [List.map_cons, List.nodup_cons] at hnd
    have hE' := fun d' (hd' : d' ∈ ds) => hE d' (List.mem_cons_of_mem _ hd')
    have hnz' := fun d' (hd' : d' ∈ ds) => hnz d' (List.mem_cons_of_mem _ hd')
    rw [Bnd.eliminateDepsC, Bnd.eliminateDeps]
    cases hdef : m.rats.defined d.var with
    | true =>
      simp only [if_true]
      exact ih f hE' hw hnz' hnd.2
    | false =>
      obtain ⟨E, hC⟩ := hE d (by simp) hdef
      have h0 := hnz d (by simp) hdef
      obtain ⟨u, k, _, r2, r3, r4⟩ := Fm.resolve_spec (f := f) (g := (d.eliminate s m).1) hw.nodup E.wf.nodup E.nz
      have hu : u ≠ 0 := by rcases r4 with ⟨h, _⟩ | ⟨h, _⟩ <;> rw [h] <;> norm_num
      have hrest := ih (f.resolve (d.eliminate s m).1 d.var) hE' r3 (fun d' hd' hd0 => by
        rw [r2]
        have hne : d'.var ≠ d.var := fun e => hnd.1 (e ▸ List.mem_map_of_mem hd')
        have hg : co d'.var (d.eliminate s m).1.poly.terms = 0 := by
          by_contra h
          have := E.vars _ hne h
          rw [hd0] at this; cases this
        rw [hg, mul_zero, add_zero]
        exact mul_ne_zero hu (hnz' d' hd' hd0)) hnd.2
      simp only [Bool.false_eq_true, if_false]
      rw [hC]
      show (Option.bind (f.resolveC (d.eliminate s m).1 d.var) _) = _
      rw [Fm.resolveC_some hw E.wf h0 E.nz]
      show (Option.bind (Bnd.eliminateDepsC s m ds (f.resolve (d.eliminate s m).1 d.var)) _) = _
      rw [hrest]
      rfl

theorem eliminateC_some {s : LinStore} {m : LModels} {S : Bool → Nat → List Bnd} (hI : Inv s)
    (hS : ∀ up y, ∀ b ∈ S up y, b.isObsolete s m = false → m.rats.defined y = true →
      Resp up b.value b.isStrict (m.rats.value y))
    {up : Bool} {b : Bnd} (g : GoodB s m S up b) (hl : b.isObsolete s m = false)
    (hxu : m.rats.defined b.var = false) : b.eliminateC s m = some (b.eliminate s m) := by
  induction g with
  | mk up x v c ds ct vt t μ dd hc hne ht ht1 hx hnd hxd hdir hval hμ hct hst hdeps ih =>
    rw [live_iff] at hl
    obtain ⟨_, _, l4⟩ := hl
    have hw := init_wf' hI hc
    have hx0 : co x (s.terms c) ≠ 0 := by intro h; rw [h] at hx; simp at hx
    have he := hc.not_empty hI hx0
    rw [Bnd.eliminateC, Bnd.eliminate, Fm.initC_some hne he]
    show (Option.bind (Bnd.eliminateDepsC s m ds (Fm.init s c)) _) = _
    rw [eliminateDepsC_some dd ds (Fm.init s c)
      (fun d hd hu => ⟨elim_of_good hI hS (hdeps d hd) (l4 d hd) hu, ih d hd (l4 d hd) hu⟩) hw
      (fun d hd _ => by
        rw [co_init]
        have h1 := hdir d hd
        intro h0
        rw [h0] at h1
        simp at h1) hnd]
    rfl

namespace Lra

/-- The elimination of a bound conflict. -/
theorem boundConflict_checked {st : St} (h : LInv st) (x : Nat) {lb ub : Bnd}
    (h1 : (st.bnd.lower st.store st.models x).2 = some lb)
    (h2 : ((st.bnd.lower st.store st.models x).1.upper st.store st.models x).2 = some ub)
    (hcond : ¬ (lb.value < ub.value ∨ (lb.value = ub.value ∧ (lb.isStrict || ub.isStrict) = false))) :
    lb.var = ub.var ∧ lb.eliminateC st.store st.models = some (lb.eliminate st.store st.models) ∧
    ub.eliminateC st.store st.models = some (ub.eliminate st.store st.models) ∧
    (lb.eliminate st.store st.models).1.resolveC (ub.eliminate st.store st.models).1 ub.var =
      some ((lb.eliminate st.store st.models).1.resolve (ub.eliminate st.store st.models).1 ub.var) := by
  obtain ⟨hs, hL, hlb, hub⟩ := two_queries (fun _ => 0) (fun _ => 0) h x
  generalize hl : st.bnd.lower st.store st.models x = l at *
  generalize hu : l.1.upper st.store st.models x = u at *
  obtain ⟨l1, l2⟩ := hlb lb h1
  obtain ⟨u1, u2⟩ := hub ub h2
  have hvl : lb.var = x := hL.var false x lb l1
  have hvu : ub.var = x := hL.var true x ub u1
  rw [not_or] at hcond
  obtain ⟨hc1, hc2⟩ := hcond
  have hstrict : lb.value = ub.value → lb.isStrict = true ∨ ub.isStrict = true := by
    intro e
    by_contra hn
    rw [not_or, Bool.not_eq_true, Bool.not_eq_true] at hn
    exact hc2 ⟨e, by rw [hn.1, hn.2]; rfl⟩
  rw [not_lt] at hc1
  have hundef : st.models.rats.defined x = false := by
    by_contra hd
    rw [Bool.not_eq_false] at hd
    have r1 := hL.resp false x lb l1 l2 hd
    have r2 := hL.resp true x ub u1 u2 hd
    unfold Resp dq at r1 r2
    simp only [if_true, Bool.false_eq_true, if_false] at r1 r2
    obtain ⟨r1a, r1b⟩ := r1
    obtain ⟨r2a, r2b⟩ := r2
    have e : lb.value = ub.value := by linarith
    rcases hstrict e with h' | h'
    · have := r1b h'; linarith
    · have := r2b h'; linarith
  have E1 := elim_of_good hL.inv (hL.resp) (hL.good false x lb l1) l2
    (by rw [hvl]; exact hundef)
  have E2 := elim_of_good hL.inv (hL.resp) (hL.good true x ub u1) u2
    (by rw [hvu]; exact hundef)
  have C1 := eliminateC_some hL.inv (hL.resp) (hL.good false x lb l1) l2
    (by rw [hvl]; exact hundef)
  have C2 := eliminateC_some hL.inv (hL.resp) (hL.good true x ub u1) u2
    (by rw [hvu]; exact hundef)
  refine ⟨by rw [hvl, hvu], C1, C2, Fm.resolveC_some E1.wf E2.wf ?_ E2.nz⟩
  have := E1.nz
  rw [hvl] at this
  rw [hvu]; exact this

/-- The eliminations of a conflict with a disequality. -/
theorem ineqConflict_checked (hv : Nat → Nat) (hc : ℚ → Nat) (lvl : Nat → Nat) {st : St} (h : LInv st)
    (x : Nat) {lb ub n : Bnd}
    (h1 : (st.bnd.lower st.store st.models x).2 = some lb)
    (h2 : ((st.bnd.lower st.store st.models x).1.upper st.store st.models x).2 = some ub)
    (hcond : ¬ (lb.value ≠ ub.value ∨ lb.reason.isStrict = true ∨ ub.reason.isStrict = true))
    (h3 : ((((st.bnd.lower st.store st.models x).1.upper st.store st.models x).1.vb x).inequality st.store
      st.models lb.value).2 = some n) :
    let mult : ℚ := if ((st.store.coefsOf n.reason).head?.getD 0) > 0 then 1 else -1
    let g1 := Fm.initWith st.store n.reason .lt mult
    let f1 := (lb.eliminate st.store st.models).1.resolve g1 n.var
    let F := finish hv hc lvl st.store st.models f1
    let g2 := Fm.initWith F.1 n.reason .lt (-mult)
    let f2 := (ub.eliminate F.1 F.2.1).1.resolve g2 n.var
    lb.var = ub.var ∧ n.var = lb.var ∧ n.reason.isEmpty = false ∧
    lb.eliminateC st.store st.models = some (lb.eliminate st.store st.models) ∧
    (lb.eliminate st.store st.models).1.resolveC g1 n.var = some f1 ∧
    ub.eliminateC F.1 F.2.1 = some (ub.eliminate F.1 F.2.1) ∧
    (ub.eliminate F.1 F.2.1).1.resolveC g2 n.var = some f2 := by
  obtain ⟨⟨hw1, hfl1⟩, hw2, hfl2⟩ := ineqConflict_false hv hc lvl h x h1 h2 hcond h3
  obtain ⟨hs, hL, hlb, hub⟩ := two_queries hv hc h x
  generalize hl : st.bnd.lower st.store st.models x = l at *
  generalize hu : l.1.upper st.store st.models x = u at *
  dsimp only at hw1 hfl1 hw2 hfl2 ⊢
  have heq : lb.value = ub.value := by
    by_contra hne; exact hcond (Or.inl hne)
  obtain ⟨l1, l2⟩ := hlb lb h1
  obtain ⟨u1, u2⟩ := hub ub h2
  have hs3 : Steps hv hc st { st with bnd := u.1.put x ((u.1.vb x).inequality st.store st.models
      lb.value).1 } := Steps.step (.inequality x lb.value) hs trivial
  have hL3 := steps_linv hv hc h hs3
  have hsh := shrunk_inequality st.store st.models u.1 x lb.value
  have hnd : ∀ n, ((u.1.vb x).inequality st.store st.models lb.value).2 = some n →
      n ∈ ((u.1.put x ((u.1.vb x).inequality st.store st.models lb.value).1).vb x).dis ∧
      n.value = lb.value ∧ n.isObsolete st.store st.models = false := by
    intro n hn
    rw [vb_put, if_pos rfl]
    unfold VBounds.inequality at hn ⊢
    simp only at hn ⊢
    have m1 := List.mem_of_find?_eq_some hn
    have m2 := List.find?_some hn
    refine ⟨m1, by simpa using m2, ?_⟩
    unfold VBounds.dropObs at m1
    simpa using (List.mem_filter.mp m1).2
  have l1' := hsh.live false x lb l1 l2
  have u1' := hsh.live true x ub u1 u2
  generalize hN : (u.1.vb x).inequality st.store st.models lb.value = N at *
  generalize hb : u.1.put x N.1 = b at *
  obtain ⟨n1, n2, n3⟩ := hnd n h3
  have hvl : lb.var = x := hL3.var false x lb l1'
  have hvu : ub.var = x := hL3.var true x ub u1'
  have hvn : n.var = x := (hL3.dis x n n1).var
  have hundef : st.models.rats.defined x = false := by
    by_contra hd
    rw [Bool.not_eq_false] at hd
    have r1 := (hL3.resp false x lb l1' l2 hd).1
    have r2 := (hL3.resp true x ub u1' u2 hd).1
    unfold dq at r1 r2
    simp only [if_true, Bool.false_eq_true, if_false] at r1 r2
    exact hL3.respD x n n1 n3 hd (by rw [n2]; linarith)
  have gn := hL3.dis x n n1
  generalize hk : (if (st.store.coefsOf n.reason).head?.getD 0 > 0 then (1 : ℚ) else -1) = k at *
  have hk0 : k ≠ 0 := by rw [← hk]; split <;> norm_num
  obtain ⟨w1, c1, p1, t1, _⟩ := neq_init hL3 n1 n3 hk0
  have E1 := elim_of_good hL3.inv (hL3.resp) (hL3.good false x lb l1') l2
    (by rw [hvl]; exact hundef)
  have C1 := eliminateC_some hL3.inv (hL3.resp) (hL3.good false x lb l1') l2
    (by rw [hvl]; exact hundef)
  obtain ⟨f1, f2, f3, f4⟩ := finish_spec hv hc lvl hL3 hw1 hfl1
  have hL4 := steps_linv hv hc hL3 f1
  unfold finishSt at f1 f2 f3 f4 hL4
  dsimp only at f1 f2 f3 f4 hL4 w1 c1 p1 t1 E1 C1
  have nz1 : co n.var (lb.eliminate st.store st.models).1.poly.terms ≠ 0 := by
    have := E1.nz
    rw [hvl] at this
    rw [hvn]; exact this
  have nz2 : co n.var (Fm.initWith st.store n.reason .lt k).poly.terms ≠ 0 := by
    rw [hvn, c1]
    exact mul_ne_zero hk0 gn.nz
  have R1 := Fm.resolveC_some E1.wf w1 nz1 nz2
  generalize hfin : finish hv hc lvl st.store st.models
    ((lb.eliminate st.store st.models).1.resolve (Fm.initWith st.store n.reason .lt k) n.var) = F at *
  have lub := f2.live hL3.inv hL4.inv (hL3.good true x ub u1') u2
  have ln := f2.liveN hL3.inv hL4.inv gn n3
  have hundef2 : F.2.1.rats.defined x = false := by
    have := f2.rats
    dsimp only at this
    rw [this]; exact hundef
  obtain ⟨w2, c2, p2, t2, _⟩ := neq_init hL4 n1 ln (k := -k) (neg_ne_zero.mpr hk0)
  have E2 := elim_of_good hL4.inv (hL4.resp) (hL4.good true x ub u1') lub
    (by rw [hvu]; exact hundef2)
  have C2 := eliminateC_some hL4.inv (hL4.resp) (hL4.good true x ub u1') lub
    (by rw [hvu]; exact hundef2)
  have gn2 := hL4.dis x n n1
  have nz3 : co n.var (ub.eliminate F.1 F.2.1).1.poly.terms ≠ 0 := by
    have := E2.nz
    rw [hvu] at this
    rw [hvn]; exact this
  have nz4 : co n.var (Fm.initWith F.1 n.reason .lt (-k)).poly.terms ≠ 0 := by
    rw [hvn]
    dsimp only at c2
    rw [c2]
    exact mul_ne_zero (neg_ne_zero.mpr hk0) gn2.nz
  exact ⟨by rw [hvl, hvu], by rw [hvn, hvl], gn.cons.not_empty hL3.inv gn.nz, C1, R1, C2,
    Fm.resolveC_some E2.wf w2 nz3 nz4⟩

end Lra

/-- A clause that holds for all values has at least two literals. -/
theorem valid_length {s : LinStore} (hI : Inv s) {cl : Clause} (hv : ∀ σ, ∃ l ∈ cl, LitMeans s l σ)
    (hr : ∀ l ∈ cl, ∃ c, IsCons s c ∧ c.lit.ord = l.ord) (hne : ∀ c, IsCons s c → s.terms c ≠ []) :
    2 ≤ cl.length := by
  match cl, hv, hr with
  | [], hv, _ => obtain ⟨l, hl, _⟩ := hv (fun _ => 0); cases hl
  | [l], hv, hr =>
    exfalso
    obtain ⟨c0, ⟨c, hcm, hce⟩, ho0⟩ := hr l (by simp)
    have hc : IsCons s c := ⟨c, hcm, Or.inl rfl⟩
    have ho : c.lit.ord = l.ord := by
      rw [← ho0]
      rcases hce with rfl | rfl
      · rfl
      · exact (Lit.ord_neg _).symm
    have hget := LinStore.get_of_mem hI hcm
    rw [ho] at hget
    have hw := hc.terms_wf hI
    have key : ∀ t : ℚ, ∃ σ, lsum σ (s.terms c) = t := by
      intro t
      cases ht : s.terms c with
      | nil => exact absurd ht (hne c hc)
      | cons p ps =>
        have hp : p ∈ s.terms c := by rw [ht]; simp
        rw [← ht]
        refine ⟨fun y => 0 + t / p.2 * delta p.1 y, ?_⟩
        rw [LinStore.lsum_lin, LinStore.delta_mem hw.nodup hp, div_mul_cancel₀ _ (hw.nz p hp)]
        have : lsum (fun _ => (0 : ℚ)) (s.terms c) = 0 := by
          generalize s.terms c = ts
          induction ts with
          | nil => rfl
          | cons q qs ih => simp [lsum] at ih ⊢
        rw [this, zero_add]
    obtain ⟨a, b, ha, hb⟩ := LinStore.rel_not_const c.pred c.rhs
    obtain ⟨σ, hσ⟩ := key a
    obtain ⟨τ, hτ⟩ := key b
    have ta : LinTrue σ (s.terms c) c.pred c.rhs := by unfold LinTrue; rw [hσ]; exact ha
    have tb : ¬ LinTrue τ (s.terms c) c.pred c.rhs := by unfold LinTrue; rw [hτ]; exact hb
    obtain ⟨l1, hl1, m1⟩ := hv σ
    obtain ⟨l2, hl2, m2⟩ := hv τ
    rw [List.mem_singleton] at hl1 hl2
    subst hl1; subst hl2
    unfold LitMeans at m1 m2
    rw [hget] at m1 m2
    rcases m1 with ⟨g1, _⟩ | ⟨_, g2⟩
    · rcases m2 with ⟨_, g2⟩ | ⟨g2, _⟩
      · exact tb g2
      · rw [g1] at g2; cases g2
    · exact g2 ta
  | _ :: _ :: _, _, _ => simp

namespace LA
open Lra
variable {R : Type} {hv : Nat → Nat} {hc : ℚ → Nat} {X Y : Nat → Nat → Prop} {la : LA R}

theorem Keep.finishFmC (h : Keep hv hc la X Y (fun _ => lev la.trail)) {f : Fm}
    (hw : WfTerms f.poly.terms) (hfalse : ∀ σ, Agrees la.models σ → ¬ FmTrue σ f) :
    la.finishFmC hv hc f = some (la.finishFm hv hc f) ∧
      (la.finishFm hv hc f).1.derivedOk (la.finishFm hv hc f).2 = true := by
  constructor
  · unfold LA.finishFmC
    have : (f.poly.terms.all fun t => (la.level t.1).isSome) = true := by
      rw [List.all_eq_true]
      intro p hp
      obtain ⟨l, hl⟩ := h.defined.mp (fm_assigned hw hfalse p hp)
      unfold LA.level
      unfold lev at hl
      rw [hl]; rfl
    rw [ensure_true this]
    rfl
  · obtain ⟨k1, k2, k3, k4⟩ := h.finishFm hw hfalse
    have hL : LInv la.core := h.base.linv
    obtain ⟨f1, f2, f3, f4⟩ := finish_spec hv hc la.sortLevel hL hw hfalse
    rw [← k3] at f2 f3 f4
    generalize hr : la.finishFm hv hc f = r at *
    have f4' : (r.2 = none ∧ ∀ σ, ¬ FmTrue σ f) ∨ ∃ c, r.2 = some c ∧ IsCons r.1.store c ∧
        (∀ σ, LitMeans r.1.store c.lit σ ↔ FmTrue σ f) ∧
        (ValuesConsistent la.store la.models → evalLit r.1.models.bools c.lit = some false) := by
      rw [k4]; exact f4
    rcases f4' with ⟨f4, _⟩ | ⟨c, f4, f5, f6, f7⟩
    · rw [f4]; rfl
    · rw [f4]
      have hfl := f7 h.sem.vals
      have hrats : r.1.models.rats = la.models.rats := f2.rats
      have hnt : ∀ σ, Agrees r.1.models σ → ¬ ConsTrue r.1.store c σ := by
        intro σ hσ hct
        unfold Agrees at hσ
        rw [hrats] at hσ
        exact hfalse σ hσ ((f6 σ).mp ((f5.litMeans k1.base.inv σ).1.mpr hct))
      have has := f5.assigned_of_false k1.base.inv hnt
      have hv0 : ¬ ConsTrue r.1.store c r.1.models.rats.value := hnt _ (fun _ _ => rfl)
      have h1 : (r.1.store.varsOf c).all (fun x => r.1.trail.rats.defined x) = true := by
        rw [List.all_eq_true, f5.varsOf k1.base.inv]
        intro x hx
        obtain ⟨p, hp, rfl⟩ := List.mem_map.mp hx
        exact has p hp
      have h2 : r.1.store.eval r.1.trail.rats c = false := by
        cases he : r.1.store.eval r.1.trail.rats c with
        | false => rfl
        | true => exact absurd ((LinStore.eval_iff _ _ _).mp he) hv0
      have h3 : r.1.store.evalOpt r.1.trail.rats c = some false := by
        unfold LinStore.evalOpt
        rw [if_pos h1, h2]
      have h4 : evalLit r.1.trail.bools c.lit = some false := hfl
      unfold LA.derivedOk
      dsimp only
      rw [h3, h4]; rfl

theorem Refuted.length {Lf : Nat → Nat → Option Nat} {cl : Clause} (hr : Refuted la cl)
    (h : Keep hv hc la X Y Lf) : 2 ≤ cl.length :=
  valid_length h.base.inv hr.valid hr.real fun c hcc e => by
    have := h.base.vars_ne hcc
    rw [hcc.varsOf h.base.inv, e] at this
    exact this rfl

theorem Keep.boundConflictC (h : Keep hv hc la X Y (fun _ => lev la.trail)) (x : Nat) :
    la.boundConflictC hv hc x = some (la.boundConflict hv hc x) := by
  have hk1 := (h.boundConflict x).1
  have hre : ∀ cl, (la.boundConflict hv hc x).2 = some cl → Refuted (la.boundConflict hv hc x).1 cl := by
    intro cl hcl
    have hL : LInv la.core := h.base.linv
    have s1 := (boundConflict_spec hv hc la.sortLevel hL x).2
    rw [← (h.boundConflict x).2.2] at s1
    exact Refuted.of_conflict h (s1 cl hcl)
  obtain ⟨hs, hL, _, _⟩ := two_queries hv hc h.base.linv x
  have hk : KeepsAll la.store la.models la.bnd
      ((la.bnd.lower la.store la.models x).1.upper la.store la.models x).1 :=
    ((shrunk_query la.store la.models la.bnd false x).trans
      (shrunk_query la.store la.models _ true x)).keepsAll
  have h0 : Keep hv hc { la with bnd := ((la.bnd.lower la.store la.models x).1.upper la.store la.models x).1 } X Y
      (fun _ => lev la.trail) := h.bnd hs hk
  unfold LA.boundConflict at hre hk1
  unfold LA.boundConflictC LA.boundConflict
  dsimp only at hre hk1 ⊢
  cases h1 : (la.bnd.lower la.store la.models x).2 with
  | none => rfl
  | some lb =>
    cases h2 : ((la.bnd.lower la.store la.models x).1.upper la.store la.models x).2 with
    | none => rfl
    | some ub =>
      rw [h1, h2] at hre hk1
      dsimp only at hre hk1 ⊢
      by_cases hcond : lb.value < ub.value ∨
          (lb.value = ub.value ∧ (lb.isStrict || ub.isStrict) = false)
      · rw [if_pos hcond, if_pos hcond]
      · rw [if_neg hcond] at hre hk1
        rw [if_neg hcond, if_neg hcond]
        have hL0 : LInv la.core := h.base.linv
        obtain ⟨c1, c2, c3, c4⟩ := boundConflict_checked hL0 x h1 h2 hcond
        obtain ⟨hw, hfl⟩ := boundConflict_false hL0 x h1 h2 hcond
        dsimp only [core] at c2 c3 c4 hw hfl
        obtain ⟨d1, d2⟩ := h0.finishFmC hw hfl
        have hr := hre _ rfl
        have hlen := hr.length hk1
        have hev := (evalClause_false_iff _ _).mpr hr.false
        rw [ensure_true (b := lb.var == ub.var) (by rw [c1]; simp), c2, c3]
        simp only [bind, Option.bind]
        rw [c4]
        dsimp only
        rw [d1]
        dsimp only
        rw [ensure_true d2]
        dsimp only
        rw [ensure_true (b := Nat.ble 2 _) (Nat.ble_eq.mpr hlen)]
        dsimp only
        rw [hev]
        rfl

theorem Keep.ineqRestC (h : Keep hv hc la X Y (fun _ => lev la.trail)) {lb ub n : Bnd} {k : ℚ}
    (h1 : lb.var = ub.var) (h2 : n.var = lb.var) (h3 : n.reason.isEmpty = false)
    (c4 : lb.eliminateC la.store la.models = some (lb.eliminate la.store la.models))
    (c5 : (lb.eliminate la.store la.models).1.resolveC (Fm.initWith la.store n.reason .lt k) n.var =
      some ((lb.eliminate la.store la.models).1.resolve (Fm.initWith la.store n.reason .lt k) n.var))
    {f1 : Fm} (hf1 : f1 = (lb.eliminate la.store la.models).1.resolve (Fm.initWith la.store n.reason .lt k) n.var)
    {F : LinStore × LModels × Option LinCons}
    (hF : F = Lra.finish hv hc la.sortLevel la.store la.models f1)
    (c6 : ub.eliminateC F.1 F.2.1 = some (ub.eliminate F.1 F.2.1))
    {f2 : Fm} (hf2 : f2 = (ub.eliminate F.1 F.2.1).1.resolve (Fm.initWith F.1 n.reason .lt (-k)) n.var)
    (c7 : (ub.eliminate F.1 F.2.1).1.resolveC (Fm.initWith F.1 n.reason .lt (-k)) n.var = some f2)
    (w1 : WfTerms f1.poly.terms) (g1 : ∀ σ, Agrees la.models σ → ¬ FmTrue σ f1)
    (w2 : WfTerms f2.poly.terms) (g2 : ∀ σ, Agrees F.2.1 σ → ¬ FmTrue σ f2)
    {r1 r2 : LA R × Option LinCons} (hr1 : r1 = la.finishFm hv hc f1)
    (hr2 : r2 = r1.1.finishFm hv hc ((ub.eliminate r1.1.store r1.1.models).1.resolve
      (Fm.initWith r1.1.store n.reason .lt (-k)) n.var))
    {cl : Clause} (hcl : cl = pushDerived (pushDerived (n.reason.lit.neg :: (lb.eliminate la.store la.models).2) r1.2 ++
      (ub.eliminate r1.1.store r1.1.models).2) r2.2)
    (hre : Refuted r2.1 (sortClause cl)) :
    la.ineqRestC hv hc lb ub n k = some (r2.1, some (sortClause cl)) := by
  obtain ⟨a1, a2, a3, a4⟩ := h.finishFm w1 g1
  obtain ⟨d1, d2⟩ := h.finishFmC w1 g1
  rw [← hr1] at a1 a2 a3 d1 d2
  have e3 : F.1 = r1.1.store := by rw [hF]; exact (congrArg St.store a3).symm
  have e4 : F.2.1 = r1.1.models := by rw [hF]; exact (congrArg St.models a3).symm
  rw [e3, e4] at c6 c7 hf2
  rw [e4] at g2
  rw [← hf2] at hr2
  obtain ⟨b1, b2⟩ := a1.finishFmC w2 g2
  rw [← hr2] at b1 b2
  rw [← hf1] at c5
  have hev : evalClause r2.1.trail.bools cl = some false :=
    (evalClause_false_iff _ _).mpr (fun l hl => hre.false l (by
      unfold sortClause
      rw [mem_uniq, mem_sortBy]
      exact hl))
  unfold LA.ineqRestC
  rw [ensure_true (b := lb.var == ub.var) (by rw [h1]; simp),
    ensure_true (b := n.var == lb.var) (by rw [h2]; simp), c4, Fm.initWithC_some h3]
  simp only [bind, Option.bind, c5, d1, ensure_true d2, c6, Fm.initWithC_some h3, c7, b1, ensure_true b2,
    ← hcl, hev]
  rfl

theorem Keep.ineqConflictC (h : Keep hv hc la X Y (fun _ => lev la.trail)) (x : Nat) :
    la.ineqConflictC hv hc x = some (la.ineqConflict hv hc x) := by
  have hre : ∀ cl, (la.ineqConflict hv hc x).2 = some cl → Refuted (la.ineqConflict hv hc x).1 cl := by
    intro cl hcl
    have hL : LInv la.core := h.base.linv
    have s1 := (ineqConflict_spec hv hc la.sortLevel hL x).2
    rw [← (h.ineqConflict x).2.2] at s1
    exact Refuted.of_conflict h (s1 cl hcl)
  obtain ⟨hs, hL, _, _⟩ := two_queries hv hc h.base.linv x
  have hk := (shrunk_query la.store la.models la.bnd false x).trans
      (shrunk_query la.store la.models _ true x)
  have h0 := h.bnd hs hk.keepsAll
  unfold LA.ineqConflict at hre
  unfold LA.ineqConflictC LA.ineqConflict
  dsimp only at hre ⊢
  cases h1 : (la.bnd.lower la.store la.models x).2 with
  | none => rfl
  | some lb =>
    cases h2 : ((la.bnd.lower la.store la.models x).1.upper la.store la.models x).2 with
    | none => rfl
    | some ub =>
      rw [h1, h2] at hre
      dsimp only at hre ⊢
      by_cases hcond : lb.value ≠ ub.value ∨ lb.reason.isStrict = true ∨ ub.reason.isStrict = true
      · rw [if_pos hcond, if_pos hcond]
      · rw [if_neg hcond] at hre
        rw [if_neg hcond, if_neg hcond]
        have hs3 : Steps hv hc la.core { la.core with
            bnd := ((la.bnd.lower la.store la.models x).1.upper la.store la.models x).1.put x
              ((((la.bnd.lower la.store la.models x).1.upper la.store la.models x).1.vb x).inequality
                la.store la.models lb.value).1 } :=
          Steps.step (.inequality x lb.value) hs trivial
        have hk3 := (hk.trans (shrunk_inequality la.store la.models
          ((la.bnd.lower la.store la.models x).1.upper la.store la.models x).1 x lb.value)).keepsAll
        have h3' : Keep hv hc { la with
            bnd := ((la.bnd.lower la.store la.models x).1.upper la.store la.models x).1.put x
              ((((la.bnd.lower la.store la.models x).1.upper la.store la.models x).1.vb x).inequality
                la.store la.models lb.value).1 } X Y (fun _ => lev la.trail) := h.bnd hs3 hk3
        cases h3 : ((((la.bnd.lower la.store la.models x).1.upper la.store la.models x).1.vb x).inequality
            la.store la.models lb.value).2 with
        | none => rfl
        | some n =>
          rw [h3] at hre
          dsimp only at hre ⊢
          have hL0 : LInv la.core := h.base.linv
          obtain ⟨⟨w1, f1⟩, w2, f2⟩ :=
            ineqConflict_false hv hc la.sortLevel hL0 x h1 h2 hcond h3
          obtain ⟨c1, c2, c3, c4, c5, c6, c7⟩ :=
            ineqConflict_checked hv hc la.sortLevel hL0 x h1 h2 hcond h3
          exact Keep.ineqRestC h3' c1 c2 c3 c4 c5 rfl rfl c6 rfl c7 w1 f1 w2 f2 rfl rfl rfl (hre _ rfl)

theorem Keep.checkBoundsC (h : Keep hv hc la X Y (fun _ => lev la.trail)) (x : Nat) :
    la.checkBoundsC hv hc x = some (la.checkBounds hv hc x) := by
  unfold LA.checkBoundsC LA.checkBounds
  rw [h.boundConflictC]
  simp only [bind, Option.bind]
  split
  · rfl
  · exact (h.boundConflict x).1.ineqConflictC x

theorem Keep.finishLoopC (o : LaOpts) : ∀ (xs : List Nat) {la : LA R},
    Keep hv hc la X Y (fun _ => lev la.trail) →
    la.finishLoopC hv hc o xs = some (la.finishLoop hv hc o xs) := by
  intro xs
  induction xs with
  | nil => intro la h; rfl
  | cons x xs ih =>
    intro la h
    unfold LA.finishLoopC LA.finishLoop
    rw [h.checkBoundsC]
    simp only [bind, Option.bind]
    obtain ⟨k1, k2, k3⟩ := h.checkBounds x
    generalize hq : la.checkBounds hv hc x = q at *
    cases hcl : q.2 with
    | some cl =>
      dsimp only
      split
      · rw [ih k1]; rfl
      · rfl
    | none =>
      dsimp only
      split
      · obtain ⟨d1, d2⟩ := k1.effectivelyDecided x
        generalize q.1.effectivelyDecided x = d at *
        apply ih
        rw [← d2.lev_eq] at d1
        split
        · exact (d1.decidedList _).1
        · exact d1
      · exact ih k1

theorem Keep.finishC (o : LaOpts) (h : Keep hv hc la X Y (fun _ => lev la.trail)) :
    la.finishC hv hc o = some (la.finish hv hc o) := by
  have hs : Steps hv hc la.core { la.core with bnd := la.bnd.changed.1 } :=
    Steps.step .changed (Steps.refl _) trivial
  have k := h.bnd hs (keepsAll_congr rfl)
  exact Keep.finishLoopC o la.bnd.changed.2 k

theorem Keep.propagateTailC (o : LaOpts) (h : Keep hv hc la X Y (fun _ => lev la.trail)) :
    (if o.propBounds then la.propagateBounds else la).finishC hv hc o =
      some ((if o.propBounds then la.propagateBounds else la).finish hv hc o) := by
  have key : Keep hv hc (if o.propBounds then la.propagateBounds else la) X Y
      (fun _ => lev (if o.propBounds then la.propagateBounds else la).trail) := by
    split
    · obtain ⟨k1, k2⟩ := h.propagateBounds
      rw [k2.lev_eq]; exact k1
    · exact h
  exact key.finishC o

/-- No assertion of `propagate` fails in a state with the invariant. -/
theorem Good.propagateC {s : Stage} {w : Option Nat} (h : Good hv hc la s w) (o : LaOpts) :
    la.propagateC hv hc o = some (la.propagate hv hc o) := by
  have hok : (la.propagate hv hc o).1.ok = true := (h.propagate (o := o)).1.keep.ok
  have key : (if o.propBounds then
      ((la.takeAssigned.2.filter la.relevant).foldl onAssigned la.takeAssigned.1).propagateBounds
      else (la.takeAssigned.2.filter la.relevant).foldl onAssigned la.takeAssigned.1).finishC hv hc o =
      some (la.propagate hv hc o) := by
    cases w with
    | none =>
      obtain ⟨k1, _⟩ := Keep.handled (la := la) h.keep
      exact k1.propagateTailC o
    | some x =>
      obtain ⟨l1, l2, l3⟩ := h.last x rfl
      have hskip : la.skip = 0 := by unfold LA.skip; rw [if_neg l3]
      obtain ⟨k1, k2⟩ := Keep.replaceWatch (la := la.takeAssigned.1) l2 h.keep.take
      rw [← k2.lev_eq] at k1
      have e : la.takeAssigned.2 = [⟨.rational, x⟩] := by
        unfold LA.takeAssigned
        dsimp only
        rw [l1, hskip]
        rfl
      have e2 : (la.takeAssigned.2.filter la.relevant).foldl onAssigned la.takeAssigned.1 =
          la.takeAssigned.1.replaceWatch x := by rw [e]; rfl
      have e3 : la.propagate hv hc o = (if o.propBounds then (la.takeAssigned.1.replaceWatch x).propagateBounds
          else la.takeAssigned.1.replaceWatch x).finish hv hc o := by
        unfold LA.propagate
        dsimp only
        rw [e2]
      rw [e2, e3]
      exact k1.propagateTailC o
  unfold LA.propagateC
  dsimp only
  rw [key]
  simp only [bind, Option.bind]
  rw [ensure_true hok]
  rfl

end LA

namespace VBounds
variable {s : LinStore} {m : LModels}

/-- `find_integer` says that there is no integer only if there is a lower and an upper bound. -/
theorem findInteger_none {v : VBounds} {fuel : Nat} (h : (findInteger s m fuel v).2 = some none) :
    (v.lower s m).2.isSome = true ∧ (v.upper s m).2.isSome = true := by
  have hu : (v.upper s m).2 = ((v.lower s m).1.upper s m).2 := ((eqv_lower v).upper).symm
  rw [hu]
  unfold findInteger at h
  dsimp only at h
  generalize (v.lower s m).2 = l at *
  generalize ((v.lower s m).1.upper s m).2 = u at *
  rcases l with _ | lb <;> rcases u with _ | ub
  · dsimp only at h
    cases h' : (around s m fuel 0 ((v.lower s m).1.upper s m).1).2 <;> rw [h'] at h <;> cases h
  · dsimp only at h
    split at h
    · cases h
    · dsimp only at h
      generalize (walk s m (-1) fuel _ _).2 = w at h
      cases w <;> cases h
  · dsimp only at h
    split at h
    · cases h
    · dsimp only at h
      generalize (walk s m 1 fuel _ _).2 = w at h
      cases w <;> cases h
  · exact ⟨rfl, rfl⟩

/-- If the bounds permit a value, the assertions of `find_integer` hold. -/
theorem findIntegerOk_of {v : VBounds} {q : ℚ} (h : Allows s m v q) : findIntegerOk s m v = true := by
  have hu : (v.upper s m).2 = ((v.lower s m).1.upper s m).2 := ((eqv_lower v).upper).symm
  unfold findIntegerOk
  dsimp only
  rw [← hu]
  cases hl : (v.lower s m).2 with
  | none => rfl
  | some lb =>
    cases hb : (v.upper s m).2 with
    | none => rfl
    | some ub =>
      have h1 := allows_ge h hl
      have h2 := allows_le h hb
      dsimp only
      split_ifs with c1 c2
      · exact decide_eq_true (le_trans c1 (h1.trans h2))
      · exact decide_eq_true ((h1.trans h2).trans c2)
      · rw [Bool.and_eq_true]
        exact ⟨decide_eq_true (not_le.mp c1).le, decide_eq_true (not_le.mp c2).le⟩

/-- If the bounds permit a value, the assertions met while one is chosen hold. -/
theorem chooseOk_of {v : VBounds} {q : ℚ} (h : Allows s m v q) (fuel : Nat) (cached : Option ℚ) :
    chooseOk s m fuel cached v = true := by
  unfold chooseOk
  dsimp only
  have e := eqv_isAllowed (s := s) (m := m) v (cached.getD 0)
  generalize (v.isAllowed s m (cached.getD 0)) = r at *
  split
  · rfl
  · rw [findIntegerOk_of ((e.allows q).mpr h), Bool.true_and]
    have e2 := (findInteger_sound (s := s) (m := m) r.1 fuel).1
    split
    · rename_i hn
      obtain ⟨h1, h2⟩ := findInteger_none hn
      rw [e2.lower, h1, ((eqv_lower _).upper), e2.upper, h2]
      rfl
    · rfl

end VBounds

namespace LA
variable {R : Type} {hv : Nat → Nat} {hc : ℚ → Nat} {la : LA R}

/-- No assertion fails when a value is chosen. -/
theorem decideC_of {x : Nat} {q : ℚ} (h : Allows la.store la.models (la.bnd.vb x) q) {fuel : Nat}
    (hok : ∀ la', la.decide fuel x = some la' → la'.ok = true) :
    la.decideC fuel x = some (la.decide fuel x) := by
  unfold decideC
  rw [ensure_true (VBounds.chooseOk_of h fuel _)]
  simp only [bind, Option.bind]
  cases e : la.decide fuel x with
  | none => rfl
  | some la' =>
    dsimp only
    rw [ensure_true (hok la' e)]
    rfl

end LA
end Yaga
