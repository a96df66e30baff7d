/-
Conflict clauses of the arithmetic theory.
-/
import Verif.Proofs.LraFinish

set_option linter.unusedVariables false
set_option linter.unusedSimpArgs false

namespace Yaga
open Spec
open LinStore (delta WfTerms Inv Kept Made)

theorem dq_mul (up : Bool) (a b : ℚ) : (dq up * a) * (dq up * b) = a * b := by
  rcases dq_cases up with h | h <;> rw [h] <;> ring

theorem dq_not (up : Bool) : dq (!up) = - dq up := by cases up <;> simp [dq]

/-- Resolving the elimination of a bound with a constraint on the other side gives a constraint that is
false for every valuation that agrees with the model. -/
theorem resolve_false {s : LinStore} {m : LModels} {up : Bool} {b : Bnd} {f g : Fm} {ls : List Lit}
    (E : Elim s m up b f ls) (hg : WfTerms g.poly.terms) (hgn : co b.var g.poly.terms ≠ 0)
    (hgs : g.pred ≠ .eq → 0 < dq (!up) * co b.var g.poly.terms) {q : ℚ}
    (hgr : ∀ σ, Agrees m σ →
      pval σ g.poly.terms g.poly.const = co b.var g.poly.terms * (σ b.var - q))
    (hq : 0 < dq up * (q - b.value) ∨
      (dq up * (q - b.value) = 0 ∧ (g.pred = .lt ∨ b.isStrict = true))) :
    WfTerms (f.resolve g b.var).poly.terms ∧
    (∀ σ, FmTrue σ f → FmTrue σ g → FmTrue σ (f.resolve g b.var)) ∧
    ∀ σ, Agrees m σ → ¬ FmTrue σ (f.resolve g b.var) := by
  obtain ⟨v, hv1, hv2, hv3⟩ := E.root
  have hside : f.pred = .eq ∨ g.pred = .eq ∨
      co b.var f.poly.terms * co b.var g.poly.terms < 0 := by
    by_cases hfe : f.pred = .eq
    · exact Or.inl hfe
    · by_cases hge : g.pred = .eq
      · exact Or.inr (Or.inl hge)
      · right; right
        have h1 := E.sgn hfe
        have h2 := hgs hge
        rw [dq_not] at h2
        have h3 := mul_pos h1 h2
        have h4 : dq up * co b.var f.poly.terms * (-dq up * co b.var g.poly.terms) =
          -(co b.var f.poly.terms * co b.var g.poly.terms) := by
          rw [← dq_mul up (co b.var f.poly.terms) (co b.var g.poly.terms)]; ring
        linarith
  obtain ⟨u, k, r1, r2, r3, r4, r5, r6, r7, r8, r9, r10⟩ :=
    Fm.resolve_sound E.wf hg E.nz hgn hside
  refine ⟨r8, r10, ?_⟩
  intro σ hσ hF
  have hpv := r6 σ
  have hx := r7 b.var
  rw [r9] at hx
  rw [hv1 σ hσ, hgr σ hσ] at hpv
  generalize hA : co b.var f.poly.terms = a at *
  generalize hB : co b.var g.poly.terms = c at *
  have hpv2 : pval σ (f.resolve g b.var).poly.terms (f.resolve g b.var).poly.const =
      u * a * (q - v) := by
    rw [hpv]
    have : k * c = - (u * a) := by linarith
    calc u * (a * (σ b.var - v)) + k * (c * (σ b.var - q)) =
        u * a * (σ b.var - v) + k * c * (σ b.var - q) := by ring
      _ = u * a * (q - v) := by rw [this]; ring
  -- distance of the roots
  have hd : 0 ≤ dq up * (q - v) ∧
      (0 < dq up * (q - v) ∨ f.pred = .lt ∨ g.pred = .lt) := by
    have e : dq up * (q - v) = dq up * (q - b.value) - dq up * (v - b.value) := by ring
    rcases hq with h | ⟨h, h' | h'⟩
    · exact ⟨by linarith, Or.inl (by linarith)⟩
    · exact ⟨by linarith, Or.inr (Or.inr h')⟩
    · refine ⟨by linarith, ?_⟩
      rcases hv3 h' with h3 | h3
      · left; linarith
      · right; left; exact h3
  -- sign of the coefficient
  have hs : ¬ (f.pred = .eq ∧ g.pred = .eq) → 0 < dq up * (u * a) := by
    intro hne
    by_cases hfe : f.pred = .eq
    · have hge : g.pred ≠ .eq := fun h => hne ⟨hfe, h⟩
      have h5 := r5 hge
      have h6 := hgs hge
      rw [dq_not] at h6
      have h7 : (dq up * (u * a)) * (-dq up * c) = - (u * a * c) := by
        rw [← dq_mul up (u * a) c]; ring
      by_contra h8
      rw [not_lt] at h8
      have := mul_nonpos_of_nonpos_of_nonneg h8 h6.le
      linarith
    · rw [r2 hfe, one_mul]
      rw [← hA]; exact E.sgn hfe
  have hpred : (f.resolve g b.var).pred = Fm.combine f.pred g.pred := rfl
  unfold FmTrue at hF
  rw [hpv2, hpred] at hF
  have hprod : u * a * (q - v) = (dq up * (u * a)) * (dq up * (q - v)) := (dq_mul up _ _).symm
  by_cases hee : f.pred = .eq ∧ g.pred = .eq
  · rw [Fm.combine_eq.mpr hee] at hF
    have hF : u * a * (q - v) = 0 := hF
    have hqv : 0 < dq up * (q - v) := by
      rcases hd.2 with h | h | h
      · exact h
      · rw [hee.1] at h; cases h
      · rw [hee.2] at h; cases h
    have hu0 : u * a ≠ 0 := by
      refine mul_ne_zero ?_ (hA ▸ E.nz)
      rcases r1 with h | h <;> rw [h] <;> norm_num
    rcases mul_eq_zero.mp hF with h | h
    · exact hu0 h
    · rw [h] at hqv; simp at hqv
  · have h1 := hs hee
    by_cases hlt : f.pred = .lt ∨ g.pred = .lt
    · rw [Fm.combine_lt.mpr hlt] at hF
      have hF : u * a * (q - v) < 0 := hF
      have := mul_nonneg h1.le hd.1
      linarith
    · have hqv : 0 < dq up * (q - v) := by
        rcases hd.2 with h | h
        · exact h
        · exact absurd h hlt
      have h2 := mul_pos h1 hqv
      rw [← hprod] at h2
      have hF' : u * a * (q - v) ≤ 0 := by
        cases hc : Fm.combine f.pred g.pred <;> rw [hc] at hF
        · exact absurd (Fm.combine_eq.mp hc) hee
        · exact absurd (Fm.combine_lt.mp hc) hlt
        · exact hF
      linarith

namespace Lra

theorem Same.varsOf {st st' : St} (h : Same st st') (hI : Inv st.store) (hI' : Inv st'.store)
    {c : LinCons} (hc : IsCons st.store c) : st'.store.varsOf c = st.store.varsOf c := by
  rw [(hc.kept h.kept).1.varsOf hI', hc.varsOf hI, h.terms c hc]

theorem Same.live {st st' : St} (h : Same st st') (hI : Inv st.store) (hI' : Inv st'.store)
    {S : Bool → Nat → List Bnd} {up : Bool} {b : Bnd} (g : GoodB st.store st.models S up b)
    (hl : b.isObsolete st.store st.models = false) : b.isObsolete st'.store st'.models = false := by
  induction g with
  | mk up x v c ds ct vt t μ dd hc hne ht ht1 hx hnd hxd hdir hval hμ hct hst hdeps ih =>
    rw [live_iff] at hl ⊢
    obtain ⟨⟨l1, l2⟩, l3, l4⟩ := hl
    refine ⟨⟨h.evalLit l1, ?_⟩, ?_, fun d hd => ih d hd (l4 d hd)⟩
    · have hd : st.models.bools.defined c.lit.ord = true := by
        unfold Yaga.evalLit at l1
        by_contra hu
        rw [if_neg hu] at l1; cases l1
      rw [(h.bools _ hd).2.2]; exact l2
    · rw [h.varsOf hI hI' hc, h.rats]; exact l3

theorem Same.liveN {st st' : St} (h : Same st st') (hI : Inv st.store) (hI' : Inv st'.store)
    {x : Nat} {b : Bnd} (g : GoodN st.store st.models x b)
    (hl : b.isObsolete st.store st.models = false) : b.isObsolete st'.store st'.models = false := by
  obtain ⟨x', v, c, ds, ct, vt⟩ := b
  have hc : IsCons st.store c := g.cons
  have hds : ds = [] := g.deps
  subst hds
  rw [live_iff] at hl ⊢
  obtain ⟨⟨l1, l2⟩, l3, l4⟩ := hl
  refine ⟨⟨h.evalLit l1, ?_⟩, ?_, by simp⟩
  · have hd : st.models.bools.defined c.lit.ord = true := by
      unfold Yaga.evalLit at l1
      by_contra hu
      rw [if_neg hu] at l1; cases l1
    rw [(h.bools _ hd).2.2]; exact l2
  · rw [h.varsOf hI hI' hc, h.rats]; exact l3

/-- What the analyses promise about a conflict clause: it is valid, and all its literals are false. -/
structure Conflict (st st' : St) (cl : Clause) : Prop where
  same : Kept st.store st'.store
  rats : st'.models.rats = st.models.rats
  evals : ∀ l v, Yaga.evalLit st.models.bools l = some v → Yaga.evalLit st'.models.bools l = some v
  valid : ∀ σ, ∃ l ∈ cl, LitMeans st'.store l σ
  falsified : ValuesConsistent st.store st.models →
    ∀ l ∈ cl, Yaga.evalLit st'.models.bools l = some false
  consistent : ValuesConsistent st.store st.models → ValuesConsistent st'.store st'.models
  /-- all literals stand for constraints -/
  real : ∀ l ∈ cl, ∃ c, IsCons st'.store c ∧ c.lit.ord = l.ord

theorem steps_trans {hv : Nat → Nat} {hc : ℚ → Nat} {a b c : St} (h1 : Steps hv hc a b)
    (h2 : Steps hv hc b c) : Steps hv hc a c := by
  induction h2 with
  | refl => exact h1
  | step op _ ok ih => exact Steps.step op (ih) ok

theorem lit_false {s : LinStore} {m : LModels} {l : Lit}
    (h : ∃ c, IsCons s c ∧ evalLit m.bools c.lit = some true ∧ l = c.lit.neg) :
    evalLit m.bools l = some false := by
  obtain ⟨c, _, h2, rfl⟩ := h
  rw [evalLit_neg, h2]; rfl

/-- The two queries with which the analyses begin. -/
theorem two_queries {st : St} (hv : Nat → Nat) (hc : ℚ → Nat) (h : LInv st) (x : Nat) :
    Steps hv hc st { st with bnd := ((st.bnd.lower st.store st.models x).1.upper st.store st.models x).1 } ∧
    LInv { st with bnd := ((st.bnd.lower st.store st.models x).1.upper st.store st.models x).1 } ∧
    (∀ lb, (st.bnd.lower st.store st.models x).2 = some lb →
      lb ∈ stk ((st.bnd.lower st.store st.models x).1.upper st.store st.models x).1 false x ∧
      lb.isObsolete st.store st.models = false) ∧
    (∀ ub, ((st.bnd.lower st.store st.models x).1.upper st.store st.models x).2 = some ub →
      ub ∈ stk ((st.bnd.lower st.store st.models x).1.upper st.store st.models x).1 true x ∧
      ub.isObsolete st.store st.models = false) := by
  have hs : Steps hv hc st { st with bnd := ((st.bnd.lower st.store st.models x).1.upper st.store st.models x).1 } :=
    Steps.step (.upper x) (Steps.step (.lower x) (Steps.refl st) trivial) trivial
  refine ⟨hs, steps_linv hv hc h hs, ?_, ?_⟩
  · intro lb hlb
    obtain ⟨_, a2, a3⟩ := query_some (s := st.store) (m := st.models) (b := st.bnd) (up := false)
      (x := x) (t := lb) hlb
    exact ⟨query_live (st := ⟨st.store, st.models, (st.bnd.lower st.store st.models x).1⟩) true x
      false x lb a2 a3, a3⟩
  · intro ub hub
    obtain ⟨_, a2, a3⟩ := query_some (s := st.store) (m := st.models)
      (b := (st.bnd.lower st.store st.models x).1) (up := true) (x := x) (t := ub) hub
    exact ⟨a2, a3⟩

theorem boundConflict_spec (hv : Nat → Nat) (hc : ℚ → Nat) (lvl : Nat → Nat) {st : St} (h : LInv st)
    (x : Nat) :
    Steps hv hc st (boundConflict hv hc lvl st x).1 ∧
    ∀ cl, (boundConflict hv hc lvl st x).2 = some cl →
      Conflict st (boundConflict hv hc lvl st x).1 cl := by
  obtain ⟨hs, hL, hlb, hub⟩ := two_queries hv hc h x
  unfold boundConflict
  simp only
  generalize hl : st.bnd.lower st.store st.models x = l at *
  generalize hu : l.1.upper st.store st.models x = u at *
  cases h1 : l.2 with
  | none => exact ⟨hs, by simp⟩
  | some lb =>
    cases h2 : u.2 with
    | none => exact ⟨hs, by simp⟩
    | some ub =>
      simp only
      by_cases hcond : lb.value < ub.value ∨
          (lb.value = ub.value ∧ (lb.isStrict || ub.isStrict) = false)
      · rw [if_pos hcond]
        exact ⟨hs, by simp⟩
      · rw [if_neg hcond]
        obtain ⟨l1, l2⟩ := hlb lb h1
        obtain ⟨u1, u2⟩ := hub ub h2
        have hvl : lb.var = x := hL.var false x lb l1
        have hvu : ub.var = x := hL.var true x ub u1
        rw [not_or] at hcond
        obtain ⟨hc1, hc2⟩ := hcond
        have hstrict : lb.value = ub.value → lb.isStrict = true ∨ ub.isStrict = true := by
          intro e
          by_contra hn
          rw [not_or, Bool.not_eq_true, Bool.not_eq_true] at hn
          exact hc2 ⟨e, by rw [hn.1, hn.2]; rfl⟩
        rw [not_lt] at hc1
        have hundef : st.models.rats.defined x = false := by
          by_contra hd
          rw [Bool.not_eq_false] at hd
          have r1 := hL.resp false x lb l1 l2 hd
          have r2 := hL.resp true x ub u1 u2 hd
          unfold Resp dq at r1 r2
          simp only [if_true, Bool.false_eq_true, if_false] at r1 r2
          obtain ⟨r1a, r1b⟩ := r1
          obtain ⟨r2a, r2b⟩ := r2
          have e : lb.value = ub.value := by linarith
          rcases hstrict e with h' | h'
          · have := r1b h'; linarith
          · have := r2b h'; linarith
        have E1 := elim_of_good hL.inv (hL.resp) (hL.good false x lb l1) l2
          (by rw [hvl]; exact hundef)
        have E2 := elim_of_good hL.inv (hL.resp) (hL.good true x ub u1) u2
          (by rw [hvu]; exact hundef)
        dsimp only at E1 E2
        generalize he1 : lb.eliminate st.store st.models = e1 at *
        generalize he2 : ub.eliminate st.store st.models = e2 at *
        obtain ⟨v2, hv2a, hv2b, hv2c⟩ := E2.root
        have hvv : ub.var = lb.var := by rw [hvl, hvu]
        have E2' := E2
        rw [hvv] at hv2a
        have hnz2 := E2.nz
        have hsg2 := E2.sgn
        rw [hvv] at hnz2 hsg2
        -- the derived constraint is false
        have hroot : 0 < dq false * (v2 - lb.value) ∨
            (dq false * (v2 - lb.value) = 0 ∧ (e2.1.pred = .lt ∨ lb.isStrict = true)) := by
          unfold dq at hv2b hv2c ⊢
          simp only [if_true, Bool.false_eq_true, if_false] at hv2b hv2c ⊢
          by_cases hlt : v2 < lb.value
          · left; linarith
          · right
            have e3 : v2 = lb.value := by linarith
            have e4 : lb.value = ub.value := by linarith
            refine ⟨by rw [e3]; ring, ?_⟩
            rcases hstrict e4 with h' | h'
            · exact Or.inr h'
            · rcases hv2c h' with h'' | h''
              · linarith
              · exact Or.inl h''
        obtain ⟨hw, hsnd, hfl⟩ := resolve_false E1 E2.wf hnz2
          (by intro hp; exact hsg2 hp) hv2a hroot
        rw [hvv]
        obtain ⟨f1, f2, f3, f4⟩ := finish_spec hv hc lvl hL hw hfl
        have hL' := steps_linv hv hc hL f1
        unfold finishSt at f1 f2 f3 f4 hL'
        generalize hfin : finish hv hc lvl st.store st.models (e1.1.resolve e2.1 lb.var) = F at *
        refine ⟨steps_trans hs f1, ?_⟩
        intro cl hcl
        simp only [Option.some.injEq] at hcl
        subst hcl
        have hmem : ∀ l, l ∈ pushDerived (sortClause (e1.2 ++ e2.2)) F.2.2 ↔
            (l ∈ e1.2 ∨ l ∈ e2.2) ∨ ∃ c, F.2.2 = some c ∧ l = c.lit := by
          intro l
          unfold pushDerived sortClause
          rw [List.mem_append, mem_uniq, mem_sortBy, List.mem_append]
          simp only [List.mem_map, Option.mem_toList]
          constructor
          · rintro (h | ⟨c, h, rfl⟩)
            · exact Or.inl h
            · exact Or.inr ⟨c, h, rfl⟩
          · rintro (h | ⟨c, h, rfl⟩)
            · exact Or.inl h
            · exact Or.inr ⟨c, h, rfl⟩
        have hreason : ∀ l, (l ∈ e1.2 ∨ l ∈ e2.2) → ∃ c, IsCons st.store c ∧
            evalLit st.models.bools c.lit = some true ∧ l = c.lit.neg := by
          rintro l (hl' | hl')
          · exact E1.lits l hl'
          · exact E2.lits l hl'
        refine ⟨f2.kept, f2.rats, fun l v hv => f2.evalLit hv, ?_, ?_, f3, ?_⟩
        · intro σ
          by_contra hno
          have hall : ∀ l, l ∈ pushDerived (sortClause (e1.2 ++ e2.2)) F.2.2 →
              ¬ LitMeans F.1 l σ := fun l hl' hm => hno ⟨l, hl', hm⟩
          have hctrue : ∀ c, IsCons st.store c → (c.lit.neg ∈ e1.2 ∨ c.lit.neg ∈ e2.2) →
              ConsTrue st.store c σ := by
            intro c hc' hm
            have := hall _ ((hmem _).mpr (Or.inl hm))
            rw [((hc'.kept f2.kept).1.litMeans hL'.inv σ).2, not_not,
              consTrue_kept f2.kept hc'] at this
            exact this
          have t1 := E1.sound σ (fun c hc' hm => hctrue c hc' (Or.inl hm))
          have t2 := E2.sound σ (fun c hc' hm => hctrue c hc' (Or.inr hm))
          have t3 := hsnd σ t1 t2
          rcases f4 with ⟨_, f4⟩ | ⟨c, f4, _, f5, _⟩
          · exact f4 σ t3
          · exact hall c.lit ((hmem _).mpr (Or.inr ⟨c, f4, rfl⟩)) ((f5 σ).mpr t3)
        · intro hC l hl'
          rcases (hmem l).mp hl' with h' | ⟨c, h', rfl⟩
          · exact f2.evalLit (lit_false (hreason l h'))
          · rcases f4 with ⟨f4, _⟩ | ⟨c', f4, _, _, f5⟩
            · rw [f4] at h'; cases h'
            · rw [f4] at h'; cases h'
              exact f5 hC
        · intro l hl'
          rcases (hmem l).mp hl' with h' | ⟨c, h', rfl⟩
          · obtain ⟨c, hc1, _, rfl⟩ := hreason l h'
            exact ⟨c, (hc1.kept f2.kept).1, (LinStore.Lit.neg_ord _).symm⟩
          · rcases f4 with ⟨f4, _⟩ | ⟨c', f4, f6, _, _⟩
            · rw [f4] at h'; cases h'
            · rw [f4] at h'; cases h'
              exact ⟨_, f6, rfl⟩

/-- The elimination started with a disequality. -/
theorem neq_init {st : St} (h : LInv st) {x : Nat} {n : Bnd} (hn : n ∈ (st.bnd.vb x).dis)
    (hl : n.isObsolete st.store st.models = false) {k : ℚ} (hk : k ≠ 0) :
    WfTerms (Fm.initWith st.store n.reason .lt k).poly.terms ∧
    co x (Fm.initWith st.store n.reason .lt k).poly.terms = k * co x (st.store.terms n.reason) ∧
    (∀ σ, Agrees st.models σ →
      pval σ (Fm.initWith st.store n.reason .lt k).poly.terms
        (Fm.initWith st.store n.reason .lt k).poly.const =
      co x (Fm.initWith st.store n.reason .lt k).poly.terms * (σ x - n.value)) ∧
    (∀ σ, FmTrue σ (Fm.initWith st.store n.reason .lt k) ↔
      k * (lsum σ (st.store.terms n.reason) - n.reason.rhs) < 0) ∧
    (st.store.coefsOf n.reason).head?.getD 0 = co x (st.store.terms n.reason) := by
  have g := h.dis x n hn
  have hw := g.cons.terms_wf h.inv
  have hco : co x (Fm.initWith st.store n.reason .lt k).poly.terms =
      k * co x (st.store.terms n.reason) := co_scale x _ _
  have hpv : ∀ σ, pval σ (Fm.initWith st.store n.reason .lt k).poly.terms
      (Fm.initWith st.store n.reason .lt k).poly.const =
      k * (lsum σ (st.store.terms n.reason) - n.reason.rhs) := by
    intro σ
    unfold pval Fm.initWith
    simp only
    rw [lsum_scale]; ring
  refine ⟨Fm.init_wf hw _ hk, hco, ?_, ?_, ?_⟩
  · intro σ hσ
    rw [hpv, hco]
    obtain ⟨μ, hμ1, hμ2⟩ := g.val
    have hlive := hl
    rw [bnd_eta n, live_iff] at hlive
    obtain ⟨_, l3, _⟩ := hlive
    rw [g.deps, g.var] at l3
    have h1 : lsum σ (st.store.terms n.reason) =
        lsum (fun y => bsub x n.value [] μ y + (σ x - n.value) * delta x y)
          (st.store.terms n.reason) := by
      refine lsum_congr (fun p hp => ?_)
      by_cases e : p.1 = x
      · rw [e, bsub_self]; simp [delta]
      · have hpm : p.1 ∈ st.store.varsOf n.reason := by
          rw [g.cons.varsOf h.inv]; exact List.mem_map_of_mem hp
        obtain ⟨d1, d2⟩ := l3 p.1 hpm e (by simp)
        rw [bsub_other e (by simp), hσ _ d1, hμ2 _ hpm e d1 d2]
        simp [delta, e]
    rw [h1, LinStore.lsum_lin, hμ1]
    change k * (n.reason.rhs + (σ x - n.value) * co x _ - _) = _
    ring
  · intro σ
    unfold FmTrue
    rw [hpv]
    exact Iff.rfl
  · have hfr := h.front x n hn hl
    have hcf : st.store.coefsOf n.reason = (st.store.terms n.reason).map (·.2) := by
      obtain ⟨e, he, hce⟩ := g.cons
      rcases hce with h' | h'
      · rw [h']; exact LinStore.coefsOf_eq h.inv.len (h.inv.rng _ he).2
      · rw [h']; exact LinStore.coefsOf_eq (c := e) h.inv.len (h.inv.rng e he).2
    rw [g.cons.varsOf h.inv] at hfr
    rw [hcf]
    cases ht : st.store.terms n.reason with
    | nil => rw [ht] at hfr; cases hfr
    | cons p ts =>
      rw [ht] at hfr hw
      simp only [List.map_cons, List.head?_cons, Option.some.injEq] at hfr
      simp only [List.map_cons, List.head?_cons, Option.getD_some]
      rw [← hfr]
      exact (LinStore.delta_mem hw.nodup (by simp)).symm

theorem ineqConflict_spec (hv : Nat → Nat) (hc : ℚ → Nat) (lvl : Nat → Nat) {st : St} (h : LInv st)
    (x : Nat) :
    Steps hv hc st (ineqConflict hv hc lvl st x).1 ∧
    ∀ cl, (ineqConflict hv hc lvl st x).2 = some cl →
      Conflict st (ineqConflict hv hc lvl st x).1 cl := by
  obtain ⟨hs, hL, hlb, hub⟩ := two_queries hv hc h x
  unfold ineqConflict
  simp only
  generalize hl : st.bnd.lower st.store st.models x = l at *
  generalize hu : l.1.upper st.store st.models x = u at *
  cases h1 : l.2 with
  | none => exact ⟨hs, by simp⟩
  | some lb =>
    cases h2 : u.2 with
    | none => exact ⟨hs, by simp⟩
    | some ub =>
      simp only
      by_cases hcond : lb.value ≠ ub.value ∨ lb.reason.isStrict = true ∨ ub.reason.isStrict = true
      · rw [if_pos hcond]
        exact ⟨hs, by simp⟩
      · rw [if_neg hcond]
        have heq : lb.value = ub.value := by
          by_contra hne; exact hcond (Or.inl hne)
        obtain ⟨l1, l2⟩ := hlb lb h1
        obtain ⟨u1, u2⟩ := hub ub h2
        have hs3 : Steps hv hc st { st with bnd := u.1.put x ((u.1.vb x).inequality st.store st.models
            lb.value).1 } := Steps.step (.inequality x lb.value) hs trivial
        have hL3 := steps_linv hv hc h hs3
        have hsh := shrunk_inequality st.store st.models u.1 x lb.value
        have hnd : ∀ n, ((u.1.vb x).inequality st.store st.models lb.value).2 = some n →
            n ∈ ((u.1.put x ((u.1.vb x).inequality st.store st.models lb.value).1).vb x).dis ∧
            n.value = lb.value ∧ n.isObsolete st.store st.models = false := by
          intro n hn
          rw [vb_put, if_pos rfl]
          unfold VBounds.inequality at hn ⊢
          simp only at hn ⊢
          have m1 := List.mem_of_find?_eq_some hn
          have m2 := List.find?_some hn
          refine ⟨m1, by simpa using m2, ?_⟩
          unfold VBounds.dropObs at m1
          simpa using (List.mem_filter.mp m1).2
        have l1' := hsh.live false x lb l1 l2
        have u1' := hsh.live true x ub u1 u2
        generalize hN : (u.1.vb x).inequality st.store st.models lb.value = N at *
        generalize hb : u.1.put x N.1 = b at *
        cases h3 : N.2 with
        | none => exact ⟨hs3, by simp⟩
        | some n =>
          simp only
          obtain ⟨n1, n2, n3⟩ := hnd n h3
          have hvl : lb.var = x := hL3.var false x lb l1'
          have hvu : ub.var = x := hL3.var true x ub u1'
          have hvn : n.var = x := (hL3.dis x n n1).var
          have hundef : st.models.rats.defined x = false := by
            by_contra hd
            rw [Bool.not_eq_false] at hd
            have r1 := (hL3.resp false x lb l1' l2 hd).1
            have r2 := (hL3.resp true x ub u1' u2 hd).1
            unfold dq at r1 r2
            simp only [if_true, Bool.false_eq_true, if_false] at r1 r2
            exact hL3.respD x n n1 n3 hd (by rw [n2]; linarith)
          rw [hvn]
          have gn := hL3.dis x n n1
          obtain ⟨_, _, _, _, hhead⟩ := neq_init hL3 n1 n3 (k := 1) one_ne_zero
          dsimp only at hhead
          rw [hhead]
          generalize hk : (if co x (st.store.terms n.reason) > 0 then (1 : ℚ) else -1) = k
          have hkp : 0 < k * co x (st.store.terms n.reason) := by
            rw [← hk]
            split
            · rename_i h'; rw [one_mul]; exact h'
            · rename_i h'
              rcases lt_or_gt_of_ne gn.nz with h'' | h''
              · dsimp only at h''; linarith
              · exact absurd h'' h'
          have hk0 : k ≠ 0 := by intro e; rw [e, zero_mul] at hkp; exact lt_irrefl _ hkp
          obtain ⟨w1, c1, p1, t1, _⟩ := neq_init hL3 n1 n3 hk0
          have E1 := elim_of_good hL3.inv (hL3.resp) (hL3.good false x lb l1') l2
            (by rw [hvl]; exact hundef)
          dsimp only at w1 c1 p1 t1 E1
          generalize he1 : lb.eliminate st.store st.models = e1 at *
          generalize hg1 : Fm.initWith st.store n.reason Pred.lt k = g1 at *
          have hg1p : g1.pred = .lt := by rw [← hg1]; rfl
          obtain ⟨hw1, hsnd1, hfl1⟩ := resolve_false (g := g1) (q := n.value) E1 w1
            (by rw [hvl, c1]; exact ne_of_gt hkp)
            (by intro _; rw [hvl, c1]; simpa [dq] using hkp)
            (by rw [hvl]; exact p1)
            (Or.inr ⟨by rw [n2]; ring, Or.inl hg1p⟩)
          rw [hvl] at hw1 hsnd1 hfl1
          obtain ⟨f1, f2, f3, f4⟩ := finish_spec hv hc lvl hL3 hw1 hfl1
          have hL4 := steps_linv hv hc hL3 f1
          unfold finishSt at f1 f2 f3 f4 hL4
          dsimp only at f1 f2 f3 f4 hL4
          generalize hfin : finish hv hc lvl st.store st.models (e1.1.resolve g1 x) = F at *
          -- second half
          have lub := f2.live hL3.inv hL4.inv (hL3.good true x ub u1') u2
          have ln := f2.liveN hL3.inv hL4.inv gn n3
          have hundef2 : F.2.1.rats.defined x = false := by
            have := f2.rats
            dsimp only at this
            rw [this]; exact hundef
          obtain ⟨w2, c2, p2, t2, _⟩ := neq_init hL4 n1 ln (k := -k) (neg_ne_zero.mpr hk0)
          have E2 := elim_of_good hL4.inv (hL4.resp) (hL4.good true x ub u1') lub
            (by rw [hvu]; exact hundef2)
          have hterm : F.1.terms n.reason = st.store.terms n.reason := f2.terms _ gn.cons
          dsimp only at w2 c2 p2 t2 E2
          rw [hterm] at c2 t2
          generalize he2 : ub.eliminate F.1 F.2.1 = e2 at *
          generalize hg2 : Fm.initWith F.1 n.reason Pred.lt (-k) = g2 at *
          have hg2p : g2.pred = .lt := by rw [← hg2]; rfl
          have hkn : -k * co x (st.store.terms n.reason) < 0 := by linarith
          obtain ⟨hw2, hsnd2, hfl2⟩ := resolve_false (g := g2) (q := n.value) E2 w2
            (by rw [hvu, c2]; exact ne_of_lt hkn)
            (by intro _; rw [hvu, c2]; simp [dq]; linarith)
            (by rw [hvu]; exact p2)
            (Or.inr ⟨by rw [n2, heq]; ring, Or.inl hg2p⟩)
          rw [hvu] at hw2 hsnd2 hfl2
          obtain ⟨q1, q2, q3, q4⟩ := finish_spec hv hc lvl hL4 hw2 hfl2
          have hL5 := steps_linv hv hc hL4 q1
          unfold finishSt at q1 q2 q3 q4 hL5
          dsimp only at q1 q2 q3 q4 hL5
          generalize hfin2 : finish hv hc lvl F.1 F.2.1 (e2.1.resolve g2 x) = G at *
          refine ⟨steps_trans hs3 (steps_trans f1 q1), ?_⟩
          intro cl hcl
          simp only [Option.some.injEq] at hcl
          subst hcl
          have hmem : ∀ l, l ∈ sortClause (pushDerived (pushDerived (n.reason.lit.neg :: e1.2)
              F.2.2 ++ e2.2) G.2.2) ↔ (l = n.reason.lit.neg ∨ l ∈ e1.2) ∨ l ∈ e2.2 ∨
                (∃ c, F.2.2 = some c ∧ l = c.lit) ∨ ∃ c, G.2.2 = some c ∧ l = c.lit := by
            intro l
            unfold pushDerived sortClause
            rw [mem_uniq, mem_sortBy]
            simp only [List.mem_append, List.mem_map, Option.mem_toList, List.mem_cons]
            constructor
            · rintro (((h | ⟨c, h, rfl⟩) | h) | ⟨c, h, rfl⟩)
              · exact Or.inl h
              · exact Or.inr (Or.inr (Or.inl ⟨c, h, rfl⟩))
              · exact Or.inr (Or.inl h)
              · exact Or.inr (Or.inr (Or.inr ⟨c, h, rfl⟩))
            · rintro (h | h | ⟨c, h, rfl⟩ | ⟨c, h, rfl⟩)
              · exact Or.inl (Or.inl (Or.inl h))
              · exact Or.inl (Or.inr h)
              · exact Or.inl (Or.inl (Or.inr ⟨c, h, rfl⟩))
              · exact Or.inr ⟨c, h, rfl⟩
          have hall2 := f2.trans q2
          have hneq : evalLit st.models.bools n.reason.lit = some true := by
            have := n3
            rw [bnd_eta n, live_iff] at this
            exact this.1.1
          refine ⟨hall2.kept, hall2.rats, fun l v hv => hall2.evalLit hv, ?_, ?_, fun hC => q3 (f3 hC), ?_⟩
          · intro σ
            by_contra hno
            have hall : ∀ l, ((l = n.reason.lit.neg ∨ l ∈ e1.2) ∨ l ∈ e2.2 ∨
                (∃ c, F.2.2 = some c ∧ l = c.lit) ∨ ∃ c, G.2.2 = some c ∧ l = c.lit) →
                ¬ LitMeans G.1 l σ := fun l hl' hm => hno ⟨l, (hmem l).mpr hl', hm⟩
            have hctrue : ∀ c, IsCons st.store c → (c.lit.neg = n.reason.lit.neg ∨ c.lit.neg ∈ e1.2) →
                ConsTrue st.store c σ := by
              intro c hc' hm
              have := hall _ (Or.inl hm)
              rw [((hc'.kept hall2.kept).1.litMeans hL5.inv σ).2, not_not,
                consTrue_kept hall2.kept hc'] at this
              exact this
            have hctrue2 : ∀ c, IsCons F.1 c → c.lit.neg ∈ e2.2 → ConsTrue F.1 c σ := by
              intro c hc' hm
              have := hall _ (Or.inr (Or.inl hm))
              rw [((hc'.kept q2.kept).1.litMeans hL5.inv σ).2, not_not,
                consTrue_kept q2.kept hc'] at this
              exact this
            have hne : lsum σ (st.store.terms n.reason) - n.reason.rhs ≠ 0 := by
              have := hctrue _ gn.cons (Or.inl rfl)
              unfold ConsTrue at this
              rw [gn.neg, gn.pred] at this
              simp only [Bool.true_eq_false, false_and, true_and, false_or] at this
              intro e
              exact this (by show lsum σ _ = n.reason.rhs; linarith)
            have s1 := E1.sound σ (fun c hc' hm => hctrue c hc' (Or.inr hm))
            have s2 := E2.sound σ hctrue2
            have hkn0 := mul_ne_zero hk0 hne
            rcases lt_or_gt_of_ne hkn0 with hlt | hgt
            · have t3 := hsnd1 σ s1 ((t1 σ).mpr hlt)
              rcases f4 with ⟨_, f4⟩ | ⟨c, f4, f6, f5, _⟩
              · exact f4 σ t3
              · refine hall c.lit (Or.inr (Or.inr (Or.inl ⟨c, f4, rfl⟩))) ?_
                rw [((f6.kept q2.kept).1.litMeans hL5.inv σ).1, consTrue_kept q2.kept f6,
                  ← (f6.litMeans hL4.inv σ).1]
                exact (f5 σ).mpr t3
            · have t3 := hsnd2 σ s2 ((t2 σ).mpr (by linarith))
              rcases q4 with ⟨_, q4⟩ | ⟨c, q4, _, q5, _⟩
              · exact q4 σ t3
              · exact hall c.lit (Or.inr (Or.inr (Or.inr ⟨c, q4, rfl⟩))) ((q5 σ).mpr t3)
          · intro hC l hl'
            have hC1 := f3 hC
            rcases (hmem l).mp hl' with (h' | h') | h' | ⟨c, h', rfl⟩ | ⟨c, h', rfl⟩
            · rw [h']
              exact hall2.evalLit (lit_false (s := st.store) ⟨_, gn.cons, hneq, rfl⟩)
            · exact hall2.evalLit (lit_false (E1.lits l h'))
            · exact q2.evalLit (lit_false (E2.lits l h'))
            · rcases f4 with ⟨f4, _⟩ | ⟨c', f4, _, _, f5⟩
              · rw [f4] at h'; cases h'
              · rw [f4] at h'; cases h'
                exact q2.evalLit (f5 hC)
            · rcases q4 with ⟨q4, _⟩ | ⟨c', q4, _, _, q5⟩
              · rw [q4] at h'; cases h'
              · rw [q4] at h'; cases h'
                exact q5 hC1
          · intro l hl'
            rcases (hmem l).mp hl' with (h' | h') | h' | ⟨c, h', rfl⟩ | ⟨c, h', rfl⟩
            · rw [h']
              exact ⟨_, (gn.cons.kept hall2.kept).1, (LinStore.Lit.neg_ord _).symm⟩
            · obtain ⟨c, hc1, _, rfl⟩ := E1.lits l h'
              exact ⟨c, (hc1.kept hall2.kept).1, (LinStore.Lit.neg_ord _).symm⟩
            · obtain ⟨c, hc1, _, rfl⟩ := E2.lits l h'
              exact ⟨c, (hc1.kept q2.kept).1, (LinStore.Lit.neg_ord _).symm⟩
            · rcases f4 with ⟨f4, _⟩ | ⟨c', f4, f6, _, _⟩
              · rw [f4] at h'; cases h'
              · rw [f4] at h'; cases h'
                exact ⟨_, (f6.kept q2.kept).1, rfl⟩
            · rcases q4 with ⟨q4, _⟩ | ⟨c', q4, q6, _, _⟩
              · rw [q4] at h'; cases h'
              · rw [q4] at h'; cases h'
                exact ⟨_, q6, rfl⟩

end Lra
end Yaga
