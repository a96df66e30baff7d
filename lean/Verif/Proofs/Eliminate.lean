/-
Fourier-Motzkin elimination along the derivation of a bound.
-/
import Verif.Proofs.Bounds

set_option linter.unusedVariables false

namespace Yaga
open Spec
open LinStore (delta WfTerms Inv Kept)

/-- `σ` agrees with the assigned variables. -/
def Agrees (m : LModels) (σ : Nat → ℚ) : Prop := ∀ y, m.rats.defined y = true → σ y = m.rats.value y

/-- Result of `eliminate` for a bound of `x`. -/
structure Elim (s : LinStore) (m : LModels) (up : Bool) (b : Bnd) (f : Fm) (ls : List Lit) : Prop where
  wf : WfTerms f.poly.terms
  nz : co b.var f.poly.terms ≠ 0
  sgn : f.pred ≠ .eq → 0 < dq up * co b.var f.poly.terms
  vars : ∀ y, y ≠ b.var → co y f.poly.terms ≠ 0 → m.rats.defined y = true
  sound : ∀ σ, (∀ c, IsCons s c → c.lit.neg ∈ ls → ConsTrue s c σ) → FmTrue σ f
  lits : ∀ l ∈ ls, ∃ c, IsCons s c ∧ evalLit m.bools c.lit = some true ∧ l = c.lit.neg
  root : ∃ v, (∀ σ, Agrees m σ →
      pval σ f.poly.terms f.poly.const = co b.var f.poly.terms * (σ b.var - v)) ∧
    dq up * (v - b.value) ≤ 0 ∧
    (b.isStrict = true → dq up * (v - b.value) < 0 ∨ f.pred = .lt)

/-- The variables of the resolved dependencies. -/
def resolved (m : LModels) (ds : List Bnd) : List Nat :=
  (ds.filter fun d => !m.rats.defined d.var).map Bnd.var

theorem eliminateDeps_spec {s : LinStore} {m : LModels} (A : Nat → ℚ) (dd : Bnd → Bool) (ds : List Bnd) :
    ∀ (f : Fm) (done : List Nat) (u : ℚ),
      (∀ d ∈ ds, m.rats.defined d.var = false →
        Elim s m (dd d) d (d.eliminate s m).1 (d.eliminate s m).2) →
      (∀ d ∈ ds, dq (dd d) * A d.var < 0) →
      WfTerms f.poly.terms → (u = 1 ∨ u = -1) → (f.pred ≠ .eq → u = 1) →
      (∀ y, m.rats.defined y = false → y ∉ done → co y f.poly.terms = u * A y) →
      (∀ y ∈ done, co y f.poly.terms = 0) →
      (∀ y ∈ done, m.rats.defined y = false) →
      (ds.map Bnd.var).Nodup → (∀ d ∈ ds, d.var ∉ done) →
      let r := Bnd.eliminateDeps s m ds f
      WfTerms r.1.poly.terms ∧
      (∃ u', (u' = 1 ∨ u' = -1) ∧ (r.1.pred ≠ .eq → u' = 1) ∧
        (∀ y, m.rats.defined y = false → y ∉ done ++ resolved m ds →
          co y r.1.poly.terms = u' * A y)) ∧
      (∀ y ∈ done ++ resolved m ds, co y r.1.poly.terms = 0) ∧
      (∀ σ, FmTrue σ f → (∀ c, IsCons s c → c.lit.neg ∈ r.2 → ConsTrue s c σ) → FmTrue σ r.1) ∧
      (∀ l ∈ r.2, ∃ c, IsCons s c ∧ evalLit m.bools c.lit = some true ∧ l = c.lit.neg) ∧
      (∃ w, (w = 1 ∨ w = -1) ∧ ∀ σ, (∀ d ∈ ds, m.rats.defined d.var = false →
          pval σ (d.eliminate s m).1.poly.terms (d.eliminate s m).1.poly.const = 0) →
        pval σ r.1.poly.terms r.1.poly.const = w * pval σ f.poly.terms f.poly.const) ∧
      (f.pred = .lt → r.1.pred = .lt) ∧
      (∀ d ∈ ds, m.rats.defined d.var = false → (d.eliminate s m).1.pred = .lt → r.1.pred = .lt) := by
  induction ds with
  | nil =>
    intro f done u _ _ hw hu hu1 h1 h2 _ _ _
    have e : Bnd.eliminateDeps s m [] f = (f, []) := by rw [Bnd.eliminateDeps]
    rw [e]
    simp only [resolved, List.filter_nil, List.map_nil, List.append_nil]
    refine ⟨hw, ⟨u, hu, hu1, h1⟩, h2, fun σ hσ _ => hσ, by simp, ⟨1, Or.inl rfl, by simp⟩,
      fun h => h, by simp⟩
  | cons d ds ih =>
    intro f done u hE hdir hw hu hu1 h1 h2 h2' hnd hdn
    rw [List.map_cons, List.nodup_cons] at hnd
    have hE' := fun d' (hd' : d' ∈ ds) => hE d' (List.mem_cons_of_mem _ hd')
    have hdir' := fun d' (hd' : d' ∈ ds) => hdir d' (List.mem_cons_of_mem _ hd')
    cases hdef : m.rats.defined d.var with
    | true =>
      have e : Bnd.eliminateDeps s m (d :: ds) f = Bnd.eliminateDeps s m ds f := by
        rw [Bnd.eliminateDeps, if_pos hdef]
      have er : resolved m (d :: ds) = resolved m ds := by
        unfold resolved
        rw [List.filter_cons_of_neg (by simp [hdef])]
      rw [e, er]
      obtain ⟨a1, a2, a3, a4, a5, ⟨w, hw1, hw2⟩, a7, a8⟩ := ih f done u hE' hdir' hw hu hu1 h1 h2 h2' hnd.2
        (fun d' hd' => hdn d' (List.mem_cons_of_mem _ hd'))
      refine ⟨a1, a2, a3, a4, a5, ⟨w, hw1, fun σ hσ => hw2 σ
        (fun d' hd' => hσ d' (List.mem_cons_of_mem _ hd'))⟩, a7, ?_⟩
      intro d' hd' hdd
      rcases List.mem_cons.mp hd' with rfl | hd'
      · rw [hdef] at hdd; cases hdd
      · exact a8 d' hd' hdd
    | false =>
      have E := hE d (by simp) hdef
      have hA := hdir d (by simp)
      have hda := hdn d (by simp)
      generalize hg : (d.eliminate s m).1 = g at E
      generalize hgl : (d.eliminate s m).2 = gl at E
      have e : Bnd.eliminateDeps s m (d :: ds) f =
          ((Bnd.eliminateDeps s m ds (f.resolve g d.var)).1,
            gl ++ (Bnd.eliminateDeps s m ds (f.resolve g d.var)).2) := by
        rw [Bnd.eliminateDeps, if_neg (by simp [hdef]), ← hg, ← hgl]
      have er : resolved m (d :: ds) = d.var :: resolved m ds := by
        unfold resolved
        rw [List.filter_cons_of_pos (by simp [hdef])]
        rfl
      have hcof := h1 d.var hdef hda
      have hA0 : A d.var ≠ 0 := by intro h0; rw [h0] at hA; simp at hA
      have hu0 : u ≠ 0 := by rcases hu with h | h <;> rw [h] <;> norm_num
      have hcof0 : co d.var f.poly.terms ≠ 0 := by rw [hcof]; exact mul_ne_zero hu0 hA0
      -- opposite signs if both are inequalities
      have hAg : g.pred ≠ .eq → A d.var * co d.var g.poly.terms < 0 := by
        intro h
        have h3 := E.sgn h
        have : A d.var * co d.var g.poly.terms =
            (dq (dd d) * A d.var) * (dq (dd d) * co d.var g.poly.terms) := by
          rcases dq_cases (dd d) with h | h <;> rw [h] <;> ring
        rw [this]
        exact mul_neg_of_neg_of_pos hA h3
      have hside : f.pred = .eq ∨ g.pred = .eq ∨
          co d.var f.poly.terms * co d.var g.poly.terms < 0 := by
        by_cases hfe : f.pred = .eq
        · exact Or.inl hfe
        · by_cases hge : g.pred = .eq
          · exact Or.inr (Or.inl hge)
          · right; right
            rw [hcof, hu1 hfe, one_mul]
            exact hAg hge
      obtain ⟨v, k, r1, r2, r3, r4, r5, r6, r7, r8, r9, r10⟩ :=
        Fm.resolve_sound hw E.wf hcof0 E.nz hside
      have hpred : (f.resolve g d.var).pred = Fm.combine f.pred g.pred := rfl
      -- the next state of the loop
      have hu' : v * u = 1 ∨ v * u = -1 := by
        rcases r1 with h | h <;> rcases hu with h' | h' <;> rw [h, h'] <;> norm_num
      have hu1' : (f.resolve g d.var).pred ≠ .eq → v * u = 1 := by
        intro hne
        by_cases hge : g.pred = .eq
        · have hfe : f.pred ≠ .eq := by
            intro hfe; exact hne (by rw [hpred]; exact Fm.combine_eq.mpr ⟨hfe, hge⟩)
          rw [r2 hfe, hu1 hfe]; norm_num
        · have h5 := r5 hge
          rw [hcof] at h5
          have h6 := hAg hge
          have h7 : v * (u * A d.var) * co d.var g.poly.terms =
              (v * u) * (A d.var * co d.var g.poly.terms) := by ring
          rw [h7] at h5
          rcases hu' with h | h
          · exact h
          · rw [h] at h5; linarith
      have h1' : ∀ y, m.rats.defined y = false → y ∉ done ++ [d.var] →
          co y (f.resolve g d.var).poly.terms = v * u * A y := by
        intro y hy hyn
        simp only [List.mem_append, List.mem_singleton, not_or] at hyn
        rw [r7, h1 y hy hyn.1]
        have : co y g.poly.terms = 0 := by
          by_contra h
          have := E.vars y hyn.2 h
          rw [hy] at this; cases this
        rw [this]; ring
      have h2'' : ∀ y ∈ done ++ [d.var], co y (f.resolve g d.var).poly.terms = 0 := by
        intro y hy
        rcases List.mem_append.mp hy with hy | hy
        · rw [r7, h2 y hy]
          have : co y g.poly.terms = 0 := by
            by_contra h
            have := E.vars y (fun e => hda (e ▸ hy)) h
            rw [h2' y hy] at this; cases this
          rw [this]; simp
        · rw [List.mem_singleton] at hy
          rw [hy]; exact r9
      have h2d : ∀ y ∈ done ++ [d.var], m.rats.defined y = false := by
        intro y hy
        rcases List.mem_append.mp hy with hy | hy
        · exact h2' y hy
        · rw [List.mem_singleton] at hy; rw [hy]; exact hdef
      obtain ⟨a1, a2, a3, a4, a5, ⟨w, hw1, hw2⟩, a7, a8⟩ :=
        ih (f.resolve g d.var) (done ++ [d.var]) (v * u) hE' hdir' r8 hu' hu1' h1' h2'' h2d hnd.2 (by
          intro d' hd' hm
          rcases List.mem_append.mp hm with hm | hm
          · exact hdn d' (List.mem_cons_of_mem _ hd') hm
          · rw [List.mem_singleton] at hm
            exact hnd.1 (hm ▸ List.mem_map_of_mem hd'))
      have eapp : done ++ resolved m (d :: ds) = (done ++ [d.var]) ++ resolved m ds := by
        rw [er]; simp
      rw [e, eapp]
      refine ⟨a1, a2, a3, ?_, ?_, ?_, ?_, ?_⟩
      · intro σ hσ hc
        refine a4 σ (r10 σ hσ (E.sound σ fun c hc1 hc2 => hc c hc1 (List.mem_append_left _ hc2)))
          (fun c hc1 hc2 => hc c hc1 (List.mem_append_right _ hc2))
      · intro l hl
        rcases List.mem_append.mp hl with hl | hl
        · exact E.lits l hl
        · exact a5 l hl
      · refine ⟨w * v, ?_, ?_⟩
        · rcases hw1 with h | h <;> rcases r1 with h' | h' <;> rw [h, h'] <;> norm_num
        · intro σ hσ
          have hd0 := hσ d (by simp) hdef
          rw [hg] at hd0
          rw [hw2 σ (fun d' hd' => hσ d' (List.mem_cons_of_mem _ hd')), r6, hd0]
          ring
      · intro h
        exact a7 (by rw [hpred]; exact Fm.combine_lt.mpr (Or.inl h))
      · intro d' hd' hdd hlt
        rcases List.mem_cons.mp hd' with rfl | hd'
        · rw [hg] at hlt
          exact a7 (by rw [hpred]; exact Fm.combine_lt.mpr (Or.inr hlt))
        · exact a8 d' hd' hdd hlt

/-- Root of a polynomial whose variables other than `x` are assigned. -/
theorem exists_root {m : LModels} {f : Fm} (w : WfTerms f.poly.terms) {x : Nat}
    (hx : co x f.poly.terms ≠ 0)
    (hv : ∀ y, y ≠ x → co y f.poly.terms ≠ 0 → m.rats.defined y = true) :
    ∃ v, ∀ σ, Agrees m σ →
      pval σ f.poly.terms f.poly.const = co x f.poly.terms * (σ x - v) := by
  refine ⟨-(pval (fun y => if y = x then 0 else m.rats.value y) f.poly.terms f.poly.const) /
    co x f.poly.terms, ?_⟩
  intro σ hσ
  have h1 : lsum σ f.poly.terms =
      lsum (fun y => (if y = x then 0 else m.rats.value y) + σ x * delta x y) f.poly.terms := by
    refine lsum_congr_co w (fun y hy => ?_)
    by_cases e : y = x
    · simp [e, delta]
    · simp [e, delta, hσ y (hv y e hy)]
  unfold pval
  rw [h1, LinStore.lsum_lin]
  change _ + σ x * co x f.poly.terms + _ = _
  field_simp
  ring

theorem elim_of_good {s : LinStore} {m : LModels} {S : Bool → Nat → List Bnd} (hI : Inv s)
    (hS : ∀ up y, ∀ b ∈ S up y, b.isObsolete s m = false → m.rats.defined y = true →
      Resp up b.value b.isStrict (m.rats.value y))
    {up : Bool} {b : Bnd} (g : GoodB s m S up b) (hl : b.isObsolete s m = false)
    (hxu : m.rats.defined b.var = false) :
    Elim s m up b (b.eliminate s m).1 (b.eliminate s m).2 := by
  induction g with
  | mk up x v c ds ct vt t μ dd hc hne ht ht1 hx hnd hxd hdir hval hμ hct hst hdeps ih =>
    rw [live_iff] at hl
    obtain ⟨⟨l1, l2⟩, l3, l4⟩ := hl
    have hxu : m.rats.defined x = false := hxu
    have e : (Bnd.mk x v c ds ct vt).eliminate s m =
        ((Bnd.eliminateDeps s m ds (Fm.init s c)).1,
          c.lit.neg :: (Bnd.eliminateDeps s m ds (Fm.init s c)).2) := by rw [Bnd.eliminate]
    have hw := init_wf' hI hc
    have ht2 : t * t = 1 := by rcases ht with h | h <;> rw [h] <;> norm_num
    have ht0 : t ≠ 0 := by intro h; rw [h] at ht2; norm_num at ht2
    have hE : ∀ d ∈ ds, m.rats.defined d.var = false →
        Elim s m (dd d) d (d.eliminate s m).1 (d.eliminate s m).2 :=
      fun d hd hu => ih d hd (l4 d hd) hu
    obtain ⟨a1, ⟨u', b1, b2, b3⟩, a3, a4, a5, ⟨w, hw1, hw2⟩, a7, a8⟩ :=
      eliminateDeps_spec (s := s) (m := m) (fun y => t * (isg c * co y (s.terms c))) dd ds (Fm.init s c) [] t
        hE hdir hw ht ht1
        (fun y _ _ => by rw [co_init]; rw [← mul_assoc, ht2, one_mul]) (by simp) (by simp) hnd (by simp)
    simp only [List.nil_append] at b3 a3
    rw [e]
    generalize hF : (Bnd.eliminateDeps s m ds (Fm.init s c)).1 = F at *
    generalize hL : (Bnd.eliminateDeps s m ds (Fm.init s c)).2 = L at *
    have hxr : x ∉ resolved m ds := by
      intro h
      unfold resolved at h
      obtain ⟨d, hd, hdv⟩ := List.mem_map.mp h
      exact hxd (List.mem_map.mpr ⟨d, (List.mem_filter.mp hd).1, hdv⟩)
    have hcox := b3 x hxu hxr
    have hxne : t * (isg c * co x (s.terms c)) ≠ 0 := by
      intro h; rw [h] at hx; simp at hx
    have hu0 : u' ≠ 0 := by rcases b1 with h | h <;> rw [h] <;> norm_num
    have hFx : co x F.poly.terms ≠ 0 := by rw [hcox]; exact mul_ne_zero hu0 hxne
    have hvars : ∀ y, y ≠ x → co y F.poly.terms ≠ 0 → m.rats.defined y = true := by
      intro y hyx hy
      by_contra hu
      rw [Bool.not_eq_true] at hu
      by_cases hr : y ∈ resolved m ds
      · exact hy (a3 y hr)
      · rw [b3 y hu hr] at hy
        have hcy : co y (s.terms c) ≠ 0 := by
          intro h0; rw [h0] at hy; simp at hy
        have hmem := (co_ne_zero_iff (hc.terms_wf hI) y).mp hcy
        have hyd : y ∉ ds.map Bnd.var := by
          intro h
          obtain ⟨d, hd, hdv⟩ := List.mem_map.mp h
          apply hr
          unfold resolved
          exact List.mem_map.mpr ⟨d, List.mem_filter.mpr ⟨hd, by rw [hdv, hu]; rfl⟩, hdv⟩
        have := (l3 y (by rw [hc.varsOf hI]; exact hmem) hyx hyd).1
        rw [hu] at this; cases this
    obtain ⟨root, hroot⟩ := exists_root (m := m) a1 hFx hvars
    refine ⟨a1, hFx, ?_, hvars, ?_, ?_, root, hroot, ?_⟩
    · intro hp
      show 0 < dq up * co x F.poly.terms
      rw [hcox, b2 hp, one_mul]; exact hx
    · intro σ hσ
      refine a4 σ ((Fm.init_sound s c hne σ).mpr (hσ c hc (by simp)))
        (fun c' h1 h2 => hσ c' h1 (List.mem_cons_of_mem _ h2))
    · intro l hl
      rcases List.mem_cons.mp hl with rfl | hl
      · exact ⟨c, hc, l1, rfl⟩
      · exact a5 l hl
    · -- the roots of the eliminated dependencies
      have hrd : ∀ d : Bnd, ∃ vd : ℚ, d ∈ ds → m.rats.defined d.var = false →
          (∀ σ, Agrees m σ → pval σ (d.eliminate s m).1.poly.terms (d.eliminate s m).1.poly.const =
            co d.var (d.eliminate s m).1.poly.terms * (σ d.var - vd)) ∧
          dq (dd d) * (vd - d.value) ≤ 0 ∧
          (d.isStrict = true → dq (dd d) * (vd - d.value) < 0 ∨ (d.eliminate s m).1.pred = .lt) := by
        intro d
        by_cases hd : d ∈ ds ∧ m.rats.defined d.var = false
        · obtain ⟨vd, h⟩ := (hE d hd.1 hd.2).root
          exact ⟨vd, fun _ _ => h⟩
        · exact ⟨0, fun h1 h2 => absurd ⟨h1, h2⟩ hd⟩
      choose vd hvd using hrd
      -- valuation: root for x, roots for the eliminated dependencies, the model elsewhere
      let σ : Nat → ℚ := fun y => if m.rats.defined y = true then m.rats.value y
        else if y = x then root else ((ds.find? fun d => d.var == y).map vd).getD 0
      have hag : Agrees m σ := by
        intro y hy; simp [σ, hy]
      have hσx : σ x = root := by simp [σ, hxu]
      have hσd : ∀ d ∈ ds, m.rats.defined d.var = false → σ d.var = vd d := by
        intro d hd hu
        have hdx : d.var ≠ x := fun e => hxd (e ▸ List.mem_map_of_mem hd)
        simp only [σ, hu, if_neg hdx]
        cases e : ds.find? (fun d' => d'.var == d.var) with
        | none =>
          have := List.find?_eq_none.mp e d hd
          simp at this
        | some d' =>
          have h1 := List.find?_some e
          have h2 := List.mem_of_find?_eq_some e
          simp at h1
          have : d' = d := List.inj_on_of_nodup_map hnd h2 hd h1
          rw [this]; simp
      have hz : pval σ F.poly.terms F.poly.const = 0 := by
        rw [hroot σ hag, hσx]; simp
      have hz2 := hw2 σ (by
        intro d hd hu
        rw [(hvd d hd hu).1 σ hag, hσd d hd hu]; simp)
      rw [hz, pval_init] at hz2
      have hw0 : w ≠ 0 := by rcases hw1 with h | h <;> rw [h] <;> norm_num
      have hP : lsum σ (s.terms c) - c.rhs = 0 := by
        rcases mul_eq_zero.mp hz2.symm with h | h
        · exact absurd h hw0
        · rcases mul_eq_zero.mp h with h | h
          · exact absurd h (isg_ne c)
          · exact h
      -- each dependency's value in σ respects it
      have hresp : ∀ d ∈ ds, dq (dd d) * (σ d.var - d.value) ≤ 0 ∧
          (d.isStrict = true → dq (dd d) * (σ d.var - d.value) < 0 ∨ F.pred = .lt) := by
        intro d hd
        cases hu : m.rats.defined d.var with
        | true =>
          have hin := hst d hd (l4 d hd)
          obtain ⟨h1, h2⟩ := hS _ _ _ hin (l4 d hd) hu
          rw [hag _ hu]
          exact ⟨h1, fun h => Or.inl (h2 h)⟩
        | false =>
          obtain ⟨_, h1, h2⟩ := hvd d hd hu
          rw [hσd d hd hu]
          refine ⟨h1, fun h => ?_⟩
          rcases h2 h with h | h
          · exact Or.inl h
          · exact Or.inr (a8 d hd hu h)
      have hmono : ∀ p ∈ s.terms c, p.1 ≠ x →
          0 ≤ t * isg c * p.2 * (σ p.1 - bsub x v ds μ p.1) ∧
          ((∃ d ∈ ds, d.var = p.1 ∧ dq (dd d) * (σ d.var - d.value) < 0) →
            0 < t * isg c * p.2 * (σ p.1 - bsub x v ds μ p.1)) := by
        intro p hp hpx
        by_cases hd : p.1 ∈ ds.map Bnd.var
        · obtain ⟨d, hd, hdv⟩ := List.mem_map.mp hd
          have hdd := hdir d hd
          have hco : co d.var (s.terms c) = p.2 := by
            rw [hdv]; exact LinStore.delta_mem (hc.terms_wf hI).nodup hp
          rw [hco] at hdd
          rw [← hdv, bsub_dep hnd hxd hd]
          have key : t * isg c * p.2 * (σ d.var - d.value) =
              (dq (dd d) * (t * (isg c * p.2))) * (dq (dd d) * (σ d.var - d.value)) := by
            rcases dq_cases (dd d) with h | h <;> rw [h] <;> ring
          rw [key]
          refine ⟨mul_nonneg_of_nonpos_of_nonpos hdd.le (hresp d hd).1, ?_⟩
          rintro ⟨d', hd', hv', hlt⟩
          have : d' = d := List.inj_on_of_nodup_map hnd hd' hd hv'
          subst this
          exact mul_pos_of_neg_of_neg hdd hlt
        · have hy : p.1 ∈ s.varsOf c := by
            rw [hc.varsOf hI]; exact List.mem_map_of_mem hp
          obtain ⟨a1, a2⟩ := l3 p.1 hy hpx hd
          rw [bsub_other hpx hd, hag _ a1, (hμ p.1 hy hpx hd).2 a1 a2]
          refine ⟨by simp, ?_⟩
          rintro ⟨d, hd', hv', _⟩
          exact absurd (List.mem_map.mpr ⟨d, hd', hv'⟩) hd
      obtain ⟨m1, m2⟩ := lsum_mono (t := t * isg c) (σ := σ) (τ := bsub x v ds μ) (ts := s.terms c)
        (x := x) (fun p hp hpx => (hmono p hp hpx).1)
      rw [hval, bsub_self, hP, mul_zero, hσx] at m1 m2
      have hA : 0 < dq up * (t * isg c * co x (s.terms c)) := by rw [mul_assoc]; exact hx
      obtain ⟨r1, r2⟩ := resp_of_le (δ := root - v) (dq_cases up) hA
      refine ⟨r1 m1, ?_⟩
      intro hstr
      unfold Bnd.isStrict at hstr
      simp only [Bool.or_eq_true, List.any_eq_true] at hstr
      rcases hstr with h | ⟨d, hd, h⟩
      · right
        exact a7 ((strict_initPred hne).mp h)
      · have hd : d ∈ ds := hd
        have hds : d.isStrict = true := by unfold Bnd.isStrict; rw [h]; rfl
        rcases (hresp d hd).2 hds with hlt | hlt
        · left
          apply r2
          apply m2
          have hdd := hdir d hd
          have hne0 : co d.var (s.terms c) ≠ 0 := by
            intro h0; rw [h0] at hdd; simp at hdd
          obtain ⟨p, hp, hpv⟩ := List.mem_map.mp ((co_ne_zero_iff (hc.terms_wf hI) _).mp hne0)
          have hpx : p.1 ≠ x := by
            rw [hpv]; exact fun e => hxd (e ▸ List.mem_map_of_mem hd)
          exact ⟨p, hp, hpx, (hmono p hp hpx).2 ⟨d, hd, hpv.symm, hlt⟩⟩
        · exact Or.inr hlt

end Yaga
