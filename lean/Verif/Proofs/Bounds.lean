/-
Well-formed derived bounds, and the soundness of live bounds.
-/
import Verif.Proofs.Fm
import Verif.Model.LraHistory

set_option linter.unusedVariables false

namespace Yaga
open Spec
open LinStore (delta WfTerms Inv Kept)

/-! ### Linear combinations -/

theorem lsum_nonneg {t : ℚ} {δ : Nat → ℚ} {ts : List (Nat × ℚ)} (h : ∀ p ∈ ts, 0 ≤ t * p.2 * δ p.1) :
    0 ≤ t * lsum δ ts ∧ ((∃ p ∈ ts, 0 < t * p.2 * δ p.1) → 0 < t * lsum δ ts) := by
  induction ts with
  | nil => simp
  | cons p ts ih =>
    obtain ⟨h1, h2⟩ := ih (fun q hq => h q (List.mem_cons_of_mem _ hq))
    have h0 := h p (by simp)
    rw [lsum_cons]
    have e : t * (p.2 * δ p.1 + lsum δ ts) = t * p.2 * δ p.1 + t * lsum δ ts := by ring
    rw [e]
    refine ⟨by linarith, ?_⟩
    rintro ⟨q, hq, hq2⟩
    rcases List.mem_cons.mp hq with rfl | hq
    · linarith
    · have := h2 ⟨q, hq, hq2⟩
      linarith

/-- Comparison of two valuations of a polynomial, with the variable `x` singled out. -/
theorem lsum_mono {t : ℚ} {σ τ : Nat → ℚ} {ts : List (Nat × ℚ)} {x : Nat}
    (h : ∀ p ∈ ts, p.1 ≠ x → 0 ≤ t * p.2 * (σ p.1 - τ p.1)) :
    t * co x ts * (σ x - τ x) ≤ t * (lsum σ ts - lsum τ ts) ∧
    ((∃ p ∈ ts, p.1 ≠ x ∧ 0 < t * p.2 * (σ p.1 - τ p.1)) →
      t * co x ts * (σ x - τ x) < t * (lsum σ ts - lsum τ ts)) := by
  let δ : Nat → ℚ := fun y => if y = x then 0 else σ y - τ y
  have hd : lsum σ ts - lsum τ ts = lsum δ ts + (σ x - τ x) * co x ts := by
    have h1 : lsum σ ts = lsum (fun y => τ y + 1 * (σ y - τ y)) ts :=
      lsum_congr (fun p _ => by ring)
    have h2 : lsum (fun y => σ y - τ y) ts = lsum (fun y => δ y + (σ x - τ x) * delta x y) ts := by
      refine lsum_congr (fun p _ => ?_)
      by_cases e : p.1 = x
      · simp [δ, delta, e]
      · simp [δ, delta, e]
    rw [h1, LinStore.lsum_lin, h2, LinStore.lsum_lin]
    unfold co
    ring
  obtain ⟨h1, h2⟩ := lsum_nonneg (t := t) (δ := δ) (ts := ts) (by
    intro p hp
    by_cases e : p.1 = x
    · simp [δ, e]
    · have := h p hp e
      simpa [δ, e] using this)
  have e : t * (lsum σ ts - lsum τ ts) = t * lsum δ ts + t * co x ts * (σ x - τ x) := by rw [hd]; ring
  rw [e]
  refine ⟨by linarith, ?_⟩
  rintro ⟨p, hp, hpx, hpos⟩
  have := h2 ⟨p, hp, by simpa [δ, hpx] using hpos⟩
  linarith

theorem lsum_congr_co {σ τ : Nat → ℚ} {ts : List (Nat × ℚ)} (w : WfTerms ts)
    (h : ∀ y, co y ts ≠ 0 → σ y = τ y) : lsum σ ts = lsum τ ts :=
  lsum_congr (fun p hp => h p.1 ((co_ne_zero_iff w p.1).mpr (List.mem_map_of_mem hp)))

/-! ### Constraints -/

/-- The sign with which a constraint enters an elimination. -/
def isg (c : LinCons) : ℚ := if Fm.initPred c ≠ c.pred then -1 else 1

theorem isg_cases (c : LinCons) : isg c = 1 ∨ isg c = -1 := by
  unfold isg; split <;> simp

theorem isg_ne (c : LinCons) : isg c ≠ 0 := by
  rcases isg_cases c with h | h <;> rw [h] <;> norm_num

theorem co_init (s : LinStore) (c : LinCons) (y : Nat) :
    co y (Fm.init s c).poly.terms = isg c * co y (s.terms c) := co_scale y _ _

theorem pval_init (s : LinStore) (c : LinCons) (σ : Nat → ℚ) :
    pval σ (Fm.init s c).poly.terms (Fm.init s c).poly.const =
      isg c * (lsum σ (s.terms c) - c.rhs) := by
  unfold pval Fm.init Fm.initWith
  simp only
  rw [lsum_scale]
  show isg c * _ + -c.rhs * isg c = _
  ring

theorem IsCons.terms_wf {s : LinStore} (hI : Inv s) {c : LinCons} (h : IsCons s c) :
    WfTerms (s.terms c) := by
  obtain ⟨e, he, rfl | rfl⟩ := h
  · exact hI.wf _ he
  · exact hI.wf e he

theorem IsCons.varsOf {s : LinStore} (hI : Inv s) {c : LinCons} (h : IsCons s c) :
    s.varsOf c = (s.terms c).map (·.1) := by
  obtain ⟨e, he, rfl | rfl⟩ := h
  · exact LinStore.varsOf_eq hI.len (hI.rng _ he).2
  · exact LinStore.varsOf_eq (c := e) hI.len (hI.rng e he).2

theorem IsCons.kept {s s' : LinStore} (hK : Kept s s') {c : LinCons} (h : IsCons s c) :
    IsCons s' c ∧ (s'.terms c).Perm (s.terms c) := by
  obtain ⟨e, he, rfl | rfl⟩ := h
  · exact ⟨⟨_, hK.set _ he, Or.inl rfl⟩, hK.terms _ he⟩
  · exact ⟨⟨e, hK.set e he, Or.inr rfl⟩, hK.terms e he⟩

theorem co_perm {a b : List (Nat × ℚ)} (h : a.Perm b) (x : Nat) : co x a = co x b := lsum_perm h

theorem init_wf' {s : LinStore} (hI : Inv s) {c : LinCons} (h : IsCons s c) :
    WfTerms (Fm.init s c).poly.terms := Fm.init_wf (h.terms_wf hI) _ (isg_ne c)

/-! ### Bounds -/

/-- `1` for upper bounds, `-1` for lower bounds. -/
def dq (up : Bool) : ℚ := if up then 1 else -1

/-- The value `q` respects the bound `v` (strictly if `str`). -/
def Resp (up : Bool) (v : ℚ) (str : Bool) (q : ℚ) : Prop :=
  dq up * (q - v) ≤ 0 ∧ (str = true → dq up * (q - v) < 0)

/-- Valuation that gives `x` the value `v`, the variables of `ds` the values of these bounds, and
every other variable the value `μ`. -/
def bsub (x : Nat) (v : ℚ) (ds : List Bnd) (μ : Nat → ℚ) : Nat → ℚ := fun y =>
  if y = x then v else ((ds.find? fun d => d.var == y).map (·.value)).getD (μ y)

/-- Models change over time: a defined variable either was defined with the same value and time
stamp, or it got a new time stamp. -/
structure PStep {α : Type} (m m' : PModel α) : Prop where
  gts : m.globalTs ≤ m'.globalTs
  old : ∀ y, m'.defined y = true →
    (m.defined y = true ∧ m'.ts y = m.ts y ∧ m'.value y = m.value y) ∨ (m.globalTs : Int) ≤ m'.ts y

/-- Both models. -/
structure MStep (m m' : LModels) : Prop where
  b : PStep m.bools m'.bools
  r : PStep m.rats m'.rats

/-- A derived bound, well formed with respect to the repository, the models, and the stacks `S` of
bounds (`S true` for upper and `S false` for lower bounds). `t` is the orientation of the reason, `μ`
the valuation of the assigned variables when the bound was computed, `dd` tells which dependencies
are upper bounds. -/
inductive GoodB (s : LinStore) (m : LModels) (S : Bool → Nat → List Bnd) : Bool → Bnd → Prop
  | mk (up : Bool) (x : Nat) (v : ℚ) (c : LinCons) (ds : List Bnd) (ct vt : Int)
      (t : ℚ) (μ : Nat → ℚ) (dd : Bnd → Bool)
      (hc : IsCons s c) (hne : ¬ (c.pred = .eq ∧ c.lit.isNeg = true))
      (ht : t = 1 ∨ t = -1) (ht1 : Fm.initPred c ≠ .eq → t = 1)
      (hx : 0 < dq up * (t * (isg c * co x (s.terms c))))
      (hnd : (ds.map Bnd.var).Nodup) (hxd : x ∉ ds.map Bnd.var)
      (hdir : ∀ d ∈ ds, dq (dd d) * (t * (isg c * co d.var (s.terms c))) < 0)
      (hval : lsum (bsub x v ds μ) (s.terms c) = c.rhs)
      (hμ : ∀ y ∈ s.varsOf c, y ≠ x → y ∉ ds.map Bnd.var →
        vt < m.rats.globalTs ∧
        (m.rats.defined y = true → m.rats.ts y ≤ vt → m.rats.value y = μ y))
      (hct : ct < m.bools.globalTs)
      (hst : ∀ d ∈ ds, d.isObsolete s m = false → d ∈ S (dd d) d.var)
      (hdeps : ∀ d ∈ ds, GoodB s m S (dd d) d) : GoodB s m S up (.mk x v c ds ct vt)

theorem anyObsolete_iff (s : LinStore) (m : LModels) (ds : List Bnd) :
    Bnd.anyObsolete s m ds = false ↔ ∀ d ∈ ds, d.isObsolete s m = false := by
  induction ds with
  | nil => simp [Bnd.anyObsolete]
  | cons d ds ih => simp [Bnd.anyObsolete, ih]

/-- What it means that a bound is not obsolete. -/
theorem live_iff (s : LinStore) (m : LModels) (x : Nat) (v : ℚ) (c : LinCons) (ds : List Bnd)
    (ct vt : Int) :
    (Bnd.mk x v c ds ct vt).isObsolete s m = false ↔
      (evalLit m.bools c.lit = some true ∧ m.bools.ts c.lit.ord ≤ ct) ∧
      (∀ y ∈ s.varsOf c, y ≠ x → y ∉ ds.map Bnd.var →
        m.rats.defined y = true ∧ m.rats.ts y ≤ vt) ∧
      (∀ d ∈ ds, d.isObsolete s m = false) := by
  have e : (Bnd.mk x v c ds ct vt).isObsolete s m = (Bnd.litObsolete m c ct ||
      (s.varsOf c).any (Bnd.varObsolete m x ds vt) || Bnd.anyObsolete s m ds) := by
    rw [Bnd.isObsolete]
  rw [e]
  simp only [Bool.or_eq_false_iff, anyObsolete_iff]
  rw [and_assoc]
  refine and_congr ?_ (and_congr ?_ Iff.rfl)
  · unfold Bnd.litObsolete
    simp
  · rw [List.any_eq_false]
    refine forall₂_congr fun y _ => ?_
    unfold Bnd.varObsolete
    simp only [Bool.and_eq_true, bne_iff_ne, Bool.not_eq_true', List.any_eq_false, beq_iff_eq,
      Bool.or_eq_true, decide_eq_true_eq, List.mem_map, not_and, not_exists, gt_iff_lt, not_or,
      Bool.not_eq_false, not_lt]
    constructor
    · intro h h1 h2
      exact h ⟨h1, fun d hd e => h2 d hd e⟩
    · rintro h ⟨h1, h2⟩
      exact h h1 (fun d hd e => h2 d hd e)

theorem bnd_eta (b : Bnd) : b = .mk b.var b.value b.reason b.deps b.consTime b.varTime := by
  cases b; rfl

/-- Obsolete bounds stay obsolete. -/
theorem obsolete_mono {s s' : LinStore} {m m' : LModels} {S} (hI : Inv s) (hI' : Inv s')
    (hK : Kept s s') (hm : MStep m m') {up : Bool} {b : Bnd} (g : GoodB s m S up b)
    (h : b.isObsolete s' m' = false) : b.isObsolete s m = false := by
  induction g with
  | mk up x v c ds ct vt t μ dd hc hne ht ht1 hx hnd hxd hdir hval hμ hct hst hdeps ih =>
    rw [live_iff] at h ⊢
    obtain ⟨⟨h1, h2⟩, h3, h4⟩ := h
    obtain ⟨hc', hp⟩ := hc.kept hK
    have hvars : ∀ y, y ∈ s'.varsOf c ↔ y ∈ s.varsOf c := by
      intro y
      rw [hc'.varsOf hI', hc.varsOf hI]
      exact (hp.map _).mem_iff
    refine ⟨?_, ?_, fun d hd => ih d hd (h4 d hd)⟩
    · unfold evalLit at h1 ⊢
      cases hd : m'.bools.defined c.lit.ord with
      | false => rw [hd] at h1; simp at h1
      | true =>
        rw [hd] at h1
        rcases hm.b.old _ hd with ⟨a1, a2, a3⟩ | a
        · rw [a1, ← a3, ← a2]; exact ⟨h1, h2⟩
        · exact absurd h2 (by omega)
    · intro y hy hyx hyd
      obtain ⟨a, b⟩ := h3 y ((hvars y).mpr hy) hyx hyd
      have hlt := (hμ y hy hyx hyd).1
      rcases hm.r.old _ a with ⟨a1, a2, a3⟩ | a
      · exact ⟨a1, by omega⟩
      · exact absurd b (by omega)

/-- Well-formedness is kept while the solver runs. -/
theorem GoodB.mono {s s' : LinStore} {m m' : LModels} {S S' : Bool → Nat → List Bnd} (hI : Inv s)
    (hI' : Inv s') (hK : Kept s s') (hm : MStep m m')
    (hS : ∀ up y, ∀ b ∈ S up y, b.isObsolete s' m' = false → b ∈ S' up y)
    {up : Bool} {b : Bnd} (g : GoodB s m S up b) : GoodB s' m' S' up b := by
  induction g with
  | mk up x v c ds ct vt t μ dd hc hne ht ht1 hx hnd hxd hdir hval hμ hct hst hdeps ih =>
    obtain ⟨hc', hp⟩ := hc.kept hK
    have hvars : ∀ y, y ∈ s'.varsOf c ↔ y ∈ s.varsOf c := by
      intro y
      rw [hc'.varsOf hI', hc.varsOf hI]
      exact (hp.map _).mem_iff
    have hg := hm.r.gts
    have hg2 := hm.b.gts
    refine GoodB.mk up x v c ds ct vt t μ dd hc' hne ht ht1 ?_ hnd hxd ?_ ?_ ?_ (by omega) ?_ ih
    · rw [co_perm hp]; exact hx
    · intro d hd; rw [co_perm hp]; exact hdir d hd
    · rw [lsum_perm hp]; exact hval
    · intro y hy hyx hyd
      obtain ⟨a, b⟩ := hμ y ((hvars y).mp hy) hyx hyd
      refine ⟨by omega, fun h1 h2 => ?_⟩
      rcases hm.r.old _ h1 with ⟨a1, a2, a3⟩ | a'
      · rw [a3]; exact b a1 (by omega)
      · exact absurd h2 (by omega)
    · intro d hd hl
      exact hS _ _ _ (hst d hd (obsolete_mono hI hI' hK hm (hdeps d hd) hl)) hl

/-- `d` occurs in the derivation of `b` with a strict reason. -/
inductive DeepStrict : Bnd → Prop
  | here (b : Bnd) (h : b.reason.isStrict = true) : DeepStrict b
  | dep (b d : Bnd) (hd : d ∈ b.deps) (h : DeepStrict d) : DeepStrict b

theorem deepStrict_of_isStrict {b : Bnd} (h : b.isStrict = true) : DeepStrict b := by
  unfold Bnd.isStrict at h
  simp only [Bool.or_eq_true, List.any_eq_true] at h
  rcases h with h | ⟨d, hd, h⟩
  · exact .here b h
  · exact .dep b d hd (.here d h)

theorem strict_initPred {c : LinCons} (hne : ¬ (c.pred = .eq ∧ c.lit.isNeg = true)) :
    c.isStrict = true ↔ Fm.initPred c = .lt := by
  unfold LinCons.isStrict Fm.initPred
  cases hn : c.lit.isNeg <;> cases hp : c.pred <;> simp [hn, hp] at hne ⊢

theorem bsub_dep {x : Nat} {v : ℚ} {ds : List Bnd} {μ : Nat → ℚ} (hnd : (ds.map Bnd.var).Nodup)
    (hxd : x ∉ ds.map Bnd.var) {d : Bnd} (hd : d ∈ ds) : bsub x v ds μ d.var = d.value := by
  have hx : d.var ≠ x := fun e => hxd (e ▸ List.mem_map_of_mem hd)
  unfold bsub
  rw [if_neg hx]
  cases e : ds.find? (fun d' => d'.var == d.var) with
  | none =>
    have := List.find?_eq_none.mp e d hd
    simp at this
  | some d' =>
    have h1 := List.find?_some e
    have h2 := List.mem_of_find?_eq_some e
    simp at h1
    have : d' = d := List.inj_on_of_nodup_map hnd h2 hd h1
    rw [this]; rfl

theorem bsub_self {x : Nat} {v : ℚ} {ds : List Bnd} {μ : Nat → ℚ} : bsub x v ds μ x = v := by
  simp [bsub]

theorem bsub_other {x y : Nat} {v : ℚ} {ds : List Bnd} {μ : Nat → ℚ} (hx : y ≠ x)
    (hy : y ∉ ds.map Bnd.var) : bsub x v ds μ y = μ y := by
  unfold bsub
  rw [if_neg hx]
  cases e : ds.find? (fun d' => d'.var == y) with
  | none => rfl
  | some d' =>
    have h1 := List.find?_some e
    have h2 := List.mem_of_find?_eq_some e
    simp at h1
    exact absurd (List.mem_map.mpr ⟨d', h2, h1⟩) hy

theorem dq_cases (up : Bool) : dq up = 1 ∨ dq up = -1 := by cases up <;> simp [dq]

/-- From the comparison of two valuations to the comparison of the values of `x`. -/
theorem resp_of_le {e A δ : ℚ} (he : e = 1 ∨ e = -1) (hA : 0 < e * A) :
    (A * δ ≤ 0 → e * δ ≤ 0) ∧ (A * δ < 0 → e * δ < 0) := by
  have h : e * δ * (e * A) = A * δ := by
    rcases he with rfl | rfl <;> ring
  constructor
  · intro h1
    by_contra h2
    rw [not_le] at h2
    have := mul_pos h2 hA
    rw [h] at this
    linarith
  · intro h1
    by_contra h2
    rw [not_lt] at h2
    have := mul_nonneg h2 hA.le
    rw [h] at this
    linarith

/-- Live bounds are sound, with the exact strictness of their derivation. -/
theorem GoodB.sound {s : LinStore} {m : LModels} {S} (hI : Inv s) {up : Bool} {b : Bnd}
    (g : GoodB s m S up b) (hl : b.isObsolete s m = false) (σ : Nat → ℚ)
    (hσ : ∀ y, m.rats.defined y = true → σ y = m.rats.value y)
    (hσc : ∀ c, IsCons s c → evalLit m.bools c.lit = some true → ConsTrue s c σ) :
    dq up * (σ b.var - b.value) ≤ 0 ∧ (DeepStrict b → dq up * (σ b.var - b.value) < 0) := by
  induction g with
  | mk up x v c ds ct vt t μ dd hc hne ht ht1 hx hnd hxd hdir hval hμ hct hst hdeps ih =>
    rw [live_iff] at hl
    obtain ⟨⟨l1, l2⟩, l3, l4⟩ := hl
    have hct := (Fm.init_sound s c hne σ).mpr (hσc c hc l1)
    unfold FmTrue at hct
    rw [pval_init] at hct
    -- every other variable is on the right side
    have hmono : ∀ p ∈ s.terms c, p.1 ≠ x →
        0 ≤ t * isg c * p.2 * (σ p.1 - bsub x v ds μ p.1) ∧
        ((∃ d ∈ ds, d.var = p.1 ∧ DeepStrict d) →
          0 < t * isg c * p.2 * (σ p.1 - bsub x v ds μ p.1)) := by
      intro p hp hpx
      by_cases hd : p.1 ∈ ds.map Bnd.var
      · obtain ⟨d, hd, hdv⟩ := List.mem_map.mp hd
        obtain ⟨i1, i2⟩ := ih d hd (l4 d hd)
        have hdd := hdir d hd
        have hco : co d.var (s.terms c) = p.2 := by
          rw [hdv]; exact LinStore.delta_mem (hc.terms_wf hI).nodup hp
        rw [hco] at hdd
        rw [← hdv, bsub_dep hnd hxd hd]
        have key : t * isg c * p.2 * (σ d.var - d.value) =
            (dq (dd d) * (t * (isg c * p.2))) * (dq (dd d) * (σ d.var - d.value)) := by
          rcases dq_cases (dd d) with h | h <;> rw [h] <;> ring
        rw [key]
        refine ⟨mul_nonneg_of_nonpos_of_nonpos hdd.le i1, ?_⟩
        rintro ⟨d', hd', hv', hds⟩
        have : d' = d := List.inj_on_of_nodup_map hnd hd' hd hv'
        subst this
        exact mul_pos_of_neg_of_neg hdd (i2 hds)
      · have hy : p.1 ∈ s.varsOf c := by
          rw [hc.varsOf hI]; exact List.mem_map_of_mem hp
        obtain ⟨a1, a2⟩ := l3 p.1 hy hpx hd
        rw [bsub_other hpx hd, hσ _ a1, (hμ p.1 hy hpx hd).2 a1 a2]
        refine ⟨by simp, ?_⟩
        rintro ⟨d, hd', hv', _⟩
        exact absurd (List.mem_map.mpr ⟨d, hd', hv'⟩) hd
    obtain ⟨m1, m2⟩ := lsum_mono (t := t * isg c) (σ := σ) (τ := bsub x v ds μ) (ts := s.terms c)
      (x := x) (fun p hp hpx => (hmono p hp hpx).1)
    rw [hval, bsub_self] at m1 m2
    have hA : 0 < dq up * (t * isg c * co x (s.terms c)) := by rw [mul_assoc]; exact hx
    obtain ⟨r1, r2⟩ := resp_of_le (δ := σ x - v) (dq_cases up) hA
    have hPle : t * isg c * (lsum σ (s.terms c) - c.rhs) ≤ 0 := by
      rw [mul_assoc]
      cases hp : (Fm.init s c).pred with
      | eq => rw [hp] at hct; have : isg c * (lsum σ (s.terms c) - c.rhs) = 0 := hct; rw [this]; simp
      | lt =>
        rw [hp] at hct
        rw [ht1 (by show (Fm.init s c).pred ≠ _; rw [hp]; decide), one_mul]
        exact le_of_lt hct
      | leq =>
        rw [hp] at hct
        rw [ht1 (by show (Fm.init s c).pred ≠ _; rw [hp]; decide), one_mul]
        exact hct
    refine ⟨r1 (le_trans m1 hPle), ?_⟩
    intro hds
    apply r2
    cases hds with
    | here _ h =>
      have hlt := (strict_initPred hne).mp h
      have hlt' : (Fm.init s c).pred = .lt := hlt
      rw [hlt'] at hct
      have h1 : t = 1 := ht1 (by rw [hlt]; decide)
      have : t * isg c * (lsum σ (s.terms c) - c.rhs) < 0 := by
        rw [h1, one_mul]; exact hct
      exact lt_of_le_of_lt m1 this
    | dep _ d hd h =>
      refine lt_of_lt_of_le (m2 ?_) hPle
      have hd : d ∈ ds := hd
      have hdd := hdir d hd
      have hne0 : co d.var (s.terms c) ≠ 0 := by
        intro h0; rw [h0] at hdd; simp at hdd
      obtain ⟨p, hp, hpv⟩ := List.mem_map.mp ((co_ne_zero_iff (hc.terms_wf hI) _).mp hne0)
      have hpx : p.1 ≠ x := by
        rw [hpv]; exact fun e => hxd (e ▸ List.mem_map_of_mem hd)
      exact ⟨p, hp, hpx, (hmono p hp hpx).2 ⟨d, hd, hpv.symm, h⟩⟩

end Yaga
