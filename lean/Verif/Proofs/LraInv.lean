/-
Invariant of the arithmetic theory's state: environment changes and changes of the bound stacks.
-/
import Verif.Proofs.LraStore

set_option linter.unusedVariables false
set_option linter.unusedSimpArgs false

namespace Yaga
open Spec
open LinStore (delta WfTerms Inv Kept Made)

namespace Lra

/-- The stacks of a bounds object. -/
def stk (b : BState) (up : Bool) (x : Nat) : List Bnd := if up then (b.vb x).ub else (b.vb x).lb

/-- Comparison used on the stacks. -/
def lessOf (up : Bool) : ℚ → ℚ → Bool := if up then Bnd.ubLess else Bnd.lbLess

/-- A disallowed value. -/
structure GoodN (s : LinStore) (m : LModels) (x : Nat) (b : Bnd) : Prop where
  cons : IsCons s b.reason
  pred : b.reason.pred = .eq
  neg : b.reason.lit.isNeg = true
  var : b.var = x
  deps : b.deps = []
  nz : co x (s.terms b.reason) ≠ 0
  times : b.consTime < m.bools.globalTs ∧ ∀ y ∈ s.varsOf b.reason, y ≠ x → b.varTime < m.rats.globalTs
  val : ∃ μ : Nat → ℚ, lsum (bsub x b.value [] μ) (s.terms b.reason) = b.reason.rhs ∧
    ∀ y ∈ s.varsOf b.reason, y ≠ x → m.rats.defined y = true → m.rats.ts y ≤ b.varTime →
      m.rats.value y = μ y

structure LInv (st : St) : Prop where
  inv : Inv st.store
  len : st.store.cons.length = st.models.bools.num
  dom : ∀ o, st.models.bools.defined o = true → o < st.models.bools.num
  tsb : ∀ o, st.models.bools.defined o = true →
    0 ≤ st.models.bools.ts o ∧ st.models.bools.ts o < st.models.bools.globalTs
  tsr : ∀ o, st.models.rats.defined o = true →
    0 ≤ st.models.rats.ts o ∧ st.models.rats.ts o < st.models.rats.globalTs
  var : ∀ up x, ∀ b ∈ stk st.bnd up x, b.var = x
  good : ∀ up x, ∀ b ∈ stk st.bnd up x, GoodB st.store st.models (stk st.bnd) up b
  resp : ∀ up x, ∀ b ∈ stk st.bnd up x, b.isObsolete st.store st.models = false →
    st.models.rats.defined x = true → Resp up b.value b.isStrict (st.models.rats.value x)
  best : ∀ up x, (stk st.bnd up x).Pairwise fun a b => Bnd.isBetter (lessOf up) a b = true
  dis : ∀ x, ∀ b ∈ (st.bnd.vb x).dis, GoodN st.store st.models x b
  front : ∀ x, ∀ b ∈ (st.bnd.vb x).dis, b.isObsolete st.store st.models = false →
    (st.store.varsOf b.reason).head? = some x
  respD : ∀ x, ∀ b ∈ (st.bnd.vb x).dis, b.isObsolete st.store st.models = false →
    st.models.rats.defined x = true → st.models.rats.value x ≠ b.value

/-! ### Models -/

theorem PStep.refl {α : Type} (m : PModel α) : PStep m m := ⟨le_refl _, fun y h => Or.inl ⟨h, rfl, rfl⟩⟩

theorem PStep.setValue {α : Type} (m : PModel α) (o : Nat) (v : α) : PStep m (m.setValue o v) := by
  refine ⟨Nat.le_succ _, fun y h => ?_⟩
  by_cases e : y = o
  · right
    subst e
    simp [PModel.setValue]
  · left
    simp [PModel.setValue, e] at h ⊢
    exact h

theorem PStep.clear {α : Type} (m : PModel α) (o : Nat) : PStep m (m.clear o) := by
  refine ⟨le_refl _, fun y h => ?_⟩
  by_cases e : y = o
  · subst e
    simp [PModel.clear] at h
  · left
    simp [PModel.clear, e] at h ⊢
    exact h

theorem PStep.resize {α : Type} (m : PModel α) (z : α) (n : Nat) : PStep m (m.resize z n) := by
  refine ⟨le_refl _, fun y h => ?_⟩
  simp only [PModel.resize] at h ⊢
  by_cases e : y < m.num ∧ y < n
  · rw [if_pos e] at h
    left
    simp [e, h]
  · rw [if_neg e] at h; cases h

/-- Time stamps of defined variables are old. -/
def TsOk {α : Type} (m : PModel α) : Prop :=
  ∀ o, m.defined o = true → 0 ≤ m.ts o ∧ m.ts o < m.globalTs

theorem TsOk.setValue {α : Type} {m : PModel α} (h : TsOk m) (o : Nat) (v : α) :
    TsOk (m.setValue o v) := by
  intro y hy
  by_cases e : y = o
  · subst e
    simp [PModel.setValue]
  · simp [PModel.setValue, e] at hy ⊢
    have := h y hy
    omega

theorem TsOk.clear {α : Type} {m : PModel α} (h : TsOk m) (o : Nat) : TsOk (m.clear o) := by
  intro y hy
  by_cases e : y = o
  · subst e
    simp [PModel.clear] at hy
  · simp [PModel.clear, e] at hy ⊢
    exact h y hy

theorem TsOk.resize {α : Type} {m : PModel α} (h : TsOk m) (z : α) (n : Nat) :
    TsOk (m.resize z n) := by
  intro y hy
  simp only [PModel.resize] at hy ⊢
  by_cases e : y < m.num ∧ y < n
  · rw [if_pos e] at hy ⊢
    exact h y hy
  · rw [if_neg e] at hy; cases hy

/-! ### Environment -/

theorem GoodN.live {s s' : LinStore} {m m' : LModels} (hI : Inv s) (hI' : Inv s')
    (hK : Kept s s') (hm : MStep m m') {x : Nat} {b : Bnd} (g : GoodN s m x b)
    (h : b.isObsolete s' m' = false) : b.isObsolete s m = false := by
  have e := bnd_eta b
  rw [e] at h ⊢
  rw [live_iff] at h ⊢
  obtain ⟨⟨h1, h2⟩, h3, h4⟩ := h
  obtain ⟨hc', hp⟩ := g.cons.kept hK
  have hvars : ∀ y, y ∈ s'.varsOf b.reason ↔ y ∈ s.varsOf b.reason := by
    intro y
    rw [hc'.varsOf hI', g.cons.varsOf hI]
    exact (hp.map _).mem_iff
  refine ⟨?_, ?_, by rw [g.deps]; simp⟩
  · unfold evalLit at h1 ⊢
    have ht := g.times.1
    cases hd : m'.bools.defined b.reason.lit.ord with
    | false => rw [hd] at h1; simp at h1
    | true =>
      rw [hd] at h1
      rcases hm.b.old _ hd with ⟨a1, a2, a3⟩ | a
      · rw [a1, ← a3, ← a2]; exact ⟨h1, h2⟩
      · exact absurd h2 (by omega)
  · intro y hy hyx hyd
    obtain ⟨a, b⟩ := h3 y ((hvars y).mpr hy) hyx hyd
    rw [g.var] at hyx
    have hlt := g.times.2 y hy hyx
    rcases hm.r.old _ a with ⟨a1, a2, a3⟩ | a
    · exact ⟨a1, by omega⟩
    · exact absurd b (by omega)

theorem GoodN.mono {s s' : LinStore} {m m' : LModels} (hI : Inv s) (hI' : Inv s')
    (hK : Kept s s') (hm : MStep m m') {x : Nat} {b : Bnd} (g : GoodN s m x b) : GoodN s' m' x b := by
  obtain ⟨hc', hp⟩ := g.cons.kept hK
  have hvars : ∀ y, y ∈ s'.varsOf b.reason ↔ y ∈ s.varsOf b.reason := by
    intro y
    rw [hc'.varsOf hI', g.cons.varsOf hI]
    exact (hp.map _).mem_iff
  have hg := hm.r.gts
  have hg2 := hm.b.gts
  obtain ⟨μ, h1, h2⟩ := g.val
  refine ⟨hc', g.pred, g.neg, g.var, g.deps, ?_, ⟨by have := g.times.1; omega, ?_⟩, μ, ?_, ?_⟩
  · rw [co_perm hp]; exact g.nz
  · intro y hy hyx
    have := g.times.2 y ((hvars y).mp hy) hyx
    omega
  · rw [lsum_perm hp]; exact h1
  · intro y hy hyx hd ht
    have hlt := g.times.2 y ((hvars y).mp hy) hyx
    rcases hm.r.old _ hd with ⟨a1, a2, a3⟩ | a
    · rw [a3]; exact h2 y ((hvars y).mp hy) hyx a1 (by omega)
    · exact absurd ht (by omega)

/-- The repository and the models change, the bounds do not. -/
theorem LInv.env {st : St} (h : LInv st) {s' : LinStore} {m' : LModels} (hI' : Inv s')
    (hK : Kept st.store s') (hm : MStep st.models m')
    (hlen : s'.cons.length = m'.bools.num)
    (hdom : ∀ o, m'.bools.defined o = true → o < m'.bools.num)
    (htb : TsOk m'.bools) (htr : TsOk m'.rats)
    (hval : ∀ y, m'.rats.defined y = true →
      (st.models.rats.defined y = true ∧ m'.rats.value y = st.models.rats.value y) ∨
      ((∀ up, ∀ b ∈ stk st.bnd up y, b.isObsolete st.store st.models = false →
          Resp up b.value b.isStrict (m'.rats.value y)) ∧
        ∀ b ∈ (st.bnd.vb y).dis, b.isObsolete st.store st.models = false → m'.rats.value y ≠ b.value))
    (hfront : ∀ x, ∀ b ∈ (st.bnd.vb x).dis, b.isObsolete st.store st.models = false →
      b.isObsolete s' m' = false →
      (st.store.varsOf b.reason).head? = some x → (s'.varsOf b.reason).head? = some x) :
    LInv ⟨s', m', st.bnd⟩ where
  inv := hI'
  len := hlen
  dom := hdom
  tsb := htb
  tsr := htr
  var := h.var
  good := fun up x b hb => (h.good up x b hb).mono h.inv hI' hK hm (fun _ _ _ h _ => h)
  resp := by
    intro up x b hb hl hx
    have hl0 := obsolete_mono h.inv hI' hK hm (h.good up x b hb) hl
    rcases hval x hx with ⟨a1, a2⟩ | ⟨a, _⟩
    · have := h.resp up x b hb hl0 a1
      show Resp up b.value b.isStrict (m'.rats.value x)
      rw [a2]; exact this
    · exact a up b hb hl0
  best := h.best
  dis := fun x b hb => (h.dis x b hb).mono h.inv hI' hK hm
  front := by
    intro x b hb hl
    have hl0 := (h.dis x b hb).live h.inv hI' hK hm hl
    exact hfront x b hb hl0 hl (h.front x b hb hl0)
  respD := by
    intro x b hb hl hx
    have hl0 := (h.dis x b hb).live h.inv hI' hK hm hl
    rcases hval x hx with ⟨a1, a2⟩ | ⟨_, a⟩
    · have := h.respD x b hb hl0 a1
      show m'.rats.value x ≠ b.value
      rw [a2]; exact this
    · exact a b hb hl0

/-- Only the models change. -/
theorem LInv.models {st : St} (h : LInv st) {m' : LModels} (hm : MStep st.models m')
    (hlen : st.models.bools.num = m'.bools.num)
    (hdom : ∀ o, m'.bools.defined o = true → o < m'.bools.num)
    (htb : TsOk m'.bools) (htr : TsOk m'.rats)
    (hval : ∀ y, m'.rats.defined y = true →
      (st.models.rats.defined y = true ∧ m'.rats.value y = st.models.rats.value y) ∨
      ((∀ up, ∀ b ∈ stk st.bnd up y, b.isObsolete st.store st.models = false →
          Resp up b.value b.isStrict (m'.rats.value y)) ∧
        ∀ b ∈ (st.bnd.vb y).dis, b.isObsolete st.store st.models = false → m'.rats.value y ≠ b.value)) :
    LInv ⟨st.store, m', st.bnd⟩ :=
  h.env h.inv (Kept.refl _) hm (by rw [h.len, hlen]) hdom htb htr hval (fun _ _ _ _ _ h => h)

/-! ### Stacks -/

/-- Bounds are removed, but only obsolete ones. -/
theorem LInv.shrink {st : St} (h : LInv st) {b' : BState}
    (hsub : ∀ up x, (stk b' up x).Sublist (stk st.bnd up x))
    (hlive : ∀ up x, ∀ b ∈ stk st.bnd up x, b.isObsolete st.store st.models = false → b ∈ stk b' up x)
    (hdis : ∀ x, ∀ b ∈ (b'.vb x).dis, b ∈ (st.bnd.vb x).dis) : LInv { st with bnd := b' } where
  inv := h.inv
  len := h.len
  dom := h.dom
  tsb := h.tsb
  tsr := h.tsr
  var := fun up x b hb => h.var up x b ((hsub up x).subset hb)
  good := fun up x b hb => (h.good up x b ((hsub up x).subset hb)).mono h.inv h.inv (Kept.refl _)
    ⟨PStep.refl _, PStep.refl _⟩ hlive
  resp := fun up x b hb => h.resp up x b ((hsub up x).subset hb)
  best := fun up x => (h.best up x).sublist (hsub up x)
  dis := fun x b hb => h.dis x b (hdis x b hb)
  front := fun x b hb => h.front x b (hdis x b hb)
  respD := fun x b hb => h.respD x b (hdis x b hb)

theorem popObs_sublist (s : LinStore) (m : LModels) (bs : List Bnd) :
    (VBounds.popObs s m bs).Sublist bs := by
  induction bs with
  | nil => exact List.Sublist.refl _
  | cons b bs ih =>
    unfold VBounds.popObs
    split
    · exact ih.cons b
    · exact List.Sublist.refl _

theorem popObs_live (s : LinStore) (m : LModels) {bs : List Bnd} {b : Bnd} (hb : b ∈ bs)
    (hl : b.isObsolete s m = false) : b ∈ VBounds.popObs s m bs := by
  induction bs with
  | nil => cases hb
  | cons c bs ih =>
    unfold VBounds.popObs
    rcases List.mem_cons.mp hb with rfl | hb
    · rw [if_neg (by simp [hl])]; simp
    · split
      · exact ih hb
      · exact List.mem_cons_of_mem _ hb

theorem popObs_head (s : LinStore) (m : LModels) {bs : List Bnd} {b : Bnd}
    (h : (VBounds.popObs s m bs).head? = some b) : b.isObsolete s m = false := by
  induction bs with
  | nil => simp [VBounds.popObs] at h
  | cons c bs ih =>
    unfold VBounds.popObs at h
    split at h
    · exact ih h
    · simp at h
      subst h
      rename_i hc
      simpa using hc

theorem mem_of_head? {α : Type} {l : List α} {a : α} (h : l.head? = some a) : a ∈ l := by
  cases l with
  | nil => simp at h
  | cons b l => simp at h; subst h; simp

/-- Query of either stack. -/
def query (s : LinStore) (m : LModels) (b : BState) (up : Bool) (x : Nat) : BState × Option Bnd :=
  if up then b.upper s m x else b.lower s m x

theorem stk_put (b : BState) (x : Nat) (v : VBounds) (up : Bool) (y : Nat) :
    stk (b.put x v) up y = if y = x then (if up then v.ub else v.lb) else stk b up y := by
  unfold stk BState.put
  by_cases e : y = x
  · subst e; simp
  · simp [e]

theorem vb_put (b : BState) (x : Nat) (v : VBounds) (y : Nat) :
    (b.put x v).vb y = if y = x then v else b.vb y := by
  unfold BState.put
  by_cases e : y = x
  · subst e; simp
  · simp [e]

theorem stk_query (s : LinStore) (m : LModels) (b : BState) (up : Bool) (x : Nat) (up' : Bool) (y : Nat) :
    stk (query s m b up x).1 up' y =
      if y = x ∧ up' = up then VBounds.popObs s m (stk b up x) else stk b up' y := by
  unfold query
  cases up <;> cases up' <;>
    simp only [BState.upper, BState.lower, if_true, if_false, Bool.false_eq_true, stk_put,
      VBounds.upper, VBounds.lower] <;>
    by_cases e : y = x <;> simp [e, stk]

theorem dis_query (s : LinStore) (m : LModels) (b : BState) (up : Bool) (x : Nat) (y : Nat) :
    ((query s m b up x).1.vb y).dis = (b.vb y).dis := by
  unfold query
  cases up <;>
    simp only [BState.upper, BState.lower, if_true, if_false, Bool.false_eq_true, vb_put,
      VBounds.upper, VBounds.lower] <;>
    by_cases e : y = x <;> simp [e]

theorem query_res (s : LinStore) (m : LModels) (b : BState) (up : Bool) (x : Nat) :
    (query s m b up x).2 = (VBounds.popObs s m (stk b up x)).head? := by
  unfold query stk
  cases up <;> rfl

theorem LInv.query {st : St} (h : LInv st) (up : Bool) (x : Nat) :
    LInv { st with bnd := (query st.store st.models st.bnd up x).1 } := by
  refine h.shrink ?_ ?_ ?_
  · intro up' y
    rw [stk_query]
    split
    · rename_i e
      rw [e.1, e.2]; exact popObs_sublist _ _ _
    · exact List.Sublist.refl _
  · intro up' y b hb hl
    rw [stk_query]
    split
    · rename_i e
      rw [e.1, e.2] at hb; exact popObs_live _ _ hb hl
    · exact hb
  · intro y b hb
    rw [dis_query] at hb; exact hb

/-- What a query returns. -/
theorem query_some {s : LinStore} {m : LModels} {b : BState} {up : Bool} {x : Nat} {t : Bnd}
    (h : (query s m b up x).2 = some t) :
    t ∈ stk b up x ∧ t ∈ stk (query s m b up x).1 up x ∧ t.isObsolete s m = false := by
  rw [query_res] at h
  refine ⟨(popObs_sublist _ _ _).subset (mem_of_head? h), ?_, popObs_head _ _ h⟩
  rw [stk_query, if_pos ⟨rfl, rfl⟩]
  exact mem_of_head? h

theorem isBetter_iff (up : Bool) (a b : Bnd) : Bnd.isBetter (lessOf up) a b = true ↔
    dq up * (a.value - b.value) < 0 ∨
      (a.value = b.value ∧ a.isStrict = true ∧ b.isStrict = false) := by
  have h1 : (lessOf up a.value b.value = true) ↔ dq up * (a.value - b.value) < 0 := by
    cases up
    · simp [lessOf, Bnd.lbLess, dq]
    · simp [lessOf, Bnd.ubLess, dq]
  unfold Bnd.isBetter
  by_cases hl : lessOf up a.value b.value = true
  · rw [if_pos hl]; simp [h1.mp hl]
  · rw [if_neg hl]
    by_cases he : a.value = b.value
    · rw [if_pos he]; simp [he]
    · rw [if_neg he]
      have := mt h1.mpr hl
      simp [this, he]

theorem isBetter_trans {up : Bool} {a b c : Bnd} (h1 : Bnd.isBetter (lessOf up) a b = true)
    (h2 : Bnd.isBetter (lessOf up) b c = true) : Bnd.isBetter (lessOf up) a c = true := by
  rw [isBetter_iff] at *
  have e : dq up * (a.value - c.value) = dq up * (a.value - b.value) + dq up * (b.value - c.value) := by
    ring
  rcases h1 with h1 | ⟨h1, h1', h1''⟩ <;> rcases h2 with h2 | ⟨h2, h2', h2''⟩
  · left; linarith
  · left; rw [e, h2]; simpa [h2] using h1
  · left; rw [h1]; exact h2
  · rw [h1''] at h2'; cases h2'

theorem resp_of_better {up : Bool} {a b : Bnd} {q : ℚ} (h : Bnd.isBetter (lessOf up) a b = true)
    (hr : Resp up a.value a.isStrict q) : Resp up b.value b.isStrict q := by
  rw [isBetter_iff] at h
  obtain ⟨r1, r2⟩ := hr
  have e : dq up * (q - b.value) = dq up * (q - a.value) + dq up * (a.value - b.value) := by ring
  unfold Resp
  rw [e]
  rcases h with h | ⟨h, h', h''⟩
  · exact ⟨by linarith, fun _ => by linarith⟩
  · rw [h, h'']; simp
    rw [h] at r1; exact r1

/-- Pushing a bound. -/
theorem LInv.push {st : St} (h : LInv st) {up : Bool} {x : Nat} {v : Bnd} {b' : BState}
    (hst : ∀ up' y, stk b' up' y = if y = x ∧ up' = up then v :: stk st.bnd up x else stk st.bnd up' y)
    (hdis : ∀ y, (b'.vb y).dis = (st.bnd.vb y).dis)
    (hv : v.var = x) (hg : GoodB st.store st.models (stk st.bnd) up v)
    (hx : st.models.rats.defined x = false)
    (hb : ∀ t, (stk st.bnd up x).head? = some t → Bnd.isBetter (lessOf up) v t = true) :
    LInv { st with bnd := b' } := by
  have hmem : ∀ up' y, ∀ b ∈ stk b' up' y, b ∈ stk st.bnd up' y ∨ (b = v ∧ y = x ∧ up' = up) := by
    intro up' y b hb
    rw [hst] at hb
    split at hb
    · rename_i e
      rcases List.mem_cons.mp hb with rfl | hb
      · exact Or.inr ⟨rfl, e⟩
      · left; rw [e.1, e.2]; exact hb
    · exact Or.inl hb
  have hsub : ∀ up' y, ∀ b ∈ stk st.bnd up' y, b ∈ stk b' up' y := by
    intro up' y b hb
    rw [hst]
    split
    · rename_i e
      rw [e.1, e.2] at hb
      exact List.mem_cons_of_mem _ hb
    · exact hb
  have hgm : ∀ up' b, GoodB st.store st.models (stk st.bnd) up' b →
      GoodB st.store st.models (stk b') up' b := fun up' b hb =>
    hb.mono h.inv h.inv (Kept.refl _) ⟨PStep.refl _, PStep.refl _⟩ (fun a c d hd _ => hsub a c d hd)
  refine ⟨h.inv, h.len, h.dom, h.tsb, h.tsr, ?_, ?_, ?_, ?_, ?_, ?_, ?_⟩
  · intro up' y b hb
    rcases hmem up' y b hb with hb | ⟨rfl, rfl, rfl⟩
    · exact h.var up' y b hb
    · exact hv
  · intro up' y b hb
    rcases hmem up' y b hb with hb | ⟨rfl, rfl, rfl⟩
    · exact hgm _ _ (h.good up' y b hb)
    · exact hgm _ _ hg
  · intro up' y b hb hl hy
    rcases hmem up' y b hb with hb | ⟨rfl, rfl, rfl⟩
    · exact h.resp up' y b hb hl hy
    · exact absurd hy (by rw [hx]; simp)
  · intro up' y
    show (stk b' up' y).Pairwise _
    rw [hst]
    split
    · rename_i e
      rw [e.2]
      rw [List.pairwise_cons]
      refine ⟨?_, h.best up x⟩
      have hp := h.best up x
      intro u hu
      cases hs : stk st.bnd up x with
      | nil => rw [hs] at hu; cases hu
      | cons t ts =>
        rw [hs] at hu hp
        have hvt := hb t (by rw [hs]; rfl)
        rcases List.mem_cons.mp hu with rfl | hu
        · exact hvt
        · exact isBetter_trans hvt ((List.pairwise_cons.mp hp).1 u hu)
    · exact h.best up' y
  · intro y b hb
    have hb : b ∈ (b'.vb y).dis := hb
    rw [hdis] at hb; exact h.dis y b hb
  · intro y b hb
    have hb : b ∈ (b'.vb y).dis := hb
    rw [hdis] at hb; exact h.front y b hb
  · intro y b hb
    have hb : b ∈ (b'.vb y).dis := hb
    rw [hdis] at hb; exact h.respD y b hb

/-- `add_upper_bound` and `add_lower_bound`. -/
def add (s : LinStore) (m : LModels) (b : BState) (up : Bool) (x : Nat) (v : Bnd) : BState × Bool :=
  if up then b.addUpper s m x v else b.addLower s m x v

theorem vbounds_add (s : LinStore) (m : LModels) (b : BState) (up : Bool) (x : Nat) (v : Bnd) :
    let q := query s m b up x
    let t := q.2.all fun t => Bnd.isBetter (lessOf up) v t
    (add s m b up x v).2 = t ∧
    (∀ up' y, stk (add s m b up x v).1 up' y =
      if y = x ∧ up' = up ∧ t = true then v :: stk q.1 up x else stk q.1 up' y) ∧
    ∀ y, ((add s m b up x v).1.vb y).dis = (q.1.vb y).dis := by
  intro q t
  cases up with
  | true =>
    have e : add s m b true x v = b.addUpper s m x v := rfl
    have eq : q = b.upper s m x := rfl
    have hq2 : q.2 = ((b.vb x).upper s m).2 := rfl
    have ht : t = (((b.vb x).upper s m).2.all fun t => Bnd.isBetter Bnd.ubLess v t) := rfl
    rw [e]
    unfold BState.addUpper VBounds.addUpper
    simp only
    rw [← ht]
    cases t with
    | true =>
      refine ⟨rfl, fun up' y => ?_, fun y => ?_⟩
      · simp only [if_true, stk_put, eq, BState.upper]
        cases up' <;> by_cases e : y = x <;> simp [e, VBounds.upper]
      · simp only [if_true, vb_put, eq, BState.upper]
        by_cases e : y = x <;> simp [e, VBounds.upper]
    | false =>
      refine ⟨rfl, fun up' y => ?_, fun y => ?_⟩
      · simp only [Bool.false_eq_true, if_false, and_false, eq, BState.upper]
      · simp only [Bool.false_eq_true, if_false, eq, BState.upper]
  | false =>
    have e : add s m b false x v = b.addLower s m x v := rfl
    have eq : q = b.lower s m x := rfl
    have ht : t = (((b.vb x).lower s m).2.all fun t => Bnd.isBetter Bnd.lbLess v t) := rfl
    rw [e]
    unfold BState.addLower VBounds.addLower
    simp only
    rw [← ht]
    cases t with
    | true =>
      refine ⟨rfl, fun up' y => ?_, fun y => ?_⟩
      · simp only [if_true, stk_put, eq, BState.lower]
        cases up' <;> by_cases e : y = x <;> simp [e, VBounds.lower]
      · simp only [if_true, vb_put, eq, BState.lower]
        by_cases e : y = x <;> simp [e, VBounds.lower]
    | false =>
      refine ⟨rfl, fun up' y => ?_, fun y => ?_⟩
      · simp only [Bool.false_eq_true, if_false, and_false, eq, BState.lower]
      · simp only [Bool.false_eq_true, if_false, eq, BState.lower]

theorem LInv.add {st : St} (h : LInv st) {up : Bool} {x : Nat} {v : Bnd} (hv : v.var = x)
    (hg : GoodB st.store st.models (stk st.bnd) up v) (hx : st.models.rats.defined x = false) :
    LInv { st with bnd := (add st.store st.models st.bnd up x v).1 } := by
  obtain ⟨_, h2, h3⟩ := vbounds_add st.store st.models st.bnd up x v
  have hq := h.query up x
  generalize ht : ((Lra.query st.store st.models st.bnd up x).2.all
    fun t => Bnd.isBetter (lessOf up) v t) = t at h2
  have hres := query_res st.store st.models st.bnd up x
  have hstq := stk_query st.store st.models st.bnd up x
  have hgm : GoodB st.store st.models
      (stk (Lra.query st.store st.models st.bnd up x).1) up v :=
    hg.mono h.inv h.inv (Kept.refl _) ⟨PStep.refl _, PStep.refl _⟩ (by
      intro up' y b hb hl
      rw [hstq]
      split
      · rename_i e
        rw [e.1, e.2] at hb; exact popObs_live _ _ hb hl
      · exact hb)
  generalize Lra.query st.store st.models st.bnd up x = q at *
  cases t with
  | true =>
    refine hq.push (up := up) (x := x) (v := v) ?_ h3 hv hgm hx ?_
    · intro up' y
      rw [h2]
      simp
    · intro t' ht'
      have e : stk q.1 up x = VBounds.popObs st.store st.models (stk st.bnd up x) := by
        rw [hstq, if_pos ⟨rfl, rfl⟩]
      have ht' : (stk q.1 up x).head? = some t' := ht'
      rw [e, ← hres] at ht'
      rw [ht'] at ht
      exact ht
  | false =>
    refine hq.shrink ?_ ?_ ?_
    · intro up' y
      rw [h2]; simp
    · intro up' y b hb _
      rw [h2]; simpa using hb
    · intro y b hb
      rw [h3] at hb; exact hb

end Lra
end Yaga
