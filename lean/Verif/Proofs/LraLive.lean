/-
Bounds along histories: which bounds are live, and that live bounds stay recorded.
-/
import Verif.Proofs.LraReach
import Verif.Spec.Lra

set_option linter.unusedVariables false
set_option linter.unusedSimpArgs false

namespace Yaga
open Spec
open LinStore (delta WfTerms Inv Kept Made)

theorem PStep.trans {α : Type} {a b c : PModel α} (h1 : PStep a b) (h2 : PStep b c) : PStep a c := by
  refine ⟨le_trans h1.gts h2.gts, fun y hy => ?_⟩
  rcases h2.old y hy with ⟨d1, d2, d3⟩ | h
  · rcases h1.old y d1 with ⟨e1, e2, e3⟩ | h
    · exact Or.inl ⟨e1, by rw [d2, e2], by rw [d3, e3]⟩
    · right; rw [d2]; exact h
  · right
    have := h1.gts
    omega

theorem MStep.trans {a b c : LModels} (h1 : MStep a b) (h2 : MStep b c) : MStep a c :=
  ⟨h1.b.trans h2.b, h1.r.trans h2.r⟩

namespace Lra

/-- Effect of one operation on repository and models. -/
theorem op_env (hv : Nat → Nat) (hc : ℚ → Nat) {st : St} (h : LInv st) {op : Op} (ok : op.Ok st) :
    Kept st.store (op.run hv hc st).store ∧ MStep st.models (op.run hv hc st).models := by
  cases op with
  | resizeBool n =>
    have ok : st.models.bools.num ≤ n := ok
    exact ⟨(LinStore.resize_spec h.inv (n := n) (by rw [h.len]; exact ok)).2,
      ⟨PStep.resize _ _ _, PStep.refl _⟩⟩
  | resizeRat n => exact ⟨Kept.refl _, ⟨PStep.refl _, PStep.resize _ _ _⟩⟩
  | setBool o v => exact ⟨Kept.refl _, ⟨PStep.setValue _ _ _, PStep.refl _⟩⟩
  | clearBool o => exact ⟨Kept.refl _, ⟨PStep.clear _ _, PStep.refl _⟩⟩
  | setRat x q => exact ⟨Kept.refl _, ⟨PStep.refl _, PStep.setValue _ _ _⟩⟩
  | clearRat x => exact ⟨Kept.refl _, ⟨PStep.refl _, PStep.clear _ _⟩⟩
  | constraint ts p r =>
    obtain ⟨_, hK, _, _, ⟨hgr, hgb⟩, _⟩ := constraint_spec hv hc h.inv h.len ok p r
    refine ⟨hK, ?_, ?_⟩
    · rcases hgb with e | ⟨n, _, e⟩
      · show PStep _ (Lra.constraint hv hc st.store st.models ts p r).2.1.bools
        rw [e]; exact PStep.refl _
      · show PStep _ (Lra.constraint hv hc st.store st.models ts p r).2.1.bools
        rw [e]; exact PStep.resize _ _ _
    · show PStep _ (Lra.constraint hv hc st.store st.models ts p r).2.1.rats
      rw [hgr]; exact PStep.refl _
  | swap o i j => exact ⟨(LinStore.swap_spec h.inv ok.1 ok.2.1).2, MStep.refl _⟩
  | update c => exact ⟨Kept.refl _, MStep.refl _⟩
  | deduce c => exact ⟨Kept.refl _, MStep.refl _⟩
  | upper x => exact ⟨Kept.refl _, MStep.refl _⟩
  | lower x => exact ⟨Kept.refl _, MStep.refl _⟩
  | inequality x q => exact ⟨Kept.refl _, MStep.refl _⟩
  | allowed x q => exact ⟨Kept.refl _, MStep.refl _⟩
  | implied c => exact ⟨Kept.refl _, MStep.refl _⟩
  | changed => exact ⟨Kept.refl _, MStep.refl _⟩

theorem steps_env {hv : Nat → Nat} {hc : ℚ → Nat} {st t : St} (h : LInv st) (hs : Steps hv hc st t) :
    Kept st.store t.store ∧ MStep st.models t.models := by
  induction hs with
  | refl => exact ⟨Kept.refl _, MStep.refl _⟩
  | step op hs' ok ih =>
    obtain ⟨a, b⟩ := op_env hv hc (steps_linv hv hc h hs') ok
    exact ⟨ih.1.trans a, ih.2.trans b⟩

/-! ### Live bounds stay recorded -/

/-- Live bounds are kept. -/
def KeepsLive (s : LinStore) (m : LModels) (b b' : BState) : Prop :=
  ∀ up x, ∀ e ∈ stk b up x, e.isObsolete s m = false → e ∈ stk b' up x

theorem KeepsLive.trans {s : LinStore} {m : LModels} {a b c : BState} (h1 : KeepsLive s m a b)
    (h2 : KeepsLive s m b c) : KeepsLive s m a c :=
  fun up x e he hl => h2 up x e (h1 up x e he hl) hl

theorem KeepsLive.refl (s : LinStore) (m : LModels) (b : BState) : KeepsLive s m b b :=
  fun _ _ _ h _ => h

theorem keepsLive_note {s : LinStore} {m : LModels} {b b' : BState} (h : KeepsLive s m b b') (x : Nat)
    (cb : Bool) : KeepsLive s m b (b'.note x cb) := by
  intro up y e he hl
  have : stk (b'.note x cb) up y = stk b' up y := by unfold stk; rw [note_vb]
  rw [this]
  exact h up y e he hl

theorem keepsLive_add (s : LinStore) (m : LModels) (b : BState) (up : Bool) (x : Nat) (v : Bnd) :
    KeepsLive s m b (add s m b up x v).1 := add_live up x v

theorem stk_addInequality (s : LinStore) (m : LModels) (b : BState) (x : Nat) (v : Bnd) (up : Bool)
    (y : Nat) : stk (b.addInequality s m x v).1 up y = stk b up y := by
  unfold BState.addInequality
  simp only
  rw [stk_put]
  split
  · rename_i e
    rw [e]
    have h1 : (VBounds.addInequality s m (b.vb x) v).1.ub = (b.vb x).ub := by
      unfold VBounds.addInequality VBounds.inequality
      simp only
      split <;> rfl
    have h2 : (VBounds.addInequality s m (b.vb x) v).1.lb = (b.vb x).lb := by
      unfold VBounds.addInequality VBounds.inequality
      simp only
      split <;> rfl
    unfold stk
    rw [h1, h2]
  · rfl

theorem keepsLive_update (s : LinStore) (m : LModels) (b : BState) (c : LinCons) :
    KeepsLive s m b (b.update s m c) := by
  unfold BState.update
  simp only
  generalize (if evalLit m.bools c.lit = some true then c else c.neg) = c'
  generalize (List.head? (s.terms c)).getD (0, 1) = p
  split
  · refine keepsLive_note ?_ _ _
    exact (keepsLive_add s m b false p.1 _).trans (keepsLive_add s m _ true p.1 _)
  · split
    · refine keepsLive_note ?_ _ _
      intro up y e he hl
      rw [stk_addInequality]; exact he
    · split
      · exact keepsLive_note (keepsLive_add s m b false p.1 _) _ _
      · exact keepsLive_note (keepsLive_add s m b true p.1 _) _ _

theorem keepsLive_ineqLoop (s : LinStore) (m : LModels) (c : LinCons) (ts : List (Nat × ℚ)) :
    ∀ b d, KeepsLive s m b (BState.ineqLoop s m c ts b d).1 := by
  induction ts with
  | nil => intro b d; exact KeepsLive.refl _ _ _
  | cons p ts ih =>
    intro b d
    unfold BState.ineqLoop
    split
    · exact ih _ _
    · simp only
      have er : (if BState.upward c p.2 = true then BState.lower s m b p.1 else BState.upper s m b p.1) =
          query s m b (!BState.upward c p.2) p.1 := by
        unfold query; cases BState.upward c p.2 <;> rfl
      rw [er]
      have hq := (shrunk_query s m b (!BState.upward c p.2) p.1).live
      split
      · exact hq
      · exact KeepsLive.trans hq (ih _ _)

theorem keepsLive_eqLoop (s : LinStore) (m : LModels) (c : LinCons) (ts : List (Nat × ℚ)) :
    ∀ b d0 d1, KeepsLive s m b (BState.eqLoop s m c ts b d0 d1).1 := by
  induction ts with
  | nil => intro b d0 d1; exact KeepsLive.refl _ _ _
  | cons p ts ih =>
    intro b d0 d1
    unfold BState.eqLoop
    split
    · exact ih _ _ _
    · simp only
      have h1 : KeepsLive s m b (b.upper s m p.1).1 := (shrunk_query s m b true p.1).live
      have h2 : KeepsLive s m (b.upper s m p.1).1 ((b.upper s m p.1).1.lower s m p.1).1 :=
        (shrunk_query s m (b.upper s m p.1).1 false p.1).live
      generalize (if p.2 < 0 then ((b.upper s m p.1).1.lower s m p.1).2 else (b.upper s m p.1).2) = b0
      generalize (if p.2 < 0 then (b.upper s m p.1).2 else ((b.upper s m p.1).1.lower s m p.1).2) = b1
      split
      · exact h1.trans h2
      · exact (h1.trans h2).trans (ih _ _ _)

theorem keepsLive_deduce (s : LinStore) (m : LModels) (b : BState) (c : LinCons) :
    KeepsLive s m b (b.deduce s m c) := by
  unfold BState.deduce
  split
  · exact KeepsLive.refl _ _ _
  · split
    · split
      · exact KeepsLive.refl _ _ _
      · unfold BState.deduceEq
        simp only
        have h1 := keepsLive_eqLoop s m c (s.terms c) b ⟨c.rhs, [], 0, 0, 0⟩ ⟨c.rhs, [], 0, 0, 0⟩
        split
        · exact h1
        · exact h1.trans (KeepsLive.trans (fun up y => eqFinish_live up y)
            (fun up y => eqFinish_live up y))
    · unfold BState.deduceIneq
      simp only
      have h1 := keepsLive_ineqLoop s m c (s.terms c) b ⟨c.rhs, [], 0, 0, 0⟩
      split
      · exact h1
      · split
        · refine keepsLive_note (h1.trans ?_) _ _
          split
          · exact keepsLive_add _ _ _ true _ _
          · exact keepsLive_add _ _ _ false _ _
        · exact h1

theorem op_keep (hv : Nat → Nat) (hc : ℚ → Nat) {st : St} (h : LInv st) {op : Op} (ok : op.Ok st)
    {up : Bool} {x : Nat} {b : Bnd} (hb : b ∈ stk st.bnd up x)
    (hl : b.isObsolete (op.run hv hc st).store (op.run hv hc st).models = false) :
    b ∈ stk (op.run hv hc st).bnd up x := by
  obtain ⟨hK, hM⟩ := op_env hv hc h ok
  have hl0 := obsolete_mono h.inv (h.op hv hc ok).inv hK hM (h.good up x b hb) hl
  cases op with
  | setRat y q => exact (allowed_spec st.store st.models st.bnd y q).1.live up x b hb hl0
  | update c => exact keepsLive_update _ _ _ _ up x b hb hl0
  | deduce c => exact keepsLive_deduce _ _ _ _ up x b hb hl0
  | upper y => exact (shrunk_query st.store st.models st.bnd true y).live up x b hb hl0
  | lower y => exact (shrunk_query st.store st.models st.bnd false y).live up x b hb hl0
  | inequality y q => exact (shrunk_inequality st.store st.models st.bnd y q).live up x b hb hl0
  | allowed y q => exact (allowed_spec st.store st.models st.bnd y q).1.live up x b hb hl0
  | implied c => exact (shrunk_isImplied st.store st.models st.bnd c).live up x b hb hl0
  | _ => exact hb

/-- A recorded bound that is live later was live all the time and is still recorded. -/
theorem steps_keep {hv : Nat → Nat} {hc : ℚ → Nat} {st t : St} (h : LInv st) (hs : Steps hv hc st t)
    {up : Bool} {x : Nat} {b : Bnd} (hb : b ∈ stk st.bnd up x)
    (hl : b.isObsolete t.store t.models = false) :
    b.isObsolete st.store st.models = false ∧ b ∈ stk t.bnd up x := by
  obtain ⟨hK, hM⟩ := steps_env h hs
  have hL := steps_linv hv hc h hs
  refine ⟨obsolete_mono h.inv hL.inv hK hM (h.good up x b hb) hl, ?_⟩
  clear hK hM hL
  induction hs with
  | refl => exact hb
  | step op hs' ok ih =>
    have hL := steps_linv hv hc h hs'
    obtain ⟨hK, hM⟩ := op_env hv hc hL ok
    obtain ⟨hK0, hM0⟩ := steps_env h hs'
    have hI' := (hL.op hv hc ok).inv
    -- it was live before the last operation
    have hg : GoodB _ _ (stk st.bnd) up b := (h.good up x b hb).mono h.inv hL.inv hK0 hM0
      (fun _ _ _ he _ => he)
    have hl' := obsolete_mono hL.inv hI' hK hM hg hl
    exact op_keep hv hc hL ok (ih hl') hl

/-- Nothing changed for a bound that is live later. -/
theorem live_unchanged {s s' : LinStore} {m m' : LModels} {S} (hI : Inv s) (hI' : Inv s')
    (hK : Kept s s') (hm : MStep m m') {up : Bool} {b : Bnd} (g : GoodB s m S up b)
    (h : b.isObsolete s' m' = false) :
    (∀ o, UsesLit o b → m.bools.defined o = true ∧ m'.bools.defined o = true ∧
      m'.bools.value o = m.bools.value o) ∧
    (∀ y, UsesVar s' y b → m.rats.defined y = true ∧ m'.rats.defined y = true ∧
      m'.rats.value y = m.rats.value y) := by
  induction g with
  | mk up x v c ds ct vt t μ dd hc hne ht ht1 hx hnd hxd hdir hval hμ hct hst hdeps ih =>
    rw [live_iff] at h
    obtain ⟨⟨h1, h2⟩, h3, h4⟩ := h
    constructor
    · intro o ho
      cases ho with
      | reason _ ho =>
        have ho : c.lit.ord = o := ho
        subst ho
        have hd : m'.bools.defined c.lit.ord = true := by
          unfold evalLit at h1
          by_contra hu
          rw [if_neg hu] at h1; cases h1
        rcases hm.b.old _ hd with ⟨d1, _, d3⟩ | hge
        · exact ⟨d1, hd, d3⟩
        · omega
      | dep _ d hd ho => exact (ih d hd (h4 d hd)).1 o ho
    · intro y hy
      cases hy with
      | reason _ hy hyx hyd =>
        have hy : y ∈ s'.varsOf c := hy
        obtain ⟨d1, d2⟩ := h3 y hy hyx hyd
        have hy0 : y ∈ s.varsOf c := by
          rw [hc.varsOf hI]
          rw [(hc.kept hK).1.varsOf hI'] at hy
          exact ((hc.kept hK).2.map _).mem_iff.mp hy
        have hvt := (hμ y hy0 hyx hyd).1
        rcases hm.r.old y d1 with ⟨e1, _, e3⟩ | hge
        · exact ⟨e1, d1, e3⟩
        · omega
      | dep _ d hd hy => exact (ih d hd (h4 d hd)).2 y hy

/-! ### Obsolete bounds -/

/-- A bound stays live if nothing it uses changes. -/
theorem live_of_same {s s' : LinStore} {m m' : LModels} {S} (hI : Inv s) (hI' : Inv s') (hK : Kept s s')
    {up : Bool} {b : Bnd} (g : GoodB s m S up b) (h : b.isObsolete s m = false)
    (hb : ∀ o, UsesLit o b → m.bools.defined o = true → m'.bools.defined o = true ∧
      m'.bools.value o = m.bools.value o ∧ m'.bools.ts o = m.bools.ts o)
    (hr : ∀ y, UsesVar s y b → m.rats.defined y = true → m'.rats.defined y = true ∧
      m'.rats.ts y = m.rats.ts y) : b.isObsolete s' m' = false := by
  induction g with
  | mk up x v c ds ct vt t μ dd hc hne ht ht1 hx hnd hxd hdir hval hμ hct hst hdeps ih =>
    rw [live_iff] at h ⊢
    obtain ⟨⟨h1, h2⟩, h3, h4⟩ := h
    have hd : m.bools.defined c.lit.ord = true := by
      unfold evalLit at h1
      by_contra hu
      rw [if_neg hu] at h1; cases h1
    obtain ⟨a1, a2, a3⟩ := hb c.lit.ord (.reason _ rfl) hd
    refine ⟨⟨?_, by rw [a3]; exact h2⟩, ?_, ?_⟩
    · unfold evalLit at h1 ⊢
      rw [if_pos hd] at h1
      rw [if_pos a1, a2]; exact h1
    · intro y hy hyx hyd
      have hy0 : y ∈ s.varsOf c := by
        rw [hc.varsOf hI]
        rw [(hc.kept hK).1.varsOf hI'] at hy
        exact ((hc.kept hK).2.map _).mem_iff.mp hy
      obtain ⟨d1, d2⟩ := h3 y hy0 hyx hyd
      obtain ⟨e1, e2⟩ := hr y (.reason _ hy0 hyx hyd) d1
      exact ⟨e1, by rw [e2]; exact d2⟩
    · intro d hd
      exact ih d hd (h4 d hd) (fun o ho => hb o (.dep _ d hd ho)) (fun y hy => hr y (.dep _ d hd hy))

/-- Assigned rational variables exist. -/
def RDom (st : St) : Prop := ∀ y, st.models.rats.defined y = true → y < st.models.rats.num

theorem rdom_op (hv : Nat → Nat) (hc : ℚ → Nat) {st : St} (h : LInv st) (hd : RDom st) {op : Op}
    (ok : op.Ok st) : RDom (op.run hv hc st) := by
  cases op with
  | resizeRat n =>
    intro y hy
    have hy : (st.models.rats.resize 0 n).defined y = true := hy
    simp only [PModel.resize] at hy
    split at hy
    · rename_i h'; exact h'.2
    · cases hy
  | setRat x q =>
    intro y hy
    have hy : (st.models.rats.setValue x q).defined y = true := hy
    show y < st.models.rats.num
    by_cases e : y = x
    · subst e; exact ok.1
    · simp [PModel.setValue, e] at hy
      exact hd y hy
  | clearRat x =>
    intro y hy
    have hy : (st.models.rats.clear x).defined y = true := hy
    show y < st.models.rats.num
    by_cases e : y = x
    · subst e; simp [PModel.clear] at hy
    · simp [PModel.clear, e] at hy
      exact hd y hy
  | constraint ts p r =>
    obtain ⟨_, _, _, _, ⟨hgr, _⟩, _⟩ := constraint_spec hv hc h.inv h.len ok p r
    intro y hy
    have hy : (Lra.constraint hv hc st.store st.models ts p r).2.1.rats.defined y = true := hy
    show y < (Lra.constraint hv hc st.store st.models ts p r).2.1.rats.num
    rw [hgr] at hy ⊢
    exact hd y hy
  | _ => exact hd

theorem reach_rdom {hv : Nat → Nat} {hc : ℚ → Nat} {st : St} (h : Reach hv hc st) : RDom st := by
  unfold Reach at h
  generalize h0 : St.init = s0 at h
  induction h with
  | refl =>
    subst h0
    intro y hy; simp [St.init, PModel.empty] at hy
  | step op hs ok ih =>
    subst h0
    exact rdom_op hv hc (reach_linv hs) ih ok

/-- Bounds become obsolete only by backtracking. -/
theorem op_obsolete (hv : Nat → Nat) (hc : ℚ → Nat) {st : St} (h : LInv st) (hd : RDom st) {op : Op}
    (ok : op.Ok st) {S} {up : Bool} {b : Bnd} (g : GoodB st.store st.models S up b)
    (hl : b.isObsolete st.store st.models = false)
    (ho : b.isObsolete (op.run hv hc st).store (op.run hv hc st).models = true) :
    (∃ o, op = .clearBool o ∧ UsesLit o b) ∨ ∃ y, op = .clearRat y ∧ UsesVar st.store y b := by
  by_contra hno
  rw [not_or] at hno
  have hK := (op_env hv hc h ok).1
  have hI' := (h.op hv hc ok).inv
  have := live_of_same (m' := (op.run hv hc st).models) h.inv hI' hK g hl ?_ ?_
  · rw [this] at ho; cases ho
  · intro o hu hdo
    have hne : op ≠ .clearBool o := fun e => hno.1 ⟨o, e, hu⟩
    clear g hu hno ho hl
    cases op with
    | resizeBool n =>
      have ok : st.models.bools.num ≤ n := ok
      have h1 := h.dom o hdo
      have : o < st.models.bools.num ∧ o < n := ⟨h1, by omega⟩
      simp only [Op.run, PModel.resize]
      rw [if_pos this, if_pos this, if_pos this]
      exact ⟨hdo, rfl, rfl⟩
    | setBool o' v =>
      have : o ≠ o' := by
        rintro rfl
        have := ok.2
        rw [hdo] at this; cases this
      simp only [Op.run, PModel.setValue]
      simp [this, hdo]
    | clearBool o' =>
      have : o ≠ o' := by rintro rfl; exact hne rfl
      simp only [Op.run, PModel.clear]
      simp [this, hdo]
    | constraint ts p r =>
      obtain ⟨_, _, _, _, ⟨_, hgb⟩, _⟩ := constraint_spec hv hc h.inv h.len ok p r
      show (Lra.constraint hv hc st.store st.models ts p r).2.1.bools.defined o = true ∧
        (Lra.constraint hv hc st.store st.models ts p r).2.1.bools.value o = _ ∧
        (Lra.constraint hv hc st.store st.models ts p r).2.1.bools.ts o = _
      rcases hgb with e | ⟨n, hn, e⟩
      · rw [e]; exact ⟨hdo, rfl, rfl⟩
      · have h1 := h.dom o hdo
        have : o < st.models.bools.num ∧ o < n := ⟨h1, by omega⟩
        rw [e]
        simp only [PModel.resize]
        rw [if_pos this, if_pos this, if_pos this]
        exact ⟨hdo, rfl, rfl⟩
    | _ => exact ⟨hdo, rfl, rfl⟩
  · intro y hu hdy
    have hne : op ≠ .clearRat y := fun e => hno.2 ⟨y, e, hu⟩
    clear g hu hno ho hl
    cases op with
    | resizeRat n =>
      have ok : st.models.rats.num ≤ n := ok
      have h1 := hd y hdy
      have : y < st.models.rats.num ∧ y < n := ⟨h1, by omega⟩
      simp only [Op.run, PModel.resize]
      rw [if_pos this, if_pos this]
      exact ⟨hdy, rfl⟩
    | setRat x q =>
      have : y ≠ x := by
        rintro rfl
        have := ok.2.1
        rw [hdy] at this; cases this
      simp only [Op.run, PModel.setValue]
      simp [this, hdy]
    | clearRat x =>
      have : y ≠ x := by rintro rfl; exact hne rfl
      simp only [Op.run, PModel.clear]
      simp [this, hdy]
    | constraint ts p r =>
      obtain ⟨_, _, _, _, ⟨hgr, _⟩, _⟩ := constraint_spec hv hc h.inv h.len ok p r
      show (Lra.constraint hv hc st.store st.models ts p r).2.1.rats.defined y = true ∧
        (Lra.constraint hv hc st.store st.models ts p r).2.1.rats.ts y = _
      rw [hgr]; exact ⟨hdy, rfl⟩
    | _ => exact ⟨hdy, rfl⟩

/-! ### Birth of a bound -/

theorem sub_of_op (hv : Nat → Nat) (hc : ℚ → Nat) {st : St} {op : Op}
    (h1 : ∀ c, op ≠ .update c) (h2 : ∀ c, op ≠ .deduce c) {up : Bool} {x : Nat} {b : Bnd}
    (hb : b ∈ stk (op.run hv hc st).bnd up x) : b ∈ stk st.bnd up x := by
  cases op with
  | setRat y q => exact ((allowed_spec st.store st.models st.bnd y q).1.sub up x).subset hb
  | update c => exact absurd rfl (h1 c)
  | deduce c => exact absurd rfl (h2 c)
  | upper y => exact ((shrunk_query st.store st.models st.bnd true y).sub up x).subset hb
  | lower y => exact ((shrunk_query st.store st.models st.bnd false y).sub up x).subset hb
  | inequality y q => exact ((shrunk_inequality st.store st.models st.bnd y q).sub up x).subset hb
  | allowed y q => exact ((allowed_spec st.store st.models st.bnd y q).1.sub up x).subset hb
  | implied c => exact ((shrunk_isImplied st.store st.models st.bnd c).sub up x).subset hb
  | _ => exact hb

theorem birth {hv : Nat → Nat} {hc : ℚ → Nat} {st : St} (h : Reach hv hc st) {up : Bool} {x : Nat}
    {b : Bnd} (hb : b ∈ stk st.bnd up x) :
    ∃ (u : St) (op : Op), Reach hv hc u ∧ op.Ok u ∧ Steps hv hc (op.run hv hc u) st ∧
      b ∉ stk u.bnd up x ∧ b ∈ stk (op.run hv hc u).bnd up x ∧
      ∃ c, op = .update c ∨ op = .deduce c := by
  unfold Reach at h
  generalize h0 : St.init = s0 at h
  induction h with
  | refl =>
    subst h0
    cases up <;> simp [stk, St.init, BState.init, VBounds.empty] at hb
  | @step t op hs ok ih =>
    by_cases hm : b ∈ stk t.bnd up x
    · obtain ⟨u, op', a1, a2, a3, a4⟩ := ih hm
      exact ⟨u, op', a1, a2, Steps.step op a3 ok, a4⟩
    · refine ⟨t, op, by subst h0; exact hs, ok, Steps.refl _, hm, hb, ?_⟩
      by_contra hno
      exact hm (sub_of_op hv hc (fun c e => hno ⟨c, Or.inl e⟩) (fun c e => hno ⟨c, Or.inr e⟩) hb)

end Lra
end Yaga
