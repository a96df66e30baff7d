/-
The plugin for uninterpreted functions: the conflict clauses.
-/
import Verif.Proofs.UfDerived
import Verif.Spec.UfModel

set_option linter.unusedSectionVars false
set_option linter.unusedVariables false
set_option linter.unusedSimpArgs false
set_option linter.unnecessarySeqFocus false

namespace Yaga

open Spec TermTable Internalizer

variable {H : TermHash} {s : TermTable} {R : Type}

namespace UF

/-- What holds of the trail and the constraints in every state of the plugin; `rv` are the rational
variables. -/
structure Base (s : TermTable) (rv : List (Tm × Nat)) (u : UF R) : Prop where
  iinv : IInv s u.ist
  rv : u.ist.ratVars = rv
  cls : u.ist.clauses = []
  trail : Trail.Inv u.trail
  bools : u.trail.bools.num = u.ist.numBool
  rats : u.trail.rats.num = u.ist.numRat
  lev : ∀ n l, u.trail.level (Var.rat n) = some l → 1 ≤ l
  own : ∀ (i : Nat) xs a, u.trail.levels[i]? = some xs → a ∈ xs → a.var.type = .rational →
    u.trail.level a.var = some i

/-- The rational part of the trail is the same. -/
structure RatSame (u u' : UF R) : Prop where
  watch : u'.watch = u.watch
  fns : u'.fns = u.fns
  dl : u'.trail.levels.length = u.trail.levels.length
  level : ∀ n, u'.trail.level (Var.rat n) = u.trail.level (Var.rat n)
  value : u'.trail.rats.value = u.trail.rats.value
  vars : u'.ist.ratVars = u.ist.ratVars

theorem RatSame.refl (u : UF R) : RatSame u u := ⟨rfl, rfl, rfl, fun _ => rfl, rfl, rfl⟩

theorem RatSame.trans {u v w : UF R} (h1 : RatSame u v) (h2 : RatSame v w) : RatSame u w :=
  ⟨h2.watch.trans h1.watch, h2.fns.trans h1.fns, h2.dl.trans h1.dl, fun n => (h2.level n).trans (h1.level n),
    h2.value.trans h1.value, h2.vars.trans h1.vars⟩

theorem RatSame.ratVal {u u' : UF R} (h : RatSame u u') :
    Yaga.ratVal u'.ist u'.trail = Yaga.ratVal u.ist u.trail := by
  funext x
  unfold Yaga.ratVal
  rw [h.vars, h.value]

theorem RatSame.ready {u u' : UF R} (h : RatSame u u') {xs : List Tm} (hr : Ready u.ist u.trail xs) :
    Ready u'.ist u'.trail xs := by
  intro x hx
  obtain ⟨v, l, h1, h2⟩ := hr x hx
  exact ⟨v, l, by rw [h.vars]; exact h1, by rw [h.level]; exact h2⟩

/-- The literal is assigned false. -/
def IsFalse (tr : Trail R) (l : Lit) : Prop := evalLit tr.bools l = some false

open Classical in
/-- Values of the rational variables determine those of the constraints. -/
theorem models_exists (st : IState) (hc : st.clauses = []) (r : Nat → ℚ) : ∃ m, Models st m r :=
  ⟨fun k => decide (LinTrue r (st.store.terms (st.store.get k)) (st.store.get k).pred (st.store.get k).rhs),
    ⟨(by intro c h; rw [hc] at h; cases h), fun k _ => by simp⟩⟩

/-- The meaning of the constraint of a positive literal. -/
theorem lc_means {st st' : IState} {l : Lit} {ts : List (Nat × ℚ)} {pred : Pred} {rhs : ℚ}
    (h : LCSpec s st st' l ts pred rhs) (hc : st.clauses = []) (hl : l.isNeg = false)
    (ht : st'.store.terms (st'.store.get l.ord) ≠ []) (r : Nat → ℚ) :
    LinTrue r (st'.store.terms (st'.store.get l.ord)) (st'.store.get l.ord).pred (st'.store.get l.ord).rhs ↔
      LinTrue r ts pred rhs := by
  obtain ⟨m, hm⟩ := models_exists st' (by rw [h.cls, hc]) r
  rw [← hm.2 l.ord ht, ← h.means m r hm]
  unfold litTrue
  rw [hl]
  simp

theorem lsum_update {ts : List (Nat × ℚ)} (h : (ts.map (·.1)).Nodup) {p : Nat × ℚ} (hp : p ∈ ts) (r : Nat → ℚ)
    (x : ℚ) : lsum (Function.update r p.1 x) ts = lsum r ts + p.2 * (x - r p.1) := by
  induction ts with
  | nil => cases hp
  | cons q ts ih =>
    rw [List.map_cons, List.nodup_cons] at h
    rw [lsum_cons, lsum_cons]
    rcases List.mem_cons.mp hp with rfl | hp
    · have : lsum (Function.update r p.1 x) ts = lsum r ts := by
        apply lsum_congr
        intro q hq
        rw [Function.update_of_ne]
        rintro he
        exact h.1 (he ▸ List.mem_map.mpr ⟨q, hq, rfl⟩)
      rw [this, Function.update_self]; ring
    · rw [ih h.2 hp, Function.update_of_ne]
      · ring
      · rintro he
        exact h.1 (he ▸ List.mem_map.mpr ⟨p, hp, rfl⟩)

/-- A constraint depends on all its variables. -/
theorem depends {ts : List (Nat × ℚ)} (h : (ts.map (·.1)).Nodup) {p : Nat × ℚ} (hp : p ∈ ts) (hz : p.2 ≠ 0)
    (pred : Pred) (rhs : ℚ) (r : Nat → ℚ) :
    ∃ x y : ℚ, LinTrue (Function.update r p.1 x) ts pred rhs ∧ ¬ LinTrue (Function.update r p.1 y) ts pred rhs := by
  have key : ∀ z : ℚ, ∃ x, lsum (Function.update r p.1 x) ts = z := by
    intro z
    refine ⟨r p.1 + (z - lsum r ts) / p.2, ?_⟩
    rw [lsum_update h hp]
    field_simp
    ring
  obtain ⟨x, hx⟩ := key (rhs - 1)
  obtain ⟨y, hy⟩ := key rhs
  obtain ⟨z, hz⟩ := key (rhs + 1)
  unfold LinTrue
  cases pred with
  | eq => exact ⟨y, z, by rw [hy]; rfl, by rw [hz]; unfold Rel; linarith⟩
  | lt => exact ⟨x, y, by rw [hx]; unfold Rel; linarith, by rw [hy]; unfold Rel; linarith⟩
  | leq => exact ⟨x, z, by rw [hx]; unfold Rel; linarith, by rw [hz]; unfold Rel; linarith⟩

theorem lc_terms {st st' : IState} {l : Lit} {ts : List (Nat × ℚ)} {pred : Pred} {rhs : ℚ}
    (h : LCSpec s st st' l ts pred rhs) (hc : st.clauses = []) :
    st'.store.terms (st'.store.get l.ord) ≠ [] := by
  intro h0
  obtain ⟨m, hm⟩ := models_exists st' (by rw [h.cls, hc]) (fun _ => 0)
  have hm' : Models st' (Function.update m l.ord (!m l.ord)) (fun _ => 0) := by
    refine ⟨(by intro c hc'; rw [h.cls, hc] at hc'; cases hc'), fun k hk => ?_⟩
    rw [Function.update_of_ne]
    · exact hm.2 k hk
    · rintro rfl; exact hk h0
  have e := (h.means _ _ hm).trans (h.means _ _ hm').symm
  unfold litTrue at e
  rw [Function.update_self] at e
  cases hn : l.isNeg <;> cases hv : m l.ord <;> rw [hn, hv] at e <;> simp at e

/-- The variables of the constraint are those of the terms it was made of. -/
theorem lc_vars {st st' : IState} {l : Lit} {ts : List (Nat × ℚ)} {pred : Pred} {rhs : ℚ}
    (h : LCSpec s st st' l ts pred rhs) (hc : st.clauses = []) (hl : l.isNeg = false) :
    ∀ p ∈ st'.store.terms (st'.store.get l.ord), ∃ q ∈ ts, q.1 = p.1 := by
  intro p hp
  have ht := lc_terms h hc
  have hw := h.inv.store.wf _ (get_mem_of_terms h.inv.store ht).1
  obtain ⟨x, y, hx, hy⟩ := depends hw.nodup hp (hw.nz p hp) (st'.store.get l.ord).pred (st'.store.get l.ord).rhs
    (fun _ => 0)
  rw [lc_means h hc hl ht] at hx hy
  by_contra hcon
  apply hy
  have : lsum (Function.update (fun _ => 0) p.1 y) ts = lsum (Function.update (fun _ => 0) p.1 x) ts := by
    apply lsum_congr
    intro q hq
    have : q.1 ≠ p.1 := fun e => hcon ⟨q, hq, e⟩
    rw [Function.update_of_ne this, Function.update_of_ne this]
  unfold LinTrue at hx ⊢
  rw [this]
  exact hx

/-! ### A new constraint -/

theorem resize_facts {st : IState} {u : UF R} (hB : Base s st.ratVars u) {n : Nat} (hn : u.ist.numBool ≤ n) :
    (u.trail.resize .boolean n).level = u.trail.level ∧ (u.trail.resize .boolean n).levels = u.trail.levels ∧
    (u.trail.resize .boolean n).rats = u.trail.rats ∧ (u.trail.resize .boolean n).bools.num = n ∧
    (∀ k, (u.trail.level (Var.bool k)).isSome = true →
      (u.trail.resize .boolean n).bools.value k = u.trail.bools.value k) ∧
    (u.trail.resize .boolean n).isDefined = u.trail.isDefined ∧ Trail.Inv (u.trail.resize .boolean n) := by
  have hr : ∀ (v : Var) l, v.type = .boolean → u.trail.level v = some l → v.ord < n := by
    intro v l hv hl
    have := hB.trail.range v l hl
    rw [hv] at this
    simp only [Trail.numVars] at this
    rw [hB.bools] at this
    omega
  obtain ⟨h1, h2, h3, h4⟩ := Trail.level_resize u.trail hB.trail .boolean n hr
  refine ⟨h1, h4, rfl, rfl, ?_, h3, Trail.resize_inv hB.trail .boolean n hr⟩
  intro k hk
  obtain ⟨l, hl⟩ := Option.isSome_iff_exists.mp hk
  have e1 := hB.trail.range _ l hl
  have e2 := hr _ l rfl hl
  show (if k < u.trail.bools.num ∧ k < n then u.trail.bools.value k else false) = _
  rw [if_pos ⟨e1, e2⟩]

theorem grown_facts {st : IState} {u : UF R} (hB : Base s st.ratVars u) {n : Nat} (hn : u.ist.numBool ≤ n) :
    (grown u.trail n).level = u.trail.level ∧ (grown u.trail n).levels = u.trail.levels ∧
    (grown u.trail n).rats = u.trail.rats ∧ (grown u.trail n).bools.num = n ∧
    (∀ k, (u.trail.level (Var.bool k)).isSome = true →
      (grown u.trail n).bools.value k = u.trail.bools.value k) ∧
    (grown u.trail n).isDefined = u.trail.isDefined ∧ Trail.Inv (grown u.trail n) := by
  unfold grown
  split
  · exact resize_facts hB hn
  · exact ⟨rfl, rfl, rfl, by have := hB.bools; omega, fun _ _ => rfl, rfl, hB.trail⟩

/-- What stays true when a constraint is added: trail, values of the literals, consistency. -/
structure Ext (u u' : UF R) : Prop where
  same : RatSame u u'
  evals : ∀ l v, evalLit u.trail.bools l = some v → evalLit u'.trail.bools l = some v
  back : ∀ m r, Models u'.ist m r → Models u.ist m r

theorem Ext.refl (u : UF R) : Ext u u := ⟨.refl u, fun _ _ h => h, fun _ _ h => h⟩

theorem Ext.trans {u v w : UF R} (h1 : Ext u v) (h2 : Ext v w) : Ext u w :=
  ⟨h1.same.trans h2.same, fun l x h => h2.evals l x (h1.evals l x h), fun m r h => h1.back m r (h2.back m r h)⟩

theorem evalLit_some {m : PModel Bool} {l : Lit} {v : Bool} (h : evalLit m l = some v) : m.defined l.ord = true := by
  unfold evalLit at h
  split at h
  · assumption
  · cases h

theorem evalLit_eq {m m' : PModel Bool} {l : Lit} (h1 : m'.defined l.ord = m.defined l.ord)
    (h2 : m'.value l.ord = m.value l.ord) : evalLit m' l = evalLit m l := by
  unfold evalLit; rw [h1, h2]

theorem defined_iff {tr : Trail R} (h : Trail.Inv tr) (k : Nat) :
    tr.bools.defined k = true ↔ (tr.level (Var.bool k)).isSome = true := by
  have := h.defined (Var.bool k)
  rw [Option.isSome_iff_exists]
  exact this

theorem linear_spec {cfg : ICfg} {rv : List (Tm × Nat)} {u u' : UF R} (hB : Base s rv u) {l : Lit}
    {ts : List (Nat × ℚ)} {pred : Pred} {rhs : ℚ}
    (hnd : (ts.map (·.1)).Nodup) (h : linear cfg u ts pred rhs = some (u', l)) :
    Base s rv u' ∧ Ext u u' ∧ LCSpec s u.ist u'.ist l ts pred rhs ∧ (Consistent u → Consistent u') ∧
      u'.trail.level = u.trail.level ∧ u'.trail.isDefined = u.trail.isDefined := by
  obtain ⟨st0, l', hr⟩ := linear_some hB.bools h
  obtain ⟨b, w, hS, h', _⟩ := linear_cases hB.iinv hB.bools hnd hr
  rw [h] at h'
  simp only [Option.some.injEq, Prod.mk.injEq] at h'
  obtain ⟨rfl, rfl⟩ := h'
  have hL := (linearConstraint_spec hB.iinv hnd hr).swap hS
  have en : st0.numBool = ({ st0 with store := b } : IState).numBool := rfl
  rw [en]
  generalize ({ st0 with store := b } : IState) = st at *
  have hB' : Base s u.ist.ratVars u := by rw [hB.rv]; exact hB
  obtain ⟨g1, g2, g3, g4, g5, g6, g7⟩ := grown_facts hB' hL.numBool
  have hdef : ∀ k, (grown u.trail st.numBool).bools.defined k = u.trail.bools.defined k :=
    fun k => congrFun g6 (Var.bool k)
  refine ⟨⟨hL.inv, by show st.ratVars = rv; rw [hL.rat, hB.rv], by show st.clauses = []; rw [hL.cls, hB.cls], g7,
    g4, by show (grown u.trail st.numBool).rats.num = _; rw [g3, hB.rats, hL.numRat], ?_, ?_⟩,
    ⟨⟨rfl, rfl, by show (grown u.trail st.numBool).levels.length = _; rw [g2], ?_, ?_, hL.rat⟩, ?_, hL.back⟩,
    hL, ?_, g1, g6⟩
  · intro n l h
    rw [show (grown u.trail st.numBool).level = _ from g1] at h
    exact hB.lev n l h
  · intro i xs a h1 h2 h3
    rw [show (grown u.trail st.numBool).levels = _ from g2] at h1
    rw [show (grown u.trail st.numBool).level = _ from g1]
    exact hB.own i xs a h1 h2 h3
  · intro n; show (grown u.trail st.numBool).level _ = _; rw [g1]
  · show (grown u.trail st.numBool).rats.value = _; rw [g3]
  · intro l v hv
    show evalLit (grown u.trail st.numBool).bools l = _
    rw [← hv]
    exact evalLit_eq (hdef _) (g5 _ ((defined_iff hB.trail _).mp (evalLit_some hv)))
  · intro hC k hk ht hv
    simp only at hk ht hv ⊢
    rw [g1] at hk hv
    rw [g3, g5 k hk]
    have hlt : k < u.ist.store.cons.length := by
      obtain ⟨l, hl⟩ := Option.isSome_iff_exists.mp hk
      have := hB.trail.range _ l hl
      rw [hB.iinv.num, ← hB.bools]; exact this
    have e := get_kept hL.kept hlt
    rw [e] at ht hv ⊢
    have hmem : u.ist.store.get k ∈ u.ist.store.set := by
      have hg : u.ist.store.cons[k]? = some (u.ist.store.get k) := by
        unfold LinStore.get
        rw [List.getElem?_eq_getElem hlt]; rfl
      rcases hB.iinv.store.dflt k _ hg with h4 | h4
      · exact h4.1
      · rw [h4] at ht
        exact absurd (LinStore.terms_empty _) ht
    have hp := hL.kept.terms _ hmem
    rw [LinStore.linTrue_perm hp]
    exact hC k hk (hB.iinv.nonempty _ hmem) fun p hp' => hv p (hp.symm.mem_iff.mp hp')

/-! ### Assignment of a Boolean variable -/

/-- Assignment of a Boolean variable at an existing level. -/
def assignBool (u : UF R) (k : Nat) (r : Option R) (lvl : Nat) (b : Bool) : UF R :=
  { u with trail := (u.trail.propagate (Var.bool k) r lvl).setValue (Var.bool k) (.b b) }

theorem assignBool_spec {rv : List (Tm × Nat)} {u : UF R} (hB : Base s rv u) {k : Nat} {r : Option R} {lvl : Nat}
    {b : Bool} (hk : k < u.ist.numBool) (hu : u.trail.level (Var.bool k) = none)
    (hl : lvl ≤ u.trail.decisionLevel) :
    Base s rv (assignBool u k r lvl b) ∧ Ext u (assignBool u k r lvl b) := by
  have hinv := Trail.propagate_inv hB.trail (Var.bool k) r lvl (.b b)
    (by show k < u.trail.bools.num; rw [hB.bools]; exact hk) hu rfl hl
  have hrat : ∀ n, (assignBool u k r lvl b).trail.level (Var.rat n) = u.trail.level (Var.rat n) := by
    intro n
    show Function.update u.trail.level (Var.bool k) (some lvl) (Var.rat n) = _
    rw [Function.update_of_ne (by simp)]
  refine ⟨⟨hB.iinv, hB.rv, hB.cls, hinv, hB.bools, hB.rats, ?_, ?_⟩,
    ⟨⟨rfl, rfl, ?_, hrat, rfl, rfl⟩, ?_, fun _ _ h => h⟩⟩
  · intro n l h
    rw [hrat] at h
    exact hB.lev n l h
  · intro i xs a h1 h2 h3
    have h1 : (Trail.pushFrom ⟨Var.bool k, r⟩ lvl u.trail.levels)[i]? = some xs := h1
    rw [Trail.getElem?_pushFrom] at h1
    obtain ⟨ys, hy, rfl⟩ := Option.map_eq_some_iff.mp h1
    obtain ⟨⟨ty, n⟩, ra⟩ := a
    simp only at h3
    subst h3
    have ha : (⟨Var.rat n, ra⟩ : Asg R) ∈ ys := by
      split at h2
      · rcases List.mem_append.mp h2 with h2 | h2
        · exact h2
        · have := List.mem_singleton.mp h2
          simp at this
      · exact h2
    rw [hrat]
    exact hB.own i ys _ hy ha rfl
  · show (Trail.pushFrom ⟨Var.bool k, r⟩ lvl u.trail.levels).length = _
    exact Trail.length_pushFrom _ _ _
  · intro l v hv
    have hd := evalLit_some hv
    have hne : l.ord ≠ k := by
      rintro rfl
      have := (defined_iff hB.trail _).mp hd
      rw [hu] at this
      cases this
    rw [← hv]
    apply evalLit_eq
    · show Function.update u.trail.bools.defined k true l.ord = _
      rw [Function.update_of_ne hne]
    · show Function.update u.trail.bools.value k b l.ord = _
      rw [Function.update_of_ne hne]

/-- The new value of a constraint is right. -/
theorem assignBool_consistent {u : UF R} (hB : Trail.Inv u.trail) (hC : Consistent u) {k : Nat} {r : Option R} {lvl : Nat} {b : Bool}
    (hv : b = true ↔ LinTrue u.trail.rats.value (u.ist.store.terms (u.ist.store.get k)) (u.ist.store.get k).pred
      (u.ist.store.get k).rhs) : Consistent (assignBool u k r lvl b) := by
  intro j hj ht hp
  have hj : (Function.update u.trail.level (Var.bool k) (some lvl) (Var.bool j)).isSome = true := hj
  have hp : ∀ p ∈ u.ist.store.terms (u.ist.store.get j),
      (Function.update u.trail.level (Var.bool k) (some lvl) (Var.rat p.1)).isSome = true := hp
  show Function.update u.trail.bools.value k b j = true ↔ _
  by_cases he : j = k
  · subst he
    rw [Function.update_self]
    exact hv
  · rw [Function.update_of_ne he]
    rw [Function.update_of_ne (by simpa using he)] at hj
    exact hC j hj ht fun p hp' => by
      have := hp p hp'
      rwa [Function.update_of_ne (by simp)] at this

/-! ### Equalities -/

theorem sub_spec {p q : UPoly} (hp : LinStore.WfTerms p.terms) (hq : ∀ x ∈ q.terms, x.2 ≠ 0) :
    LinStore.WfTerms (p.sub q).terms ∧
    (∀ r, lsum r (p.sub q).terms = lsum r p.terms - lsum r q.terms) ∧ (p.sub q).const = p.const - q.const := by
  unfold UPoly.sub UPoly.add
  refine ⟨UPoly.wf_foldl hp ?_, fun r => ?_, by simp only; ring⟩
  · intro x hx
    obtain ⟨y, hy, rfl⟩ := List.mem_map.mp hx
    simp only
    have := hq y hy
    intro h
    apply this
    linarith
  · simp only
    rw [UPoly.lsum_foldl_addTerm, sub_eq_add_neg]
    congr 1
    generalize q.terms = ts
    induction ts with
    | nil => simp
    | cons x ts ih => rw [List.map_cons, lsum_cons, lsum_cons, ih]; ring

theorem foldl_addTerm_vars {xs ts : List (Nat × ℚ)} {y : Nat} (h : y ∈ (xs.foldl UPoly.addTerm ts).map (·.1)) :
    y ∈ ts.map (·.1) ∨ y ∈ xs.map (·.1) := by
  induction xs generalizing ts with
  | nil => exact .inl h
  | cons x xs ih =>
    rcases ih h with h | h
    · rcases UPoly.addTerm_vars ts x y h with h | h
      · exact .inl h
      · exact .inr (by rw [h]; simp)
    · exact .inr (List.mem_cons_of_mem _ h)

/-- Terms over assigned variables. -/
def Known (s : TermTable) (u : UF R) (t : Tm) : Prop := IsReal s t ∧ Ready u.ist u.trail (atoms s t)

/-- The value of a term on the trail. -/
def val (s : TermTable) (u : UF R) (t : Tm) : ℚ := linVal (ratVal u.ist u.trail) s t

theorem Known.same {u u' : UF R} (h : RatSame u u') {t : Tm} (ht : Known s u t) : Known s u' t :=
  ⟨ht.1, h.ready ht.2⟩

theorem RatSame.val {u u' : UF R} (h : RatSame u u') (t : Tm) : UF.val s u' t = UF.val s u t := by
  unfold UF.val; rw [h.ratVal]

theorem eval_known (h : WF H s) {rv : List (Tm × Nat)} {u : UF R} (hB : Base s rv u) {t : Tm} (ht : Known s u t) :
    ∃ L, eval s u t = some (.q (val s u t), L) ∧ MaxLevel u.ist u.trail (atoms s t) L ∧
      L ≤ u.trail.decisionLevel := by
  obtain ⟨L, h1, h2⟩ := evaluate_real h hB.iinv ht.1 (Nat.lt_succ_self _) ht.2
  refine ⟨L, h1, h2, ?_⟩
  rcases h2.eq with h3 | ⟨x, _, v, _, h3⟩
  · omega
  · exact hB.trail.bound _ _ h3

/-- Effect of `assertEquality`. -/
structure EqSpec (cfg : ICfg) (N : Prop) (s : TermTable) (rv : List (Tm × Nat)) (u u' : UF R) (t t' : Tm) (c c' : Clause)
    (b : Bool) : Prop where
  base : Base s rv u'
  ext : Ext u u'
  consistent : Consistent u → Consistent u' ∧ ((∀ l ∈ c, IsFalse u.trail l) → ∀ l ∈ c', IsFalse u'.trail l)
  means : ∀ m r ρ, Models u'.ist m r → (∀ x v, mapFind rv x = some v → r v = ρ x) →
    (clauseTrue m c' ↔ clauseTrue m c ∨ (if b then linVal ρ s t = linVal ρ s t' else linVal ρ s t ≠ linVal ρ s t'))
  range : (∀ l ∈ c, l.ord < u.ist.numBool) → ∀ l ∈ c', l.ord < u'.ist.numBool
  calls : Calls cfg N u u'

theorem clauseTrue_append (m : Assignment) (c : Clause) (l : Lit) :
    clauseTrue m (c ++ [l]) ↔ clauseTrue m c ∨ litTrue m l := by
  unfold clauseTrue
  constructor
  · rintro ⟨l', h, h'⟩
    rcases List.mem_append.mp h with h | h
    · exact .inl ⟨l', h, h'⟩
    · rw [List.mem_singleton.mp h] at h'; exact .inr h'
  · rintro (⟨l', h, h'⟩ | h)
    · exact ⟨l', List.mem_append_left _ h, h'⟩
    · exact ⟨l, by simp, h⟩

theorem litTrue_neg (m : Assignment) (l : Lit) : litTrue m l.neg ↔ ¬ litTrue m l := by
  unfold litTrue
  rw [LinStore.Lit.neg_isNeg, LinStore.Lit.neg_ord]
  cases l.isNeg <;> cases m l.ord <;> simp

theorem sortBy_optGt (lv : Nat → Option Nat) (ts : List (Nat × ℚ)) :
    (sortBy (fun a b : Nat × ℚ => UPoly.optGt ((lv a.1).map Int.ofNat) ((lv b.1).map Int.ofNat)) ts).Pairwise
      fun a b => UPoly.optGt ((lv b.1).map Int.ofNat) ((lv a.1).map Int.ofNat) = false := by
  refine sortBy_pairwise _ ?_ ?_ ts
  · intro a b c
    rcases lv a.1 with _ | x <;> rcases lv b.1 with _ | y <;> rcases lv c.1 with _ | z <;>
      simp [UPoly.optGt] <;> omega
  · intro a b
    rcases lv a.1 with _ | x <;> rcases lv b.1 with _ | y <;> simp [UPoly.optGt] <;> omega

theorem assertEquality_spec (h : WF H s) {cfg : ICfg} {rv : List (Tm × Nat)} {u : UF R} (hB : Base s rv u) {t t' : Tm}
    (ht : Known s u t) (ht' : Known s u t') (c : Clause) {b : Bool}
    (hv : if b then val s u t ≠ val s u t' else val s u t = val s u t')
    (hb : b = true → VarLike s t ∧ VarLike s t') {N : Prop}
    (hN : N → (atoms s t).length ≤ 1 ∧ (atoms s t').length ≤ 1) :
    ∃ u' c', assertEquality cfg s u t t' c b = some (u', c') ∧ EqSpec cfg N s rv u u' t t' c c' b := by
  have hI := hB.iinv
  have hvars : ∀ {t : Tm}, Known s u t → ∀ x ∈ atoms s t, ∃ v, mapFind u.ist.ratVars x = some v := by
    intro t ht x hx
    obtain ⟨v, l, h1, _⟩ := ht.2 x hx
    exact ⟨v, h1⟩
  obtain ⟨p, hp⟩ := poly_exists h ht.1 (hvars ht)
  obtain ⟨p', hp'⟩ := poly_exists h ht'.1 (hvars ht')
  have hs := poly_spec h hI ht.1 hp
  have hs' := poly_spec h hI ht'.1 hp'
  obtain ⟨hw, hsum, hcst⟩ := sub_spec (p := p) (q := p') ⟨hs.nodup, hs.nz⟩ hs'.nz
  have hrel : ∀ (r : Nat → ℚ) (ρ : Tm → ℚ), (∀ x v, mapFind u.ist.ratVars x = some v → r v = ρ x) →
      lsum r (p.sub p').terms + (p.sub p').const = linVal ρ s t - linVal ρ s t' := by
    intro r ρ hr
    rw [hsum, hcst, ← poly_val h ht.1 hp (fun x _ v hx => hr x v hx),
      ← poly_val h ht'.1 hp' (fun x _ v hx => hr x v hx)]
    ring
  have hassigned : ∀ q ∈ (p.sub p').terms, (u.trail.level (Var.rat q.1)).isSome = true ∧ q.1 < u.ist.numRat := by
    intro q hq
    have hfind : ∃ x, (x ∈ atoms s t ∨ x ∈ atoms s t') ∧ mapFind u.ist.ratVars x = some q.1 := by
      have hq' : q.1 ∈ ((p.sub p').terms).map (·.1) := List.mem_map.mpr ⟨q, hq, rfl⟩
      rcases foldl_addTerm_vars hq' with hq' | hq'
      · obtain ⟨y, hy, he⟩ := List.mem_map.mp hq'
        obtain ⟨x, hx, hm⟩ := poly_vars h ht.1 hp y hy
        exact ⟨x, .inl hx, by rw [hm, he]⟩
      · obtain ⟨y, hy, he⟩ := List.mem_map.mp hq'
        obtain ⟨z, hz, rfl⟩ := List.mem_map.mp hy
        obtain ⟨x, hx, hm⟩ := poly_vars h ht'.1 hp' z hz
        exact ⟨x, .inr hx, by rw [hm, ← he]⟩
    obtain ⟨x, hx, hm⟩ := hfind
    refine ⟨?_, (hI.rat _ (mapFind_mem hm)).2.2⟩
    rcases hx with hx | hx
    · obtain ⟨v, l, h1, h2⟩ := ht.2 x hx
      rw [hm] at h1
      cases h1
      rw [h2]; rfl
    · obtain ⟨v, l, h1, h2⟩ := ht'.2 x hx
      rw [hm] at h1
      cases h1
      rw [h2]; rfl
  have hρ : ∀ x v, mapFind u.ist.ratVars x = some v → u.trail.rats.value v = ratVal u.ist u.trail x := by
    intro x v hx; unfold ratVal; rw [hx]
  unfold assertEquality
  simp only [Option.bind_eq_bind]
  rw [asserts_true (by rw [ht.1.1, ht'.1.1]; rfl), Option.bind_some, if_pos ht.1.1, toPoly_eq h hI ht.1, hp, Option.bind_some,
    toPoly_eq h hI ht'.1, hp', Option.bind_some]
  by_cases hz : (p.sub p').terms = []
  · rw [if_pos hz]
    have hb : b = false := by
      cases b with
      | false => rfl
      | true =>
        exfalso
        obtain ⟨hv1, hv2⟩ := hb rfl
        have e1 := hrel (fun _ => 0) (fun _ => 0) (fun _ _ _ => rfl)
        have e2 := hrel _ _ hρ
        have hl : ∀ {x : Tm} (ρ : Tm → ℚ), VarLike s x → linVal ρ s x = ρ x := by
          intro x ρ hx
          unfold linVal monoVal
          rcases hx with hx | hx | hx <;> rw [hx] <;> rfl
        rw [hl _ hv1, hl _ hv2] at e1
        rw [hz] at e1 e2
        simp only [if_true] at hv
        unfold val at hv
        apply hv
        have : (p.sub p').const = 0 := by simpa [lsum] using e1
        rw [this] at e2
        simp only [lsum, List.map_nil, List.sum_nil, add_zero] at e2
        linarith
    subst hb
    have hc0 : (p.sub p').const = 0 := by
      have := hrel _ _ hρ
      rw [hz] at this
      simp only [Bool.false_eq_true, if_false] at hv
      unfold val at hv
      rw [hv] at this
      simpa [lsum] using this
    rw [asserts_true (by rw [hc0]; rfl), Option.bind_some]
    refine ⟨u, c, rfl, hB, .refl u, fun hC => ⟨hC, fun h => h⟩, ?_, fun h => h, .refl cfg N u⟩
    intro m r ρ hm hr
    rw [← hB.rv] at hr
    have := hrel r ρ hr
    rw [hz, hc0] at this
    have he : linVal ρ s t = linVal ρ s t' := by
      have : linVal ρ s t - linVal ρ s t' = 0 := by rw [← this]; simp [lsum]
      linarith
    simp [he]
  · rw [if_neg hz]
    have hperm := sortBy_perm (fun a b : Nat × ℚ => UPoly.optGt ((u.trail.level (Var.rat a.1)).map Int.ofNat)
      ((u.trail.level (Var.rat b.1)).map Int.ofNat)) (p.sub p').terms
    set ps : UPoly := (p.sub p').sort fun v => (u.trail.level (Var.rat v)).map Int.ofNat with hps
    have hterms : ps.terms.Perm (p.sub p').terms := hperm
    have hconst : ps.const = (p.sub p').const := rfl
    have hnd : (ps.terms.map (·.1)).Nodup := (hterms.map _).nodup_iff.mpr hw.nodup
    obtain ⟨q, hq⟩ := List.exists_mem_of_ne_nil _ hz
    obtain ⟨⟨st, l⟩, hr, hpos⟩ := linearConstraint_some (cfg := cfg) hI hnd
      (fun x hx => (hassigned x (hterms.mem_iff.mp hx)).2) ⟨q, hterms.mem_iff.mpr hq, hw.nz q hq⟩ .eq (-ps.const)
    have hpos : l.isNeg = false := hpos rfl
    obtain ⟨u1, hu1⟩ : ∃ u1, constraint cfg u ps = some (u1, l) := by
      obtain ⟨_, _, _, h', _⟩ := linear_cases hI hB.bools hnd hr
      exact ⟨_, h'⟩
    rw [hu1, Option.bind_some, asserts_true (by simp [hpos]), Option.bind_some]
    obtain ⟨hB1, hE1, hL, hC1, hlev1, hdef1⟩ := linear_spec hB hnd hu1
    obtain ⟨hA1, hA2, hA3⟩ := linear_lra hu1
    have hside : Side u.lra ps.terms := by
      refine ⟨hnd, ⟨q, hterms.mem_iff.mpr hq, hw.nz q hq⟩, fun x hx => hw.nz x (hterms.mem_iff.mp hx), fun x hx => (hassigned x (hterms.mem_iff.mp hx)).1, ?_⟩
      refine List.Pairwise.imp_of_mem ?_ (sortBy_optGt (fun v => u.trail.level (Var.rat v)) (p.sub p').terms)
      intro a b ha hb hab
      obtain ⟨k, hk⟩ := Option.isSome_iff_exists.mp (hassigned a ((sortBy_perm _ _).mem_iff.mp ha)).1
      obtain ⟨j, hj⟩ := Option.isSome_iff_exists.mp (hassigned b ((sortBy_perm _ _).mem_iff.mp hb)).1
      have e1 : u.lra.sortLevel a.1 = k := by show (u.trail.level (Var.rat a.1)).getD 0 = k; rw [hk]; rfl
      have e2 : u.lra.sortLevel b.1 = j := by show (u.trail.level (Var.rat b.1)).getD 0 = j; rw [hj]; rfl
      rw [e1, e2]
      rw [hk, hj] at hab
      simpa [UPoly.optGt] using hab
    have htrue : ∀ r ρ, (∀ x v, mapFind rv x = some v → r v = ρ x) →
        (LinTrue r ps.terms .eq (-ps.const) ↔ linVal ρ s t = linVal ρ s t') := by
      intro r ρ hr
      rw [← hB.rv] at hr
      have := hrel r ρ hr
      rw [LinStore.linTrue_perm hterms, hconst]
      unfold LinTrue Rel
      constructor <;> intro h <;> linarith
    have hne := lc_terms hL hB.cls
    have hmeans : ∀ m r ρ, Models u1.ist m r → (∀ x v, mapFind rv x = some v → r v = ρ x) →
        (litTrue m (if b = true then l else l.neg) ↔
          (if b then linVal ρ s t = linVal ρ s t' else linVal ρ s t ≠ linVal ρ s t')) := by
      intro m r ρ hm hr
      cases b with
      | true => simp only [if_true]; rw [hL.means m r hm, htrue r ρ hr]
      | false =>
        simp only [Bool.false_eq_true, if_false]
        rw [litTrue_neg, hL.means m r hm, htrue r ρ hr]
    have hval : LinTrue u1.trail.rats.value (u1.ist.store.terms (u1.ist.store.get l.ord))
        (u1.ist.store.get l.ord).pred (u1.ist.store.get l.ord).rhs ↔ b = false := by
      rw [lc_means hL hB.cls hpos hne, hE1.same.value, htrue _ (ratVal u.ist u.trail) (by rw [← hB.rv]; exact hρ)]
      unfold val at hv
      cases b with
      | true => simp only [if_true] at hv; simp [hv]
      | false => simpa using hv
    have hlord : (if b = true then l else l.neg).ord = l.ord := by
      split
      · rfl
      · exact LinStore.Lit.neg_ord l
    have hfalse : ∀ (m : PModel Bool), m.defined l.ord = true → (m.value l.ord = true ↔ b = false) →
        evalLit m (if b = true then l else l.neg) = some false := by
      intro m h1 h2
      unfold evalLit
      rw [hlord, h1]
      cases b with
      | true =>
        simp only [if_true]
        rw [hpos]
        cases hm : m.value l.ord with
        | false => rfl
        | true => rw [hm] at h2; simp at h2
      | false =>
        simp only [Bool.false_eq_true, if_false, if_true]
        rw [LinStore.Lit.neg_isNeg, hpos]
        have : m.value l.ord = true := h2.mpr rfl
        rw [this]; rfl
    have hvar : (if b = true then l else l.neg).var = Var.bool l.ord := by
      unfold Lit.var; rw [hlord]
    simp only
    rw [hvar]
    by_cases hdef : u1.trail.isDefined (Var.bool l.ord) = true
    · rw [if_pos hdef]
      have hdef' : u1.trail.bools.defined l.ord = true := hdef
      refine ⟨u1, c ++ [if b = true then l else l.neg], rfl, hB1, hE1, fun hC => ⟨hC1 hC, fun hf l' hl' => ?_⟩,
        fun m r ρ hm hr => ?_, ?_, ⟨?_, hA3⟩⟩
      · rcases List.mem_append.mp hl' with hl' | hl'
        · exact hE1.evals _ _ (hf l' hl')
        · rw [List.mem_singleton.mp hl']
          refine hfalse _ hdef' ?_
          rw [← hval]
          refine hC1 hC l.ord ((defined_iff hB1.trail _).mp hdef') hne fun x hx => ?_
          obtain ⟨y, hy, he⟩ := lc_vars hL hB.cls hpos x hx
          rw [hE1.same.level, ← he]
          exact (hassigned y (hterms.mem_iff.mp hy)).1
      · rw [clauseTrue_append, hmeans m r ρ hm hr]
      · intro hc l' hl'
        rcases List.mem_append.mp hl' with hl' | hl'
        · exact lt_of_lt_of_le (hc l' hl') hL.numBool
        · rw [List.mem_singleton.mp hl', hlord]; exact hL.ord
      · rw [hA1]
        refine .found (.refl _) ps.terms (-ps.const) hside ?_
        rw [← hA1, ← hA2]
        exact hdef'
    · rw [if_neg hdef]
      obtain ⟨L1, e1, e2, e3⟩ := eval_known h hB1 (ht.same hE1.same)
      obtain ⟨L2, f1, f2, f3⟩ := eval_known h hB1 (ht'.same hE1.same)
      rw [e1, Option.bind_some, f1, Option.bind_some, asserts_true, Option.bind_some]
      · have hu : u1.trail.level (Var.bool l.ord) = none := by
          cases hlv : u1.trail.level (Var.bool l.ord) with
          | none => rfl
          | some x => exact absurd ((hB1.trail.defined _).mpr ⟨x, hlv⟩) hdef
        obtain ⟨hB2, hE2⟩ := assignBool_spec (r := none) (b := !b) hB1 hL.ord hu (max_le e3 f3)
        refine ⟨assignBool u1 l.ord none (max L1 L2) (!b), c ++ [if b = true then l else l.neg], ?_, hB2, hE1.trans hE2, fun hC => ⟨?_, fun hf l' hl' => ?_⟩,
          fun m r ρ hm hr => ?_, ?_, ⟨?_, hA3⟩⟩
        · rfl
        · refine assignBool_consistent hB1.trail (hC1 hC) ?_
          rw [hval]; cases b <;> simp
        · rcases List.mem_append.mp hl' with hl' | hl'
          · exact (hE1.trans hE2).evals _ _ (hf l' hl')
          · rw [List.mem_singleton.mp hl']
            refine hfalse _ ?_ ?_
            · show Function.update u1.trail.bools.defined l.ord true l.ord = true
              rw [Function.update_self]
            · show Function.update u1.trail.bools.value l.ord (!b) l.ord = true ↔ _
              rw [Function.update_self]; cases b <;> simp
        · rw [clauseTrue_append, hmeans m r ρ hm hr]
        · intro hc l' hl'
          rcases List.mem_append.mp hl' with hl' | hl'
          · exact lt_of_lt_of_le (hc l' hl') hL.numBool
          · rw [List.mem_singleton.mp hl', hlord]; exact hL.ord
        · have hset : (assignBool u1 l.ord none (max L1 L2) (!b)).lra =
              u1.lra.setBool l.ord (!b) none (max L1 L2) := rfl
          rw [hset, hA1, hA2]
          refine .assign (.refl _) ps.terms (-ps.const) hside ?_ (!b) (max L1 L2) ?_ ?_ ?_
          · rw [← hA1, ← hA2]
            exact (by simpa [Trail.isDefined] using hdef : u1.trail.bools.defined l.ord = false)
          · have : LinTrue u.trail.rats.value ps.terms .eq (-ps.const) ↔ b = false := by
              rw [htrue _ (ratVal u.ist u.trail) (by rw [← hB.rv]; exact hρ)]
              unfold val at hv
              cases b with
              | true => simp only [if_true] at hv; simp [hv]
              | false => simpa using hv
            show (!b) = true ↔ LinTrue u.trail.rats.value ps.terms .eq (-ps.const)
            rw [this]
            cases b <;> simp
          · intro x hx k hk
            have hk : u.trail.level (Var.rat x.1) = some k := hk
            have hx' : x.1 ∈ ((p.sub p').terms).map (·.1) := List.mem_map.mpr ⟨x, hterms.mem_iff.mp hx, rfl⟩
            rcases foldl_addTerm_vars hx' with hx' | hx'
            · obtain ⟨y, hy, he⟩ := List.mem_map.mp hx'
              obtain ⟨z, hz, hm⟩ := poly_vars h ht.1 hp y hy
              have := e2.le z hz x.1 k (by rw [hE1.same.vars, hm, he]) (by rw [hE1.same.level]; exact hk)
              exact this.trans (le_max_left _ _)
            · obtain ⟨y, hy, he⟩ := List.mem_map.mp hx'
              obtain ⟨y', hy', rfl⟩ := List.mem_map.mp hy
              obtain ⟨z, hz, hm⟩ := poly_vars h ht'.1 hp' y' hy'
              have := f2.le z hz x.1 k (by rw [hE1.same.vars, hm, ← he]) (by rw [hE1.same.level]; exact hk)
              exact this.trans (le_max_right _ _)
          · intro hn
            obtain ⟨n1, n2⟩ := hN hn
            have a1 := poly_atoms h ht.1 hp
            have a2 := poly_atoms h ht'.1 hp'
            obtain ⟨v1, v2⟩ := sub_vars (by rw [← a1.length_eq]; exact n1) (by rw [← a2.length_eq]; exact n2) hz
            have key : ∀ v ∈ ((p.sub p').terms).map (·.1), ∀ k, u1.trail.level (Var.rat v) = some k →
                ∃ q ∈ ps.terms, u.lra.level q.1 = some k := by
              intro v hv k hk
              obtain ⟨y, hy, rfl⟩ := List.mem_map.mp hv
              refine ⟨y, hterms.mem_iff.mpr hy, ?_⟩
              rw [hE1.same.level] at hk
              exact hk
            have get : ∀ {t : Tm} {p0 : UPoly} {L : Nat}, poly s u.ist t = some p0 → IsReal s t →
                (∀ x ∈ p0.terms, x.1 ∈ ((p.sub p').terms).map (·.1)) → MaxLevel u1.ist u1.trail (atoms s t) L →
                L ≠ 0 → ∃ q ∈ ps.terms, u.lra.level q.1 = some L := by
              intro t p0 L hp0 ht0 hv0 hM hL0
              rcases hM.eq with h0 | ⟨x, hx, v, hm, hlv⟩
              · exact absurd h0 hL0
              · obtain ⟨y, hy, hxy⟩ := forall₂_mem_left (poly_atoms h ht0 hp0) hx
                rw [hE1.same.vars, hxy] at hm
                cases hm
                exact key _ (hv0 y hy) L hlv
            have hpos' : max L1 L2 ≠ 0 := by
              intro h0
              obtain ⟨k, hk⟩ := Option.isSome_iff_exists.mp (hassigned q hq).1
              have hk1 := hB.lev _ _ hk
              have hq' : q.1 ∈ ((p.sub p').terms).map (·.1) := List.mem_map.mpr ⟨q, hq, rfl⟩
              rcases foldl_addTerm_vars hq' with hx' | hx'
              · obtain ⟨y, hy, he⟩ := List.mem_map.mp hx'
                obtain ⟨z, hz, hm⟩ := poly_vars h ht.1 hp y hy
                have := e2.le z hz q.1 k (by rw [hE1.same.vars, hm, he]) (by rw [hE1.same.level]; exact hk)
                omega
              · obtain ⟨y, hy, he⟩ := List.mem_map.mp hx'
                obtain ⟨y', hy', rfl⟩ := List.mem_map.mp hy
                obtain ⟨z, hz, hm⟩ := poly_vars h ht'.1 hp' y' hy'
                have := f2.le z hz q.1 k (by rw [hE1.same.vars, hm, ← he]) (by rw [hE1.same.level]; exact hk)
                omega
            rcases le_total L1 L2 with hle | hle
            · rw [max_eq_right hle] at hpos' ⊢
              exact get hp' ht'.1 v2 f2 hpos'
            · rw [max_eq_left hle] at hpos' ⊢
              exact get hp ht.1 v1 e2 hpos'
      · simp only
        rw [hE1.same.val, hE1.same.val]
        cases b with
        | true => simp only [if_true] at hv; simp [hv]
        | false => simp only [Bool.false_eq_true, if_false] at hv; simp [hv]

theorem assertArgs_spec (h : WF H s) {cfg : ICfg} {rv : List (Tm × Nat)} {N : Prop} :
    ∀ (as bs : List Tm) (u : UF R) (c : Clause),
    (N → (∀ a ∈ as, (atoms s a).length ≤ 1) ∧ ∀ b ∈ bs, (atoms s b).length ≤ 1) → Base s rv u → (∀ a ∈ as, Known s u a) → (∀ b ∈ bs, Known s u b) → as.map (val s u) = bs.map (val s u) →
    ∃ u' c', assertArgs cfg s as bs u c = some (u', c') ∧ Base s rv u' ∧ Ext u u' ∧
      (Consistent u → Consistent u' ∧ ((∀ l ∈ c, IsFalse u.trail l) → ∀ l ∈ c', IsFalse u'.trail l)) ∧
      (∀ m r ρ, Models u'.ist m r → (∀ x v, mapFind rv x = some v → r v = ρ x) →
        (clauseTrue m c' ↔ clauseTrue m c ∨ as.map (linVal ρ s) ≠ bs.map (linVal ρ s))) ∧
      ((∀ l ∈ c, l.ord < u.ist.numBool) → ∀ l ∈ c', l.ord < u'.ist.numBool) ∧ Calls cfg N u u' := by
  intro as
  induction as with
  | nil =>
    intro bs u c _ hB _ _ he
    have : bs = [] := by cases bs with
      | nil => rfl
      | cons b bs => simp at he
    subst this
    exact ⟨u, c, rfl, hB, .refl u, fun hC => ⟨hC, fun h => h⟩, fun m r ρ _ _ => by simp, fun h => h, .refl cfg N u⟩
  | cons a as ih =>
    intro bs u c hN hB ha hb he
    cases bs with
    | nil => simp at he
    | cons b bs =>
      rw [List.map_cons, List.map_cons, List.cons.injEq] at he
      obtain ⟨u1, c1, e1, S⟩ := assertEquality_spec h (cfg := cfg) hB (ha a (by simp)) (hb b (by simp)) c (b := false)
        (by simpa using he.1) (by simp) (N := N)
        (fun n => ⟨(hN n).1 a (by simp), (hN n).2 b (by simp)⟩)
      obtain ⟨u2, c2, e2, g1, g2, g3, g4, g5, g6⟩ := ih bs u1 c1
        (fun n => ⟨fun x hx => (hN n).1 x (by simp [hx]), fun x hx => (hN n).2 x (by simp [hx])⟩) S.base
        (fun x hx => (ha x (by simp [hx])).same S.ext.same) (fun x hx => (hb x (by simp [hx])).same S.ext.same) (by
          rw [List.map_congr_left (g := val s u) fun x _ => S.ext.same.val x,
            List.map_congr_left (g := val s u) fun x _ => S.ext.same.val x]
          exact he.2)
      refine ⟨u2, c2, ?_, g1, S.ext.trans g2, ?_, ?_, fun hc => g5 (S.range hc), S.calls.trans g6⟩
      · rw [assertArgs, e1]; exact e2
      · intro hC
        obtain ⟨k1, k2⟩ := S.consistent hC
        obtain ⟨k3, k4⟩ := g3 k1
        exact ⟨k3, fun hf => k4 (k2 hf)⟩
      · intro m r ρ hm hr
        rw [g4 m r ρ hm hr, S.means m r ρ (g2.back m r hm) hr]
        simp only [Bool.false_eq_true, if_false, List.map_cons, ne_eq, List.cons.injEq, not_and_or, or_assoc]

/-- An application of a function on numbers, with variables for it and its arguments. -/
structure App (s : TermTable) (rv : List (Tm × Nat)) (t : Tm) : Prop where
  real : IsReal s t
  kind : s.kind t = .app
  args : ∀ a ∈ s.args t, IsReal s a
  var : ∃ v, mapFind rv t = some v
  vars : ∀ a ∈ s.args t, ∀ x ∈ atoms s a, ∃ v, mapFind rv x = some v

/-- The terms with variables watched for an application. -/
def watched (s : TermTable) (t : Tm) : List Tm := t :: (s.args t).flatMap (atoms s)

theorem App.varLike {rv : List (Tm × Nat)} {t : Tm} (h : App s rv t) : VarLike s t := .inr (.inr h.kind)

theorem App.known {rv : List (Tm × Nat)} {u : UF R} {t : Tm} (h : App s rv t) (hr : Ready u.ist u.trail (watched s t)) :
    Known s u t := ⟨h.real, by rw [atoms_var h.varLike]; intro x hx; exact hr x (by rw [List.mem_singleton.mp hx]; simp [watched])⟩

theorem App.knownArgs {rv : List (Tm × Nat)} {u : UF R} {t : Tm} (h : App s rv t)
    (hr : Ready u.ist u.trail (watched s t)) : ∀ a ∈ s.args t, Known s u a := fun a ha =>
  ⟨h.args a ha, fun x hx => hr x (List.mem_cons_of_mem _ (List.mem_flatMap.mpr ⟨a, ha, hx⟩))⟩

theorem val_app {rv : List (Tm × Nat)} {u : UF R} {t : Tm} (h : App s rv t) : val s u t = ratVal u.ist u.trail t := by
  unfold val linVal monoVal; rw [h.kind]; rfl

theorem evalArgs_spec (h : WF H s) {rv : List (Tm × Nat)} {u : UF R} (hB : Base s rv u) : ∀ (as : List Tm),
    (∀ a ∈ as, Known s u a) → ∃ L, evalArgs s u as = some (as.map (fun a => .q (val s u a)), L) ∧
      MaxLevel u.ist u.trail (as.flatMap (atoms s)) L := by
  intro as
  induction as with
  | nil => intro _; exact ⟨0, rfl, .nil _ _⟩
  | cons a as ih =>
    intro hk
    obtain ⟨L, h1, h2⟩ := ih fun b hb => hk b (by simp [hb])
    obtain ⟨M, h3, h4, _⟩ := eval_known h hB (hk a (by simp))
    refine ⟨max M L, ?_, ?_⟩
    · rw [evalArgs, h1, h3]; rfl
    · rw [List.flatMap_cons]; exact h4.append h2

/-- A recorded value. -/
structure Entry (s : TermTable) (rv : List (Tm × Nat)) (u : UF R) (e : FApp) : Prop where
  app : App s rv e.term
  reg : ∃ w ∈ u.watch, w.term = e.term
  fn : e.fn = s.fncSymbol e.term
  pos : 1 ≤ e.level
  le : e.level ≤ u.trail.decisionLevel
  asg : ∀ x ∈ watched s e.term, ∃ v l, mapFind u.ist.ratVars x = some v ∧ u.trail.level (Var.rat v) = some l ∧ l ≤ e.level
  args : e.args = (s.args e.term).map fun a => .q (val s u a)
  value : e.value = .q (val s u e.term)

theorem Entry.ready {rv : List (Tm × Nat)} {u : UF R} {e : FApp} (h : Entry s rv u e) :
    Ready u.ist u.trail (watched s e.term) := by
  intro x hx
  obtain ⟨v, l, h1, h2, _⟩ := h.asg x hx
  exact ⟨v, l, h1, h2⟩

theorem lookup_mem {fns : List FApp} {f : Tm} {args : List Val} {e : FApp} (h : lookup fns f args = some e) :
    e ∈ fns ∧ e.fn = f ∧ e.args = args := by
  unfold lookup at h
  refine ⟨List.mem_of_find?_eq_some h, ?_⟩
  have := List.find?_some h
  simpa using this

theorem lookup_append {fns xs : List FApp} {f : Tm} {args : List Val} {e : FApp} (h : lookup fns f args = some e) :
    lookup (fns ++ xs) f args = some e := by
  unfold lookup at *
  rw [List.find?_append, h]; rfl

/-- The application has a recorded value, at a level of at most `l`. -/
def Recorded (s : TermTable) (u : UF R) (t : Tm) (l : Nat) : Prop :=
  ∃ e, lookup u.fns (s.fncSymbol t) ((s.args t).map fun a => .q (val s u a)) = some e ∧
    e.value = .q (val s u t) ∧ e.level ≤ l

/-- Meaning of a conflict clause. -/
def Valid (s : TermTable) (rv : List (Tm × Nat)) (st : IState) (c : Clause) : Prop :=
  ∀ I m r, Models st m r → (∀ p ∈ rv, r p.2 = denQ I s p.1) → clauseTrue m c

theorem Valid.ext {rv : List (Tm × Nat)} {u u' : UF R} (h : Ext u u') {c : Clause} (hv : Valid s rv u.ist c) :
    Valid s rv u'.ist c := fun I m r hm hr => hv I m r (h.back m r hm) hr

theorem denQ_app (h : WF H s) {rv : List (Tm × Nat)} {t : Tm} (ht : App s rv t) (I : Interp) :
    denQ I s t = I.fnQ (s.fncSymbol t).index ((s.args t).map fun a => .q (denQ I s a)) := by
  cases he : s.entry t with
  | none =>
    have := ht.real.1
    unfold TermTable.type at this
    rw [he] at this
    simp at this
  | some e =>
    obtain ⟨k, ty, d⟩ := e
    have hk : k = .app := by rw [← ht.kind, kind_of_entry he]
    subst hk
    have hty : ty = .real := by rw [← ht.real.1, type_of_entry he]
    subst hty
    obtain ⟨_, f, as, hd, _⟩ := h.shape _ _ he
    simp only at hd
    subst hd
    have ha : s.args t = as := by
      unfold TermTable.args
      rw [if_pos ht.kind, allArgs_of_entry he]; rfl
    have hf : s.fncSymbol t = f := by
      unfold TermTable.fncSymbol
      rw [allArgs_of_entry he]; rfl
    rw [ha, hf]
    have hm : as.map (fun a => Spec.Val.q (denQ I s a)) = as.map (Spec.den I s) :=
      List.map_congr_left fun a haa => (den_real h (ht.args a (by rw [ha]; exact haa))).symm
    rw [hm]
    unfold denQ
    rw [h.den he ht.real.2]
    rfl

/-- Entries stay valid when the rational part of the trail does not change. -/
theorem Entry.same {rv : List (Tm × Nat)} {u u' : UF R} (h : RatSame { u with fns := u'.fns } u') {e : FApp}
    (he : Entry s rv u e) : Entry s rv u' e := by
  have hval : ∀ t, val s u' t = val s u t := fun t => h.val t
  refine ⟨he.app, ?_, he.fn, he.pos, ?_, ?_, ?_, ?_⟩
  · have := h.watch
    simp only at this
    rw [this]; exact he.reg
  · have := he.le
    unfold Trail.decisionLevel at *
    rw [h.dl]; exact this
  · intro x hx
    obtain ⟨v, l, h1, h2, h3⟩ := he.asg x hx
    exact ⟨v, l, by rw [h.vars]; exact h1, by rw [h.level]; exact h2, h3⟩
  · rw [he.args]
    exact List.map_congr_left fun a _ => by rw [hval]
  · rw [he.value, hval]

/-- Effect of `addFunctionValue`. -/
structure AddSpec (cfg : ICfg) (s : TermTable) (rv : List (Tm × Nat)) (u u' : UF R) (t : Tm) (cs : List Clause) : Prop where
  base : Base s rv u'
  ext : Ext { u with fns := u'.fns } u'
  fns : ∃ xs, u'.fns = u.fns ++ xs
  entries : ∀ e ∈ u'.fns, Entry s rv u' e
  consistent : Consistent u → Consistent u' ∧ ∀ c ∈ cs, ∀ l ∈ c, IsFalse u'.trail l
  valid : ∀ c ∈ cs, Valid s rv u'.ist c
  recorded : cs = [] → Recorded s u' t u.trail.decisionLevel
  calls : Calls cfg (OneVar s) u u'
  quiet : cs = [] → u'.ist = u.ist ∧ u'.lra = u.lra

theorem addFunctionValue_spec (h : WF H s) {cfg : ICfg} {rv : List (Tm × Nat)} {u : UF R} (hB : Base s rv u)
    (hE : ∀ e ∈ u.fns, Entry s rv u e) {t : Tm} (ht : App s rv t) (hr : Ready u.ist u.trail (watched s t))
    (hreg : ∃ w ∈ u.watch, w.term = t) :
    ∃ u' cs, addFunctionValue cfg s u t = some (u', cs) ∧ AddSpec cfg s rv u u' t cs := by
  obtain ⟨L, e1, e2⟩ := evalArgs_spec h hB (s.args t) (ht.knownArgs hr)
  obtain ⟨M, f1, f2, f3⟩ := eval_known h hB (ht.known hr)
  have hLdl : L ≤ u.trail.decisionLevel := by
    rcases e2.eq with h3 | ⟨x, _, v, _, h3⟩
    · omega
    · exact hB.trail.bound _ _ h3
  unfold addFunctionValue
  simp only [Option.bind_eq_bind]
  rw [e1, Option.bind_some, f1, Option.bind_some]
  simp only
  cases hl : lookup u.fns (s.fncSymbol t) ((s.args t).map fun a => .q (val s u a)) with
  | none =>
    simp only
    refine ⟨_, _, rfl, ⟨hB.iinv, hB.rv, hB.cls, hB.trail, hB.bools, hB.rats, hB.lev, hB.own⟩, .refl _, ⟨_, rfl⟩, ?_, fun hC => ⟨hC, by simp⟩,
      by simp, fun _ => ?_, ⟨.refl _, rfl⟩, fun _ => ⟨rfl, rfl⟩⟩
    · intro e he
      rcases List.mem_append.mp he with he | he
      · exact (hE e he).same (.refl _)
      · rw [List.mem_singleton.mp he]
        refine ⟨ht, hreg, rfl, ?_, max_le hLdl f3, ?_, rfl, rfl⟩
        · obtain ⟨v, l, h1, h2⟩ := hr t (by simp [watched])
          have := f2.le t (by rw [atoms_var ht.varLike]; simp) v l h1 h2
          have := hB.lev v l h2
          show 1 ≤ max L M
          omega
        · intro x hx
          obtain ⟨v, l, h1, h2⟩ := hr x hx
          refine ⟨v, l, h1, h2, ?_⟩
          rcases List.mem_cons.mp hx with rfl | hx
          · exact (f2.le x (by rw [atoms_var ht.varLike]; simp) v l h1 h2).trans (le_max_right _ _)
          · exact (e2.le x hx v l h1 h2).trans (le_max_left _ _)
    · refine ⟨⟨s.fncSymbol t, (s.args t).map (fun a => .q (val s u a)), .q (val s u t), t, max L M⟩, ?_, rfl,
        max_le hLdl f3⟩
      have hl : List.find? _ u.fns = none := hl
      show List.find? _ (u.fns ++ [_]) = _
      rw [List.find?_append]
      erw [hl]
      simp
      exact fun a _ => rfl
  | some old =>
    simp only
    obtain ⟨hm, hfn, hargs⟩ := lookup_mem hl
    have hO := hE old hm
    by_cases hv : old.value = .q (val s u t)
    · rw [if_pos hv]
      refine ⟨_, _, rfl, hB, .refl _, ⟨[], by simp⟩, hE, fun hC => ⟨hC, by simp⟩, by simp, fun _ => ⟨old, hl, hv, hO.le⟩,
        .refl cfg _ u, fun _ => ⟨rfl, rfl⟩⟩
    · rw [if_neg hv]
      have hav : (s.args old.term).map (val s u) = (s.args t).map (val s u) := by
        have := hO.args.symm.trans hargs
        have h2 := congrArg (List.map fun x : Val => match x with | .q z => z | .b _ => 0) this
        simpa [List.map_map, Function.comp_def] using h2
      obtain ⟨u1, c1, g1, g2, g3, g4, g5, g6, g7⟩ := assertArgs_spec h (cfg := cfg) (N := OneVar s) (s.args old.term)
        (s.args t) u [] (fun n => ⟨n _ hO.app.kind, n _ ht.kind⟩) hB
        (hO.app.knownArgs hO.ready) (ht.knownArgs hr) hav
      obtain ⟨u2, c2, k1, S⟩ := assertEquality_spec h (cfg := cfg) g2 ((ht.known hr).same g3.same)
        ((hO.app.known hO.ready).same g3.same) c1 (b := true) (by
          simp only [if_true]
          rw [g3.same.val, g3.same.val]
          intro hh
          apply hv
          rw [hO.value, hh]) (fun _ => ⟨ht.varLike, hO.app.varLike⟩) (N := OneVar s)
        (fun _ => by rw [atoms_var ht.varLike, atoms_var hO.app.varLike]; simp)
      have hfns : u2.fns = u.fns := S.ext.same.fns.trans g3.same.fns
      have hX : Ext { u with fns := u2.fns } u2 := by
        have := g3.trans S.ext
        rw [hfns]
        exact this
      refine ⟨u2, [c2], ?_, S.base, hX, ⟨[], by rw [hfns]; simp⟩, ?_, ?_, ?_, by simp, g7.trans S.calls, by simp⟩
      · rw [g1, Option.bind_some, k1, Option.bind_some]
      · intro e he
        rw [hfns] at he
        exact (hE e he).same hX.same
      · intro hC
        obtain ⟨q1, q2⟩ := g4 hC
        obtain ⟨q3, q4⟩ := S.consistent q1
        refine ⟨q3, fun c hc => ?_⟩
        rw [List.mem_singleton.mp hc]
        exact q4 (q2 (by simp))
      · intro c hc I m r hM hR
        rw [List.mem_singleton.mp hc]
        have hR' : ∀ x v, mapFind rv x = some v → r v = denQ I s x := fun x v hx => hR _ (mapFind_mem hx)
        rw [S.means m r (denQ I s) hM hR', g5 m r (denQ I s) (S.ext.back m r hM) hR']
        by_cases heq : (s.args old.term).map (linVal (denQ I s) s) = (s.args t).map (linVal (denQ I s) s)
        · right
          simp only [if_true]
          rw [← denQ_linVal h ht.real, ← denQ_linVal h hO.app.real, denQ_app h ht, denQ_app h hO.app, ← hfn, hO.fn]
          congr 1
          have e3 : ∀ {x : Tm}, App s rv x → (s.args x).map (linVal (denQ I s) s) = (s.args x).map (denQ I s) :=
            fun hx => List.map_congr_left fun a ha => (denQ_linVal h (hx.args a ha) I).symm
          rw [e3 ht, e3 hO.app] at heq
          have := congrArg (List.map Spec.Val.q) heq
          simpa [List.map_map, Function.comp_def] using this.symm
        · exact .inl (.inr heq)

end UF
end Yaga
