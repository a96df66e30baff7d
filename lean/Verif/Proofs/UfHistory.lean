/-
The plugin for uninterpreted functions: invariant of its histories.
-/
import Verif.Proofs.UfClause
import Verif.Model.UfHistory

set_option linter.unusedSectionVars false
set_option linter.unusedVariables false
set_option linter.unusedSimpArgs false

namespace Yaga

open Spec TermTable Internalizer

variable {H : TermHash} {s : TermTable} {R : Type}

namespace UF

/-! ### Watch lists -/

theorem swapHead_length (l : List Var) (i : Nat) : (swapHead l i).length = l.length := by
  unfold swapHead; split <;> simp

theorem swapHead_mem {l : List Var} {i : Nat} (x : Var) : x ∈ swapHead l i ↔ x ∈ l := by
  unfold swapHead
  split
  · rename_i a b h1 h2
    obtain ⟨hi, ha⟩ := List.getElem?_eq_some_iff.mp h1
    obtain ⟨h0, hb⟩ := List.getElem?_eq_some_iff.mp h2
    simp only [List.mem_iff_getElem?, List.getElem?_set]
    constructor
    · rintro ⟨j, hj⟩
      split at hj
      · split at hj
        · cases hj; exact ⟨i, h1⟩
        · cases hj
      · split at hj
        · cases hj; exact ⟨0, h2⟩
        · exact ⟨j, hj⟩
    · rintro ⟨j, hj⟩
      by_cases e1 : j = i
      · subst e1
        rw [h1] at hj; cases hj
        exact ⟨0, by simp [h0]⟩
      · by_cases e2 : j = 0
        · subst e2
          rw [h2] at hj; cases hj
          refine ⟨i, ?_⟩
          rw [if_neg (fun e => e1 e), if_pos rfl, if_pos hi]
        · exact ⟨j, by rw [if_neg (fun e => e2 e.symm), if_neg (fun e => e1 e.symm)]; exact hj⟩
  · exact Iff.rfl

theorem swapHead_head {l : List Var} {i : Nat} {x : Var} (h : l[i]? = some x) : (swapHead l i)[0]? = some x := by
  have hi := (List.getElem?_eq_some_iff.mp h).1
  have h0 : l[0]? = some l[0] := List.getElem?_eq_getElem (by omega)
  unfold swapHead
  rw [h, h0]
  simp only
  rw [List.getElem?_set, if_pos rfl, if_pos (by rw [List.length_set]; omega)]

/-- The head is not assigned. -/
def HeadFree (tr : Trail R) (l : List Var) : Prop := ∃ x, l[0]? = some x ∧ tr.level x = none

theorem onAssign_spec (tr : Trail R) : ∀ (n : Nat) (l : List Var),
    (∀ x, x ∈ onAssign tr n l ↔ x ∈ l) ∧ (onAssign tr n l).length = l.length ∧
    (HeadFree tr l → HeadFree tr (onAssign tr n l)) ∧
    ((∃ (i : Nat) (x : Var), i < n ∧ l[i]? = some x ∧ tr.level x = none) → HeadFree tr (onAssign tr n l)) ∧
    ((∀ (i : Nat) (x : Var), i < n → l[i]? = some x → tr.level x ≠ none) → onAssign tr n l = l) := by
  intro n
  induction n with
  | zero => intro l; simp [onAssign]
  | succ n ih =>
    intro l
    rw [onAssign]
    cases hx : l[n]? with
    | none =>
      simp only
      obtain ⟨h1, h2, h3, h4, h5⟩ := ih l
      refine ⟨h1, h2, h3, ?_, ?_⟩
      · rintro ⟨i, x, hi, hl, hx'⟩
        refine h4 ⟨i, x, ?_, hl, hx'⟩
        rcases Nat.lt_succ_iff_lt_or_eq.mp hi with hi | rfl
        · exact hi
        · rw [hx] at hl; cases hl
      · intro h; exact h5 fun i x hi => h i x (by omega)
    | some y =>
      simp only
      cases hy : tr.level y with
      | some lv =>
        simp only [Option.isSome_some, if_true]
        obtain ⟨h1, h2, h3, h4, h5⟩ := ih l
        refine ⟨h1, h2, h3, ?_, ?_⟩
        · rintro ⟨i, x, hi, hl, hx'⟩
          refine h4 ⟨i, x, ?_, hl, hx'⟩
          rcases Nat.lt_succ_iff_lt_or_eq.mp hi with hi | rfl
          · exact hi
          · rw [hx] at hl; cases hl; rw [hy] at hx'; cases hx'
        · intro h; exact h5 fun i x hi => h i x (by omega)
      | none =>
        simp only [Option.isSome_none, Bool.false_eq_true, if_false]
        obtain ⟨h1, h2, h3, h4, h5⟩ := ih (swapHead l n)
        have hf : HeadFree tr (swapHead l n) := ⟨y, swapHead_head hx, hy⟩
        refine ⟨fun x => (h1 x).trans (swapHead_mem x), h2.trans (swapHead_length _ _), fun _ => h3 hf,
          fun _ => h3 hf, fun h => absurd hy (h n y (by omega) hx)⟩

/-- Either all variables are assigned, and the list does not change, or the head becomes an unassigned
variable. -/
theorem onAssign_cases (tr : Trail R) {l : List Var} (hl : l ≠ []) :
    (allAssigned tr (onAssign tr l.length l) = true ∧ onAssign tr l.length l = l ∧ ∀ x ∈ l, tr.level x ≠ none) ∨
    (allAssigned tr (onAssign tr l.length l) = false ∧ HeadFree tr (onAssign tr l.length l)) := by
  obtain ⟨h1, h2, h3, h4, h5⟩ := onAssign_spec tr l.length l
  by_cases h : ∃ (i : Nat) (x : Var), i < l.length ∧ l[i]? = some x ∧ tr.level x = none
  · right
    obtain ⟨x, hx, hn⟩ := h4 h
    exact ⟨by unfold allAssigned; rw [hx]; simp [hn], x, hx, hn⟩
  · left
    have hall : ∀ (i : Nat) (x : Var), i < l.length → l[i]? = some x → tr.level x ≠ none :=
      fun i x hi hx hn => h ⟨i, x, hi, hx, hn⟩
    have e := h5 hall
    rw [e]
    have hpos := List.length_pos_iff.mpr hl
    refine ⟨?_, rfl, ?_⟩
    · unfold allAssigned
      rw [List.getElem?_eq_getElem hpos]
      have := hall 0 _ hpos (List.getElem?_eq_getElem hpos)
      exact Option.isSome_iff_ne_none.mpr this
    · intro x hx
      obtain ⟨i, hi⟩ := List.mem_iff_getElem?.mp hx
      exact hall i x (List.getElem?_eq_some_iff.mp hi).1 hi

/-! ### Settled applications -/

/-- All variables of the application are assigned, at levels of at most `l`, and its value is recorded. -/
structure Settled (s : TermTable) (u : UF R) (t : Tm) (l : Nat) : Prop where
  asg : ∀ x ∈ watched s t, ∃ v l', mapFind u.ist.ratVars x = some v ∧ u.trail.level (Var.rat v) = some l' ∧ l' ≤ l
  recorded : Recorded s u t l

/-- Rational variables assigned at levels of at most `L` stay as they are. -/
structure Keep (L : Nat) (u u' : UF R) : Prop where
  vars : u'.ist.ratVars = u.ist.ratVars
  keep : ∀ n l, u.trail.level (Var.rat n) = some l → l ≤ L →
    u'.trail.level (Var.rat n) = some l ∧ u'.trail.rats.value n = u.trail.rats.value n

theorem Keep.mono {L M : Nat} {u u' : UF R} (h : Keep L u u') (hM : M ≤ L) : Keep M u u' :=
  ⟨h.vars, fun n l h1 h2 => h.keep n l h1 (h2.trans hM)⟩

theorem RatSame.keep {u u' : UF R} (h1 : u'.ist.ratVars = u.ist.ratVars)
    (h2 : ∀ n, u'.trail.level (Var.rat n) = u.trail.level (Var.rat n)) (h3 : u'.trail.rats.value = u.trail.rats.value)
    (L : Nat) : Keep L u u' :=
  ⟨h1, fun n l h _ => ⟨by rw [h2, h], by rw [h3]⟩⟩

theorem Keep.val {L : Nat} {u u' : UF R} (h : Keep L u u') {t : Tm}
    (ht : ∀ x ∈ atoms s t, ∃ v l', mapFind u.ist.ratVars x = some v ∧ u.trail.level (Var.rat v) = some l' ∧ l' ≤ L) :
    UF.val s u' t = UF.val s u t := by
  unfold UF.val
  apply linVal_congr
  intro x hx
  obtain ⟨v, l', h1, h2, h3⟩ := ht x hx
  unfold ratVal
  rw [h.vars, h1]
  exact (h.keep v l' h2 h3).2

theorem Keep.vals {L : Nat} {u u' : UF R} (h : Keep L u u') {rv : List (Tm × Nat)} {t : Tm} (ha : App s rv t)
    (ht : ∀ x ∈ watched s t, ∃ v l', mapFind u.ist.ratVars x = some v ∧ u.trail.level (Var.rat v) = some l' ∧ l' ≤ L) :
    UF.val s u' t = UF.val s u t ∧
      ((s.args t).map fun a => Val.q (UF.val s u' a)) = (s.args t).map fun a => Val.q (UF.val s u a) := by
  refine ⟨h.val ?_, List.map_congr_left fun a haa => ?_⟩
  · rw [atoms_var ha.varLike]
    intro x hx
    exact ht x (by rw [List.mem_singleton.mp hx]; simp [watched])
  · rw [h.val fun x hx => ht x (List.mem_cons_of_mem _ (List.mem_flatMap.mpr ⟨a, haa, hx⟩))]

theorem Keep.asg {L : Nat} {u u' : UF R} (h : Keep L u u') {xs : List Tm}
    (ht : ∀ x ∈ xs, ∃ v l', mapFind u.ist.ratVars x = some v ∧ u.trail.level (Var.rat v) = some l' ∧ l' ≤ L) :
    ∀ x ∈ xs, ∃ v l', mapFind u'.ist.ratVars x = some v ∧ u'.trail.level (Var.rat v) = some l' ∧ l' ≤ L := by
  intro x hx
  obtain ⟨v, l', h1, h2, h3⟩ := ht x hx
  exact ⟨v, l', by rw [h.vars]; exact h1, (h.keep v l' h2 h3).1, h3⟩

theorem Settled.keep {l : Nat} {u u' : UF R} (h : Keep l u u') {rv : List (Tm × Nat)} {t : Tm} (ha : App s rv t)
    (hf : ∀ f args e, lookup u.fns f args = some e → e.level ≤ l → lookup u'.fns f args = some e)
    (hs : Settled s u t l) : Settled s u' t l := by
  obtain ⟨h1, e, h2, h3, h4⟩ := hs
  obtain ⟨k1, k2⟩ := h.vals ha h1
  exact ⟨h.asg h1, e, by rw [k2]; exact hf _ _ e h2 h4, by rw [k1]; exact h3, h4⟩

theorem Entry.keep {u u' : UF R} {rv : List (Tm × Nat)} {e : FApp} (h : Keep e.level u u') (he : Entry s rv u e)
    (hreg : ∃ w ∈ u'.watch, w.term = e.term) (hl : e.level ≤ u'.trail.decisionLevel) : Entry s rv u' e := by
  obtain ⟨k1, k2⟩ := h.vals he.app he.asg
  exact ⟨he.app, hreg, he.fn, he.pos, hl, h.asg he.asg, by rw [he.args, k2], by rw [he.value, k1]⟩

/-! ### Invariant -/

/-- The watch list belongs to an application. -/
structure WOK (s : TermTable) (rv : List (Tm × Nat)) (st : IState) (w : WList) : Prop where
  app : App s rv w.term
  ne : w.watch ≠ []
  mem : ∀ x, x ∈ w.watch ↔ x ∈ varsOf st (watched s w.term)

theorem WOK.congr {rv : List (Tm × Nat)} {st st' : IState} {w : WList} (h : WOK s rv st w)
    (he : st'.ratVars = st.ratVars) : WOK s rv st' w :=
  ⟨h.app, h.ne, fun x => by rw [h.mem, mem_varsOf, mem_varsOf, he]⟩

theorem WOK.rat {rv : List (Tm × Nat)} {st : IState} {w : WList} (h : WOK s rv st w) {x : Var} (hx : w.watch[0]? = some x) :
    ∃ n, x = Var.rat n := by
  obtain ⟨_, _, n, _, h'⟩ := mem_varsOf.mp ((h.mem x).mp (List.mem_iff_getElem?.mpr ⟨0, hx⟩))
  exact ⟨n, h'⟩

/-- Invariant of the histories; `d` is `settled` of `Reach`. -/
structure Inv (s : TermTable) (st : IState) (u : UF R) (d : Bool) : Prop where
  base : Base s st.ratVars u
  entries : ∀ e ∈ u.fns, Entry s st.ratVars u e
  terms : u.watch.map (·.term) = st.apps.map (·.2)
  watch : ∀ w ∈ u.watch, WOK s st.ratVars u.ist w
  settled : ∀ w ∈ u.watch, ∀ x l, w.watch[0]? = some x → u.trail.level x = some l →
    (l < u.trail.decisionLevel ∨ d = true) → Settled s u w.term l

/-- Effect of the loop over the watch lists on one of them. -/
inductive WStep (s : TermTable) (rv : List (Tm × Nat)) (v : Var) (u' : UF R) (ok : Prop) : WList → WList → Prop where
  | skip {w : WList} (h : w.watch[0]? ≠ some v) : WStep s rv v u' ok w w
  | moved {w w' : WList} (h : w.watch[0]? = some v) (ht : w'.term = w.term) (hf : HeadFree u'.trail w'.watch)
      (hm : ∀ x, x ∈ w'.watch ↔ x ∈ w.watch) : WStep s rv v u' ok w w'
  | done {w : WList} (h : w.watch[0]? = some v) (hs : ok → Settled s u' w.term u'.trail.decisionLevel) :
      WStep s rv v u' ok w w

/-- Effect of the loop over the watch lists. -/
structure PSpec (cfg : ICfg) (s : TermTable) (rv : List (Tm × Nat)) (u u' : UF R) (cs cs' : List Clause) : Prop where
  base : Base s rv u'
  ext : Ext { u with fns := u'.fns, watch := u'.watch } u'
  fns : ∃ xs, u'.fns = u.fns ++ xs
  entries : ∀ e ∈ u'.fns, Entry s rv u' e
  grow : ∃ ds, cs' = cs ++ ds
  consistent : Consistent u → Consistent u' ∧
    ((∀ c ∈ cs, ∀ l ∈ c, IsFalse u.trail l) → ∀ c ∈ cs', ∀ l ∈ c, IsFalse u'.trail l)
  valid : (∀ c ∈ cs, Valid s rv u.ist c) → ∀ c ∈ cs', Valid s rv u'.ist c
  calls : Calls cfg (OneVar s) u u'
  quiet : cs' = [] → u'.ist = u.ist ∧ u'.lra = u.lra

theorem decisionLevel_eq {u u' : UF R} (h : u'.trail.levels.length = u.trail.levels.length) :
    u'.trail.decisionLevel = u.trail.decisionLevel := by
  unfold Trail.decisionLevel; rw [h]

theorem PSpec.dl {cfg : ICfg} {rv : List (Tm × Nat)} {u u' : UF R} {cs cs' : List Clause} (h : PSpec cfg s rv u u' cs cs') :
    u'.trail.decisionLevel = u.trail.decisionLevel := decisionLevel_eq h.ext.same.dl

theorem PSpec.keep {cfg : ICfg} {rv : List (Tm × Nat)} {u u' : UF R} {cs cs' : List Clause} (h : PSpec cfg s rv u u' cs cs') (L : Nat) :
    Keep L u u' := by
  obtain ⟨k1, k2⟩ := RatSame.keep h.ext.same.vars h.ext.same.level h.ext.same.value L
  exact ⟨k1, k2⟩

theorem PSpec.settled {cfg : ICfg} {rv : List (Tm × Nat)} {u u' : UF R} {cs cs' : List Clause} (h : PSpec cfg s rv u u' cs cs')
    {t : Tm} (ha : App s rv t) {l : Nat} (hs : Settled s u t l) : Settled s u' t l := by
  obtain ⟨xs, hx⟩ := h.fns
  exact hs.keep (h.keep l) ha fun f args e he _ => by rw [hx]; exact lookup_append he

theorem PSpec.trans {cfg : ICfg} {rv : List (Tm × Nat)} {u v w : UF R} {cs cs' cs'' : List Clause} (h1 : PSpec cfg s rv u v cs cs')
    (h2 : PSpec cfg s rv v w cs' cs'') : PSpec cfg s rv u w cs cs'' := by
  obtain ⟨xs, hx⟩ := h1.fns
  obtain ⟨ys, hy⟩ := h2.fns
  obtain ⟨ds, hd⟩ := h1.grow
  obtain ⟨es, he⟩ := h2.grow
  have S1 := h1.ext.same
  have S2 := h2.ext.same
  refine ⟨h2.base, ⟨⟨rfl, rfl, S2.dl.trans S1.dl, fun n => (S2.level n).trans (S1.level n), S2.value.trans S1.value,
    S2.vars.trans S1.vars⟩, fun l x h => h2.ext.evals l x (h1.ext.evals l x h),
    fun m r h => h1.ext.back m r (h2.ext.back m r h)⟩, ⟨xs ++ ys, by rw [hy, hx, List.append_assoc]⟩, h2.entries,
    ⟨ds ++ es, by rw [he, hd, List.append_assoc]⟩, ?_, fun hv => h2.valid (h1.valid hv),
    h1.calls.trans h2.calls, fun hc => ?_⟩
  · intro hC
    obtain ⟨a1, a2⟩ := h1.consistent hC
    obtain ⟨b1, b2⟩ := h2.consistent a1
    exact ⟨b1, fun hf => b2 (a2 hf)⟩
  · obtain ⟨e1, e2⟩ := h2.quiet hc
    obtain ⟨f1, f2⟩ := h1.quiet (by rw [hc] at he; exact (List.append_eq_nil_iff.mp he.symm).1)
    exact ⟨e1.trans f1, e2.trans f2⟩

theorem WStep.mono {cfg : ICfg} {rv : List (Tm × Nat)} {v : Var} {u u' : UF R} {cs cs' : List Clause} (h : PSpec cfg s rv u u' cs cs')
    {ok ok' : Prop} (hok : ok' → ok) {w w' : WList} (ha : App s rv w.term) (hn : ∃ n, v = Var.rat n) (hw : WStep s rv v u ok w w')
    (hrat : ∀ x ∈ w.watch, ∃ n, x = Var.rat n) : WStep s rv v u' ok' w w' := by
  cases hw with
  | skip h1 => exact .skip h1
  | moved h1 h2 h3 h4 =>
    obtain ⟨x, hx, hl⟩ := h3
    refine .moved h1 h2 ⟨x, hx, ?_⟩ h4
    obtain ⟨n, rfl⟩ := hrat x ((h4 x).mp (List.mem_iff_getElem?.mpr ⟨0, hx⟩))
    rw [h.ext.same.level]; exact hl
  | done h1 h2 => exact .done h1 fun o => by rw [h.dl]; exact h.settled ha (h2 (hok o))

theorem propagateVar_spec (h : WF H s) {cfg : ICfg} {rv : List (Tm × Nat)} {v : Var} :
    ∀ (ws done : List WList) (u : UF R) (cs : List Clause),
    Base s rv u → (∀ e ∈ u.fns, Entry s rv u e) → (done ++ ws).map (·.term) = u.watch.map (·.term) →
    (∀ w ∈ ws, WOK s rv u.ist w) →
    ∃ u' cs' ws', propagateVar cfg s v done ws u cs = some (u', cs') ∧ PSpec cfg s rv u u' cs cs' ∧
      u'.watch = done ++ ws' ∧ List.Forall₂ (WStep s rv v u' (cs' = [])) ws ws' := by
  intro ws
  induction ws with
  | nil =>
    intro done u cs hB hE hw _
    rw [List.append_nil] at hw
    refine ⟨{ u with watch := done }, cs, [], rfl, ⟨⟨hB.iinv, hB.rv, hB.cls, hB.trail, hB.bools, hB.rats, hB.lev, hB.own⟩,
      .refl _, ⟨[], by simp⟩, ?_, ⟨[], by simp⟩, fun hC => ⟨hC, fun h => h⟩, fun h => h,
      ⟨.refl _, rfl⟩, fun _ => ⟨rfl, rfl⟩⟩, by simp, .nil⟩
    intro e he
    have hEe := hE e he
    refine Entry.keep (u := u) ⟨rfl, fun n l h _ => ⟨h, rfl⟩⟩ hEe ?_ hEe.le
    obtain ⟨w, hw1, hw2⟩ := (hE e he).reg
    have : w.term ∈ done.map (·.term) := by rw [hw]; exact List.mem_map.mpr ⟨w, hw1, rfl⟩
    obtain ⟨w', h1, h2⟩ := List.mem_map.mp this
    exact ⟨w', h1, h2.trans hw2⟩
  | cons w ws ih =>
    intro done u cs hB hE hw hok
    rw [propagateVar]
    have hW := hok w (by simp)
    by_cases hh : w.watch[0]? = some v
    · rw [if_pos hh]
      simp only
      obtain ⟨n, hv⟩ := hW.rat hh
      have hrat : ∀ x ∈ w.watch, ∃ n, x = Var.rat n := by
        intro x hx
        obtain ⟨_, _, n, _, h'⟩ := mem_varsOf.mp ((hW.mem x).mp hx)
        exact ⟨n, h'⟩
      rcases onAssign_cases u.trail hW.ne with ⟨h1, h2, h3⟩ | ⟨h1, h2⟩
      · rw [if_pos h1]
        have hwe : ({ watch := onAssign u.trail w.watch.length w.watch, term := w.term } : WList) = w := by
          rw [h2]
        have hready : Ready u.ist u.trail (watched s w.term) := by
          intro x hx
          obtain ⟨k, hk⟩ : ∃ k, mapFind u.ist.ratVars x = some k := by
            rw [hB.rv]
            rcases List.mem_cons.mp hx with rfl | hx
            · exact hW.app.var
            · obtain ⟨a, ha, hx⟩ := List.mem_flatMap.mp hx
              exact hW.app.vars a ha x hx
          have hm := (hW.mem (Var.rat k)).mpr (mem_varsOf.mpr ⟨x, hx, k, hk, rfl⟩)
          obtain ⟨l, hl⟩ := Option.ne_none_iff_exists'.mp (h3 _ hm)
          exact ⟨k, l, hk, hl⟩
        obtain ⟨u1, cs1, e1, A⟩ := addFunctionValue_spec h (cfg := cfg) hB hE hW.app hready (by
          have : w.term ∈ u.watch.map (·.term) := by rw [← hw]; simp
          obtain ⟨w', h1, h2⟩ := List.mem_map.mp this
          exact ⟨w', h1, h2⟩)
        rw [hwe, e1]
        simp only
        have hwatch : u1.watch = u.watch := A.ext.same.watch
        have P1 : PSpec cfg s rv u u1 cs (cs ++ cs1) := by
          refine ⟨A.base, ?_, A.fns, A.entries, ⟨cs1, rfl⟩, ?_, ?_, A.calls,
            fun hc => A.quiet (List.append_eq_nil_iff.mp hc).2⟩
          · have := A.ext
            rw [hwatch]
            exact this
          · intro hC
            obtain ⟨a1, a2⟩ := A.consistent hC
            refine ⟨a1, fun hf c hc l hl => ?_⟩
            rcases List.mem_append.mp hc with hc | hc
            · exact A.ext.evals _ _ (hf c hc l hl)
            · exact a2 c hc l hl
          · intro hv c hc
            rcases List.mem_append.mp hc with hc | hc
            · exact fun I m r hM hR => hv c hc I m r (A.ext.back m r hM) hR
            · exact A.valid c hc
        obtain ⟨u2, cs2, ws2, e2, P2, e3, F⟩ := ih (done ++ [w]) u1 (cs ++ cs1) A.base A.entries
          (by rw [hwatch, ← hw]; simp) (fun w' hw' => (hok w' (by simp [hw'])).congr A.ext.same.vars)
        refine ⟨u2, cs2, w :: ws2, e2, P1.trans P2, by rw [e3]; simp, .cons ?_ F⟩
        refine .done hh fun hc => ?_
        obtain ⟨ds, hds⟩ := P2.grow
        have hc1 : cs1 = [] := by
          rw [hds] at hc
          simp at hc
          exact hc.2.1
        rw [P2.dl]
        refine P2.settled hW.app ⟨?_, ?_⟩
        · intro x hx
          obtain ⟨k, l, h4, h5⟩ := P1.ext.same.ready hready x hx
          exact ⟨k, l, h4, h5, A.base.trail.bound _ _ h5⟩
        · rw [P1.dl]; exact A.recorded hc1
      · rw [if_neg (by rw [h1]; simp)]
        obtain ⟨g1, g2, g3, g4, g5⟩ := onAssign_spec u.trail w.watch.length w.watch
        obtain ⟨u2, cs2, ws2, e2, P2, e3, F⟩ :=
          ih (done ++ [{ watch := onAssign u.trail w.watch.length w.watch, term := w.term }]) u cs hB hE
          (by rw [← hw]; simp) (fun w' hw' => hok w' (by simp [hw']))
        refine ⟨u2, cs2, _ :: ws2, e2, P2, by rw [e3, List.append_assoc, List.singleton_append], .cons ?_ F⟩
        refine .moved hh rfl ?_ g1
        obtain ⟨x, hx, hl⟩ := h2
        refine ⟨x, hx, ?_⟩
        obtain ⟨n, rfl⟩ := hrat x ((g1 x).mp (List.mem_iff_getElem?.mpr ⟨0, hx⟩))
        rw [P2.ext.same.level]; exact hl
    · rw [if_neg hh]
      obtain ⟨u2, cs2, ws2, e2, P2, e3, F⟩ := ih (done ++ [w]) u cs hB hE (by rw [← hw]; simp)
        (fun w' hw' => hok w' (by simp [hw']))
      exact ⟨u2, cs2, w :: ws2, e2, P2, by rw [e3]; simp, .cons (.skip hh) F⟩

/-- The watch lists of settled heads are settled below the current level. -/
def Low (s : TermTable) (u : UF R) : Prop :=
  ∀ w ∈ u.watch, ∀ x l, w.watch[0]? = some x → u.trail.level x = some l → l < u.trail.decisionLevel →
    Settled s u w.term l

theorem forall₂_right {α β : Type} {P : α → β → Prop} {xs : List α} {ys : List β} (h : List.Forall₂ P xs ys) {y : β}
    (hy : y ∈ ys) : ∃ x ∈ xs, P x y := forall₂_mem_right h hy

theorem WStep.term {rv : List (Tm × Nat)} {v : Var} {u : UF R} {ok : Prop} {w w' : WList} (h : WStep s rv v u ok w w') :
    w'.term = w.term := by
  cases h with
  | skip => rfl
  | moved _ h => exact h
  | done => rfl

theorem WStep.wok {rv : List (Tm × Nat)} {v : Var} {u u' : UF R} {ok : Prop} {w w' : WList} (h : WStep s rv v u ok w w')
    {st st' : IState} (hw : WOK s rv st w) (he : st'.ratVars = st.ratVars) : WOK s rv st' w' := by
  cases h with
  | skip => exact hw.congr he
  | done => exact hw.congr he
  | moved h1 h2 h3 h4 =>
    refine (WOK.congr (st := st) ⟨by rw [h2]; exact hw.app, ?_, fun x => by rw [h2, h4, hw.mem]⟩ he)
    obtain ⟨x, hx, _⟩ := h3
    intro h0
    rw [h0] at hx
    simp at hx

theorem wsteps_terms {rv : List (Tm × Nat)} {v : Var} {u : UF R} {ok : Prop} {ws ws' : List WList}
    (h : List.Forall₂ (WStep s rv v u ok) ws ws') : ws'.map (·.term) = ws.map (·.term) := by
  induction h with
  | nil => rfl
  | cons hw _ ih => rw [List.map_cons, List.map_cons, ih, hw.term]

theorem propagateVars_spec (h : WF H s) {cfg : ICfg} {rv : List (Tm × Nat)} :
    ∀ (as : List (Asg R)) (u : UF R) (cs : List Clause),
    Base s rv u → (∀ e ∈ u.fns, Entry s rv u e) → (∀ w ∈ u.watch, WOK s rv u.ist w) →
    (∀ a ∈ as, a.var.type = .rational → u.trail.level a.var = some u.trail.decisionLevel) → Low s u →
    (cs = [] → ∀ w ∈ u.watch, ∀ x, w.watch[0]? = some x → u.trail.level x = some u.trail.decisionLevel →
      Settled s u w.term u.trail.decisionLevel ∨ ∃ a ∈ as, a.var = x) →
    ∃ u' cs', propagateVars cfg s as u cs = some (u', cs') ∧ PSpec cfg s rv u u' cs cs' ∧
      u'.watch.map (·.term) = u.watch.map (·.term) ∧ (∀ w ∈ u'.watch, WOK s rv u'.ist w) ∧ Low s u' ∧
      (cs' = [] → ∀ w ∈ u'.watch, ∀ x, w.watch[0]? = some x → u'.trail.level x = some u'.trail.decisionLevel →
        Settled s u' w.term u'.trail.decisionLevel) := by
  intro as
  induction as with
  | nil =>
    intro u cs hB hE hW _ hlow htop
    refine ⟨u, cs, rfl, ⟨hB, ?_, ⟨[], by simp⟩, hE, ⟨[], by simp⟩, fun hC => ⟨hC, fun h => h⟩, fun h => h,
      .refl cfg _ u, fun _ => ⟨rfl, rfl⟩⟩, rfl, hW,
      hlow, fun hc w hw x hx hl => ?_⟩
    · exact .refl u
    · rcases htop hc w hw x hx hl with h1 | ⟨a, ha, _⟩
      · exact h1
      · cases ha
  | cons a as ih =>
    intro u cs hB hE hW ha hlow htop
    obtain ⟨u1, cs1, ws1, e1, P1, hw1, F⟩ := propagateVar_spec h (cfg := cfg) (v := a.var) u.watch [] u cs hB hE rfl hW
    rw [List.nil_append] at hw1
    have hlev : ∀ {w : WList}, WOK s rv u.ist w → ∀ {x : Var}, w.watch[0]? = some x →
        u1.trail.level x = u.trail.level x := by
      intro w hw x hx
      obtain ⟨n, rfl⟩ := hw.rat hx
      exact P1.ext.same.level n
    have hW1 : ∀ w ∈ u1.watch, WOK s rv u1.ist w := by
      intro w' hw'
      rw [hw1] at hw'
      obtain ⟨w, hw, st⟩ := forall₂_right F hw'
      exact st.wok (u' := u1) (hW w hw) P1.ext.same.vars
    have hlow1 : Low s u1 := by
      intro w' hw' x l hx hl hlt
      rw [hw1] at hw'
      obtain ⟨w, hw, st⟩ := forall₂_right F hw'
      rw [P1.dl] at hlt
      cases st with
      | skip h1 =>
        rw [hlev (hW _ hw) hx] at hl
        exact P1.settled (hW _ hw).app (hlow _ hw x l hx hl hlt)
      | moved h1 h2 h3 h4 =>
        obtain ⟨y, hy, hn⟩ := h3
        rw [hx] at hy
        cases hy
        rw [hl] at hn
        cases hn
      | done h1 h2 =>
        exfalso
        rw [hx] at h1
        cases h1
        rw [hlev (hW _ hw) hx] at hl
        obtain ⟨n, hn⟩ := (hW _ hw).rat hx
        have := ha a (by simp) (by rw [hn])
        rw [this] at hl
        cases hl
        omega
    have htop1 : cs1 = [] → ∀ w ∈ u1.watch, ∀ x, w.watch[0]? = some x →
        u1.trail.level x = some u1.trail.decisionLevel →
        Settled s u1 w.term u1.trail.decisionLevel ∨ ∃ b ∈ as, b.var = x := by
      intro hc w' hw' x hx hl
      rw [hw1] at hw'
      obtain ⟨w, hw, st⟩ := forall₂_right F hw'
      cases st with
      | skip h1 =>
        obtain ⟨ds, hds⟩ := P1.grow
        have hc0 : cs = [] := by rw [hds] at hc; simp at hc; exact hc.1
        rw [hlev (hW _ hw) hx, P1.dl] at hl
        rcases htop hc0 _ hw x hx hl with h2 | ⟨b, hb, hbx⟩
        · left; rw [P1.dl]; exact P1.settled (hW _ hw).app h2
        · right
          rcases List.mem_cons.mp hb with rfl | hb
          · exact absurd (by rw [hx, hbx]) h1
          · exact ⟨b, hb, hbx⟩
      | moved h1 h2 h3 h4 =>
        obtain ⟨y, hy, hn⟩ := h3
        rw [hx] at hy
        cases hy
        rw [hl] at hn
        cases hn
      | done h1 h2 => exact .inl (h2 hc)
    obtain ⟨u2, cs2, e2, P2, k1, k2, k3, k4⟩ := ih u1 cs1 P1.base P1.entries hW1 (by
      intro b hb hr
      have := ha b (by simp [hb]) hr
      rw [P1.dl]
      obtain ⟨⟨ty, n⟩, rb⟩ := b
      simp only at hr
      subst hr
      exact (P1.ext.same.level n).trans this) hlow1 htop1
    refine ⟨u2, cs2, by rw [propagateVars, e1]; exact e2, P1.trans P2, ?_, k2, k3, k4⟩
    rw [k1, hw1]
    exact wsteps_terms F

/-- `propagate` succeeds and keeps the invariant. -/
theorem propagate_spec (h : WF H s) {cfg : ICfg} {st : IState} {u : UF R} {d : Bool} (hI : Inv s st u d) :
    ∃ u' cs, propagate cfg s u = some (u', cs) ∧ PSpec cfg s st.ratVars u u' [] cs ∧ Inv s st u' cs.isEmpty := by
  unfold propagate
  have hT := hI.base.trail
  have hget : u.trail.levels[u.trail.decisionLevel]? = some (u.trail.assigned u.trail.decisionLevel) := by
    have hlt : u.trail.decisionLevel < u.trail.levels.length := by
      have := hT.length_pos
      unfold Trail.decisionLevel; omega
    unfold Trail.assigned
    rw [List.getElem?_eq_getElem hlt, List.getD_eq_getElem?_getD, List.getElem?_eq_getElem hlt]; rfl
  obtain ⟨u', cs, e, P, k1, k2, k3, k4⟩ := propagateVars_spec h (cfg := cfg)
    (u.trail.assigned u.trail.decisionLevel) u [] hI.base hI.entries hI.watch
    (fun a ha hr => hI.base.own _ _ a hget ha hr)
    (fun w hw x l hx hl hlt => hI.settled w hw x l hx hl (.inl hlt))
    (fun _ w hw x hx hl => by
      obtain ⟨xs, h1, a, h2, h3⟩ := hT.own x _ hl
      rw [hget] at h1
      cases h1
      exact .inr ⟨a, h2, h3⟩)
  refine ⟨u', cs, e, P, P.base, P.entries, by rw [k1, hI.terms], k2, ?_⟩
  intro w hw x l hx hl hd
  rcases Nat.lt_or_ge l u'.trail.decisionLevel with hlt | hge
  · exact k3 w hw x l hx hl hlt
  · have hle := P.base.trail.bound x l hl
    have : l = u'.trail.decisionLevel := by omega
    subst this
    rcases hd with hd | hd
    · omega
    · exact k4 (List.isEmpty_iff.mp hd) w hw x hx hl

/-! ### The other events -/

theorem lookup_filter {fns : List FApp} {p : FApp → Bool} {f : Tm} {args : List Val} {e : FApp}
    (h : lookup fns f args = some e) (he : p e = true) : lookup (fns.filter p) f args = some e := by
  unfold lookup at *
  induction fns with
  | nil => cases h
  | cons a fns ih =>
    rw [List.find?_cons] at h
    cases ha : (decide (a.fn = f) && decide (a.args = args)) with
    | true =>
      rw [ha] at h
      cases h
      rw [List.filter_cons_of_pos he, List.find?_cons, ha]
    | false =>
      rw [ha] at h
      rw [List.filter_cons]
      split
      · rw [List.find?_cons, ha]; exact ih h
      · exact ih h

/-- An event that keeps the rational part of the trail. -/
theorem Inv.same {st : IState} {u u' : UF R} {d : Bool} (hI : Inv s st u d) (hB : Base s st.ratVars u')
    (hS : RatSame u u') : Inv s st u' d := by
  have hk : ∀ L, Keep L u u' := fun L => RatSame.keep hS.vars hS.level hS.value L
  have hdl := decisionLevel_eq hS.dl
  refine ⟨hB, ?_, by rw [hS.watch]; exact hI.terms, ?_, ?_⟩
  · intro e he
    rw [hS.fns] at he
    have hE := hI.entries e he
    exact hE.keep (hk _) (by rw [hS.watch]; exact hE.reg) (by rw [hdl]; exact hE.le)
  · intro w hw
    rw [hS.watch] at hw
    exact (hI.watch w hw).congr hS.vars
  · intro w hw x l hx hl hd
    rw [hS.watch] at hw
    obtain ⟨n, rfl⟩ := (hI.watch w hw).rat hx
    rw [hS.level] at hl
    rw [hdl] at hd
    exact (hI.settled w hw _ l hx hl hd).keep (hk l) (hI.watch w hw).app fun f args e h _ => by rw [hS.fns]; exact h

theorem Inv.assign {st : IState} {u : UF R} {d : Bool} (hI : Inv s st u d) {k : Nat} {r : Option R} {lvl : Nat} {b : Bool}
    (hp : u.trail.Pre (.propagate (Var.bool k) r lvl (.b b))) :
    Inv s st { u with trail := u.trail.step (.propagate (Var.bool k) r lvl (.b b)) } d := by
  obtain ⟨h1, h2, _, h4⟩ := hp
  have h1' : k < u.ist.numBool := by rw [← hI.base.bools]; exact h1
  obtain ⟨hB, hE⟩ := assignBool_spec (r := r) (b := b) hI.base h1' h2 h4
  exact hI.same hB hE.same

theorem Inv.decide {st : IState} {u : UF R} (hI : Inv s st u true) {v : Var} {x : Val}
    (hp : u.trail.Pre (.decide v x)) : Inv s st { u with trail := u.trail.step (.decide v x) } false := by
  obtain ⟨h1, h2, h3⟩ := hp
  have hT := hI.base.trail
  have hinv := Trail.decide_inv hT v x h1 h2 h3
  have hlevel : ∀ w, (u.trail.step (.decide v x)).level w = Function.update u.trail.level v (some u.trail.levels.length) w := by
    intro w
    show ((u.trail.decide v).setValue v x).level w = _
    rw [Trail.level_setValue]; rfl
  have hlevels : (u.trail.step (.decide v x)).levels = u.trail.levels ++ [[⟨v, none⟩]] := by
    show ((u.trail.decide v).setValue v x).levels = _
    rw [Trail.levels_setValue]; rfl
  have hdl : (u.trail.step (.decide v x)).decisionLevel = u.trail.levels.length := by
    unfold Trail.decisionLevel; rw [hlevels]; simp
  have hvals : ∀ n, Var.rat n ≠ v → (u.trail.step (.decide v x)).rats.value n = u.trail.rats.value n := by
    intro n hn
    have := Trail.valueOf_setValue (u.trail.decide v) v (Var.rat n) x h3
    have h' : (u.trail.step (.decide v x)).valueOf (Var.rat n) = u.trail.valueOf (Var.rat n) := by
      show ((u.trail.decide v).setValue v x).valueOf (Var.rat n) = _
      rw [this, if_neg hn]; rfl
    simpa [Trail.valueOf] using h'
  have hpos := hT.length_pos
  have hk : ∀ L, Keep L u { u with trail := u.trail.step (.decide v x) } := by
    intro L
    refine ⟨rfl, fun n l hl _ => ?_⟩
    have hne : Var.rat n ≠ v := by rintro rfl; rw [h2] at hl; cases hl
    exact ⟨by show (u.trail.step (.decide v x)).level _ = _; rw [hlevel, Function.update_of_ne hne]; exact hl, hvals n hne⟩
  have hnum : (u.trail.step (.decide v x)).bools.num = u.trail.bools.num ∧
      (u.trail.step (.decide v x)).rats.num = u.trail.rats.num := by
    obtain ⟨ty, n⟩ := v
    cases ty <;> cases x <;> exact ⟨rfl, rfl⟩
  refine ⟨⟨hI.base.iinv, hI.base.rv, hI.base.cls, hinv, by rw [← hI.base.bools]; exact hnum.1,
    by rw [← hI.base.rats]; exact hnum.2, ?_, ?_⟩, ?_, hI.terms, hI.watch, ?_⟩
  · intro n l hl
    have hl : (u.trail.step (.decide v x)).level (Var.rat n) = some l := hl
    rw [hlevel] at hl
    by_cases hne : Var.rat n = v
    · rw [hne, Function.update_self] at hl; cases hl; exact hpos
    · rw [Function.update_of_ne hne] at hl; exact hI.base.lev n l hl
  · intro i xs a hi ha hr
    have hi : (u.trail.step (.decide v x)).levels[i]? = some xs := hi
    show (u.trail.step (.decide v x)).level a.var = some i
    rw [hlevels, List.getElem?_append] at hi
    rw [hlevel]
    split at hi
    · have := hI.base.own i xs a hi ha hr
      have hne : a.var ≠ v := by intro e; rw [e, h2] at this; cases this
      rw [Function.update_of_ne hne]; exact this
    · rename_i hge
      have hi' : i = u.trail.levels.length := by
        by_contra hne
        rw [List.getElem?_eq_none (by simp; omega)] at hi
        cases hi
      subst hi'
      simp at hi
      subst hi
      rw [List.mem_singleton.mp ha, Function.update_self]
  · intro e he
    have hE := hI.entries e he
    refine hE.keep (hk _) hE.reg ?_
    show e.level ≤ (u.trail.step (.decide v x)).decisionLevel
    rw [hdl]
    have := hE.le
    unfold Trail.decisionLevel at this
    omega
  · intro w hw y l hy hl hd
    have hl : (u.trail.step (.decide v x)).level y = some l := hl
    have hd : l < (u.trail.step (.decide v x)).decisionLevel := by
      rcases hd with hd | hd
      · exact hd
      · cases hd
    rw [hdl] at hd
    rw [hlevel] at hl
    by_cases hne : y = v
    · rw [hne, Function.update_self] at hl; cases hl; omega
    · rw [Function.update_of_ne hne] at hl
      exact Settled.keep (u := u) (hk l) (hI.watch w hw).app (fun f args e h _ => h)
        (hI.settled w hw y l hy hl (.inr rfl))

theorem Inv.backtrack {st : IState} {u : UF R} {d : Bool} (hI : Inv s st u d) {lvl : Nat}
    (hl : lvl ≤ u.trail.decisionLevel) :
    Inv s st { onBeforeBacktrack u lvl with trail := u.trail.backtrack lvl }
      (d || Decidable.decide (lvl < u.trail.decisionLevel)) := by
  have hT := hI.base.trail
  obtain ⟨b1, b2, b3, b4, b5⟩ := Trail.backtrack_spec hT lvl hl
  have hdl := Trail.decisionLevel_backtrack hT lvl hl
  have hback : ∀ v l, (u.trail.backtrack lvl).level v = some l → u.trail.level v = some l ∧ l ≤ lvl := by
    intro v l h
    rcases hv : u.trail.level v with _ | l'
    · rw [(b3 v (by simp [hv])).1, hv] at h; cases h
    · by_cases hlt : lvl < l'
      · rw [(b2 v l' hv hlt).1] at h; cases h
      · rw [(b3 v (by intro l hl; rw [hv] at hl; cases hl; omega)).1, hv] at h
        cases h; exact ⟨rfl, by omega⟩
  have hfwd : ∀ v l, u.trail.level v = some l → l ≤ lvl → (u.trail.backtrack lvl).level v = some l := by
    intro v l h hle
    rw [(b3 v (by intro l' hl'; rw [h] at hl'; cases hl'; exact hle)).1, h]
  have hk : Keep lvl u { onBeforeBacktrack u lvl with trail := u.trail.backtrack lvl } := by
    refine ⟨rfl, fun n l h hle => ⟨hfwd _ l h hle, ?_⟩⟩
    have := congrFun b4 (Var.rat n)
    simpa [Trail.valueOf] using this
  have hnum := fun ty => congrFun b5 ty
  refine ⟨⟨hI.base.iinv, hI.base.rv, hI.base.cls, Trail.backtrack_inv hT lvl hl,
    (hnum .boolean).trans hI.base.bools, (hnum .rational).trans hI.base.rats,
    fun n l h => hI.base.lev n l (hback _ l h).1, ?_⟩, ?_, hI.terms, hI.watch, ?_⟩
  · intro i xs a hi ha hr
    have hi : (u.trail.backtrack lvl).levels[i]? = some xs := hi
    rw [b1, List.getElem?_take] at hi
    split at hi
    · have := hI.base.own i xs a hi ha hr
      exact hfwd _ i this (by omega)
    · cases hi
  · intro e he
    obtain ⟨he, hle⟩ := List.mem_filter.mp he
    have hle : e.level ≤ lvl := by simpa using hle
    have hE := hI.entries e he
    refine hE.keep (hk.mono hle) hE.reg ?_
    show e.level ≤ (u.trail.backtrack lvl).decisionLevel
    rw [hdl]; exact hle
  · intro w hw y l hy hly hd
    obtain ⟨hly, hle⟩ := hback y l hly
    have hd : l < lvl ∨ (d || Decidable.decide (lvl < u.trail.decisionLevel)) = true := by
      rcases hd with hd | hd
      · left
        have : l < (u.trail.backtrack lvl).decisionLevel := hd
        rw [hdl] at this; exact this
      · exact .inr hd
    have hS := hI.settled w hw y l hy hly (by
      rcases hd with hd | hd
      · left; omega
      · rcases Bool.or_eq_true_iff.mp hd with hd | hd
        · exact .inr hd
        · left
          have := of_decide_eq_true hd
          omega)
    refine Settled.keep (u := u) (hk.mono hle) (hI.watch w hw).app (fun f args e h hel => ?_) hS
    exact lookup_filter h (by simp; omega)

theorem Inv.restart {st : IState} {u : UF R} {d : Bool} (hI : Inv s st u d) :
    Inv s st { onBeforeBacktrack u 0 with trail := u.trail.clear } true := by
  refine ⟨⟨hI.base.iinv, hI.base.rv, hI.base.cls, Trail.clear_inv u.trail, hI.base.bools, hI.base.rats, ?_, ?_⟩, ?_,
    hI.terms, hI.watch, ?_⟩
  · intro n l h; cases h
  · intro i xs a hi ha
    have hi : ([[]] : List (List (Asg R)))[i]? = some xs := hi
    rcases i with _ | i <;> simp at hi
    subst hi
    cases ha
  · intro e he
    obtain ⟨he, hle⟩ := List.mem_filter.mp he
    have := (hI.entries e he).pos
    simp at hle
    omega
  · intro w hw y l hy hly
    cases hly

end UF
end Yaga
