import Verif.Model.PQueue
import Mathlib.Tactic.Linarith
import Mathlib.Tactic.SplitIfs
import Mathlib.Order.Basic

set_option linter.unusedSectionVars false

namespace Yaga
namespace PQ
variable {S : Type} [LinearOrder S]

/-! ### The order of nodes -/

theorem before_irrefl (a : Var × S) : before a a = false := by
  simp [before, varBefore]

theorem before_trans {a b c : Var × S} (h1 : before a b = true) (h2 : before b c = true) :
    before a c = true := by
  simp only [before, varBefore, Bool.or_eq_true, decide_eq_true_eq, Bool.and_eq_true, beq_iff_eq] at *
  rcases h1 with h1 | ⟨h1, h1'⟩ <;> rcases h2 with h2 | ⟨h2, h2'⟩
  · exact Or.inl (lt_trans h2 h1)
  · exact Or.inl (h2 ▸ h1)
  · exact Or.inl (h1 ▸ h2)
  · exact Or.inr ⟨h1.trans h2, by omega⟩

theorem before_total {a b : Var × S} (h : before a b = false) (hne : a ≠ b) : before b a = true := by
  obtain ⟨⟨ta, oa⟩, sa⟩ := a
  obtain ⟨⟨tb, ob⟩, sb⟩ := b
  simp only [before, varBefore, Bool.or_eq_true, decide_eq_true_eq, Bool.and_eq_true, beq_iff_eq,
    Bool.or_eq_false_iff, decide_eq_false_iff_not, Bool.and_eq_false_iff, beq_eq_false_iff_ne,
    gt_iff_lt, not_lt] at *
  rcases lt_trichotomy sa sb with hs | hs | hs
  · exact Or.inl hs
  · subst hs
    right
    refine ⟨rfl, ?_⟩
    have h2 := h.2.resolve_left (by simp)
    by_contra hc
    push Not at hc
    apply hne
    cases ta <;> cases tb <;> simp [VType.toNat] at h2 hc ⊢ <;> omega
  · exact absurd h.1 (by simpa using hs)

/-- Negative transitivity, the form used for heaps. -/
theorem notBefore_trans {a b c : Var × S} (h1 : before a b = false) (h2 : before b c = false) :
    before a c = false := by
  by_contra h
  simp only [Bool.not_eq_false] at h
  by_cases e : b = c
  · subst e; rw [h] at h1; cases h1
  · have h3 := before_total h2 e
    rw [before_trans h h3] at h1; cases h1

theorem notBefore_of_before {a b : Var × S} (h : before a b = true) : before b a = false := by
  by_contra hc
  simp only [Bool.not_eq_false] at hc
  have := before_trans h hc
  rw [before_irrefl] at this; cases this

/-! ### Representation -/

/-- The queue stores the finite map `m`; the position of the variables in `E` is unspecified. -/
structure Rep (E : Var → Prop) (q : PQ S) (m : Var → Option S) : Prop where
  pos : ∀ v, ¬ E v → ∀ i, q.pos v = some i ↔ i < q.size ∧ (q.node i).1 = v
  notE : ∀ i, i < q.size → ¬ E (q.node i).1
  map : ∀ v s, m v = some s ↔ ∃ i, i < q.size ∧ q.node i = (v, s)

theorem Rep.inj {E : Var → Prop} {q : PQ S} {m : Var → Option S} (h : Rep E q m) {i j : Nat}
    (hi : i < q.size) (hj : j < q.size) (e : (q.node i).1 = (q.node j).1) : i = j := by
  have h1 := (h.pos _ (h.notE i hi) i).2 ⟨hi, rfl⟩
  have h2 := (h.pos _ (h.notE i hi) j).2 ⟨hj, e.symm⟩
  rw [h1] at h2; exact Option.some.inj h2

theorem swap_node (q : PQ S) (i j k : Nat) :
    (q.swap i j).node k = if k = j then q.node i else if k = i then q.node j else q.node k := by
  simp only [swap, Function.update_apply]

@[simp] theorem swap_size (q : PQ S) (i j : Nat) : (q.swap i j).size = q.size := rfl

theorem swap_rep {E : Var → Prop} {q : PQ S} {m : Var → Option S} (h : Rep E q m) {i j : Nat}
    (hi : i < q.size) (hj : j < q.size) : Rep E (q.swap i j) m := by
  have hnode := swap_node q i j
  have hni : (q.swap i j).node i = q.node j := by
    rw [hnode]; split
    · rename_i e; rw [e]
    · simp
  have hnj : (q.swap i j).node j = q.node i := by rw [hnode]; simp
  have hpi := (h.pos _ (h.notE i hi) i).2 ⟨hi, rfl⟩
  have hpj := (h.pos _ (h.notE j hj) j).2 ⟨hj, rfl⟩
  have hpos : ∀ v, (q.swap i j).pos v = if v = (q.node i).1 then some j
      else if v = (q.node j).1 then some i else q.pos v := by
    intro v
    have : (q.swap i j).pos = Function.update (Function.update q.pos ((q.swap i j).node i).1
        (q.pos ((q.swap i j).node j).1)) ((q.swap i j).node j).1
        (q.pos ((q.swap i j).node i).1) := rfl
    rw [this, hni, hnj, hpi, hpj]
    simp only [Function.update_apply]
  refine ⟨?_, ?_, ?_⟩
  · intro v hv k
    rw [hpos, swap_size, hnode]
    by_cases e1 : v = (q.node i).1
    · rw [if_pos e1]
      constructor
      · intro e; cases e; exact ⟨hj, by simp [e1]⟩
      · rintro ⟨hk, e⟩
        by_cases k1 : k = j
        · rw [k1]
        · rw [if_neg k1] at e
          by_cases k2 : k = i
          · rw [if_pos k2, e1] at e
            exact absurd ((h.inj hj hi e).symm ▸ k2) k1
          · rw [if_neg k2, e1] at e
            exact absurd (h.inj hk hi e) k2
    · rw [if_neg e1]
      by_cases e2 : v = (q.node j).1
      · rw [if_pos e2]
        constructor
        · intro e; cases e
          refine ⟨hi, ?_⟩
          split
          · rename_i hij; rw [e2, hij]
          · simp [e2]
        · rintro ⟨hk, e⟩
          by_cases k1 : k = j
          · rw [if_pos k1] at e; exact absurd e.symm e1
          · rw [if_neg k1] at e
            by_cases k2 : k = i
            · rw [k2]
            · rw [if_neg k2, e2] at e
              exact absurd (h.inj hk hj e) k1
      · rw [if_neg e2, h.pos v hv k]
        constructor
        · rintro ⟨hk, e⟩
          refine ⟨hk, ?_⟩
          rw [if_neg (fun k1 => e2 (by rw [← e, k1])), if_neg (fun k2 => e1 (by rw [← e, k2]))]
          exact e
        · rintro ⟨hk, e⟩
          split at e
          · exact absurd e.symm e1
          · split at e
            · exact absurd e.symm e2
            · exact ⟨hk, e⟩
  · intro k hk
    rw [hnode]
    split
    · exact h.notE i hi
    · split
      · exact h.notE j hj
      · exact h.notE k hk
  · intro v s
    rw [h.map]
    constructor
    · rintro ⟨k, hk, e⟩
      by_cases k1 : k = i
      · exact ⟨j, hj, by rw [hnj, ← e, k1]⟩
      · by_cases k2 : k = j
        · exact ⟨i, hi, by rw [hni, ← e, k2]⟩
        · exact ⟨k, hk, by rw [hnode, if_neg k2, if_neg k1]; exact e⟩
    · rintro ⟨k, hk, e⟩
      rw [hnode] at e
      split at e
      · exact ⟨i, hi, e⟩
      · split at e
        · exact ⟨j, hj, e⟩
        · exact ⟨k, hk, e⟩

/-! ### Heap order -/

/-- Node `j` does not precede its parent. -/
def ok (q : PQ S) (j : Nat) : Prop := before (q.node j) (q.node (parent j)) = false

/-- The heap property. -/
def Heap (q : PQ S) : Prop := ∀ j, 0 < j → j < q.size → ok q j

theorem parent_lt {i : Nat} (h : 0 < i) : parent i < i := by
  simp only [parent, if_pos h]; omega

theorem fixUp_spec {E : Var → Prop} {m : Var → Option S} (fuel : Nat) (q : PQ S) (i : Nat)
    (hr : Rep E q m) (hi : i < q.size) (hf : i ≤ fuel)
    (h1 : ∀ j, 0 < j → j < q.size → j ≠ i → ok q j)
    (h2 : ∀ j, 0 < j → j < q.size → parent j = i → 0 < i →
      before (q.node j) (q.node (parent i)) = false) :
    Rep E (fixUp fuel q i) m ∧ Heap (fixUp fuel q i) ∧ (fixUp fuel q i).size = q.size := by
  induction fuel generalizing q i with
  | zero =>
    have : i = 0 := by omega
    subst this
    exact ⟨hr, fun j hj hjs => h1 j hj hjs (by omega), rfl⟩
  | succ fuel ih =>
    unfold fixUp
    by_cases h0 : i = 0
    · rw [if_pos h0]
      exact ⟨hr, fun j hj hjs => h1 j hj hjs (by omega), rfl⟩
    · rw [if_neg h0]
      have hp := parent_lt (show 0 < i by omega)
      split
      · rename_i hb
        have hps : parent i < q.size := by omega
        have hn := swap_node q i (parent i)
        have key := ih (q.swap i (parent i)) (parent i) (swap_rep hr hi hps) hps (by omega) ?_ ?_
        · exact key
        · intro j hj hjs hne
          simp only [ok, hn]
          rw [swap_size] at hjs
          rw [if_neg hne]
          by_cases e : j = i
          · subst e
            rw [if_pos rfl, if_pos rfl]
            exact notBefore_of_before hb
          · rw [if_neg e]
            have hok := h1 j hj hjs e
            simp only [ok] at hok
            by_cases e1 : parent j = parent i
            · rw [if_pos e1]
              rw [e1] at hok
              exact notBefore_trans hok (notBefore_of_before hb)
            · rw [if_neg e1]
              by_cases e2 : parent j = i
              · rw [if_pos e2]
                exact h2 j hj hjs e2 (by omega)
              · rw [if_neg e2]; exact hok
        · intro j hj hjs hpj hpos
          rw [swap_size] at hjs
          simp only [hn]
          have hjne : j ≠ parent i := by
            intro e; have := parent_lt hj; omega
          have hpp := parent_lt hpos
          rw [if_neg hjne, if_neg (show parent (parent i) ≠ parent i by omega),
            if_neg (show parent (parent i) ≠ i by omega)]
          have hokp := h1 (parent i) hpos hps (by omega)
          by_cases e : j = i
          · rw [if_pos e]; exact hokp
          · rw [if_neg e]
            have := h1 j hj hjs e
            simp only [ok, hpj] at this
            exact notBefore_trans this hokp
      · rename_i hb
        have hb' : before (q.node i) (q.node (parent i)) = false := by simpa using hb
        have hheap : Heap q := by
          intro j hj hjs
          by_cases e : j = i
          · subst e; exact hb'
          · exact h1 j hj hjs e
        refine ih q (parent i) hr (by omega) (by omega) (fun j hj hjs _ => hheap j hj hjs) ?_
        intro j hj hjs hpj hpos
        have a := hheap j hj hjs
        simp only [ok, hpj] at a
        exact notBefore_trans a (hheap (parent i) hpos (by omega))

theorem maxChild_spec (q : PQ S) (b : Nat) (cs : List Nat) :
    (q.maxChild b cs = b ∨ q.maxChild b cs ∈ cs) ∧
    before (q.node b) (q.node (q.maxChild b cs)) = false ∧
    ∀ c ∈ cs, before (q.node c) (q.node (q.maxChild b cs)) = false := by
  induction cs generalizing b with
  | nil => exact ⟨Or.inl rfl, before_irrefl _, by simp⟩
  | cons c cs ih =>
    unfold maxChild
    split
    · rename_i hb
      obtain ⟨h1, h2, h3⟩ := ih c
      refine ⟨Or.inr ?_, notBefore_trans (notBefore_of_before hb) h2, ?_⟩
      · rcases h1 with h1 | h1
        · rw [h1]; exact List.mem_cons_self
        · exact List.mem_cons_of_mem _ h1
      · intro x hx
        rcases List.mem_cons.1 hx with rfl | hx
        · exact h2
        · exact h3 x hx
    · rename_i hb
      obtain ⟨h1, h2, h3⟩ := ih b
      refine ⟨h1.imp id (List.mem_cons_of_mem _), h2, ?_⟩
      intro x hx
      rcases List.mem_cons.1 hx with rfl | hx
      · exact notBefore_trans (by simpa using hb) h2
      · exact h3 x hx

theorem mem_children (q : PQ S) (i j : Nat) :
    j ∈ q.children i ↔ 0 < j ∧ j < q.size ∧ parent j = i := by
  simp only [children, List.mem_range'_1, parent]
  constructor
  · intro h
    have : 0 < j := by omega
    refine ⟨this, by omega, ?_⟩
    rw [if_pos this]; omega
  · rintro ⟨h1, h2, h3⟩
    rw [if_pos h1] at h3
    omega

theorem fixDown_spec {E : Var → Prop} {m : Var → Option S} (k fuel : Nat) (q : PQ S) (i : Nat)
    (hr : Rep E q m) (hi : i < q.size) (hf : q.size ≤ fuel + i)
    (h1 : ∀ j, 0 < j → j < q.size → k ≤ parent j → parent j ≠ i → ok q j)
    (hki : k ≤ i)
    (h2 : ∀ j, 0 < j → j < q.size → parent j = i → 0 < i → k ≤ parent i →
      before (q.node j) (q.node (parent i)) = false) :
    Rep E (fixDown fuel q i) m ∧
    (∀ j, 0 < j → j < q.size → k ≤ parent j → ok (fixDown fuel q i) j) ∧
    (fixDown fuel q i).size = q.size := by
  induction fuel generalizing q i with
  | zero => omega
  | succ fuel ih =>
    unfold fixDown
    rcases hc : q.children i with _ | ⟨c, cs⟩
    · simp only
      refine ⟨hr, fun j hj hjs hkj => h1 j hj hjs hkj ?_, by trivial⟩
      intro e
      have := (mem_children q i j).2 ⟨hj, hjs, e⟩
      rw [hc] at this; cases this
    · simp only
      obtain ⟨m1, m2, m3⟩ := maxChild_spec q c cs
      set mx := q.maxChild c cs with hmx
      have hmem : mx ∈ q.children i := by
        rw [hc]
        rcases m1 with e | e
        · rw [e]; exact List.mem_cons_self
        · exact List.mem_cons_of_mem _ e
      obtain ⟨hm0, hms, hmp⟩ := (mem_children q i mx).1 hmem
      have hbest : ∀ j, 0 < j → j < q.size → parent j = i →
          before (q.node j) (q.node mx) = false := by
        intro j hj hjs e
        have := (mem_children q i j).2 ⟨hj, hjs, e⟩
        rw [hc] at this
        rcases List.mem_cons.1 this with rfl | h
        · exact m2
        · exact m3 j h
      have hlt : i < mx := by have := parent_lt hm0; omega
      split
      · rename_i hb
        have hn := swap_node q mx i
        have key := ih (q.swap mx i) mx (swap_rep hr hms hi) hms (by rw [swap_size]; omega) ?_ (by omega) ?_
        · rw [swap_size] at key; exact key
        · intro j hj hjs hkj hpj
          rw [swap_size] at hjs
          simp only [ok, hn]
          have hpne : parent j ≠ mx := hpj
          by_cases e1 : j = i
          · -- the node moved up to position `i`
            subst e1
            rw [if_pos rfl]
            have hp := parent_lt hj
            rw [if_neg (show parent j ≠ j by omega), if_neg hpne]
            exact h2 mx hm0 hms hmp hj hkj
          · rw [if_neg e1]
            by_cases e2 : j = mx
            · subst e2
              rw [if_pos rfl, hmp, if_pos rfl]
              exact notBefore_of_before hb
            · rw [if_neg e2]
              by_cases e3 : parent j = i
              · rw [if_pos e3]; exact hbest j hj hjs e3
              · rw [if_neg e3, if_neg hpne]; exact h1 j hj hjs hkj e3
        · intro j hj hjs hpj hpos hkp
          rw [swap_size] at hjs
          simp only [hn, hmp]
          have hjm : mx < j := by have := parent_lt hj; omega
          rw [if_neg (show j ≠ i by omega), if_neg (show j ≠ mx by omega), if_pos trivial]
          have := h1 j hj hjs (by omega) (by omega)
          simp only [ok, hpj] at this
          exact this
      · rename_i hb
        have hb' : before (q.node mx) (q.node i) = false := by simpa using hb
        refine ⟨hr, ?_, rfl⟩
        intro j hj hjs hkj
        by_cases e : parent j = i
        · simp only [ok, e]
          exact notBefore_trans (hbest j hj hjs e) hb'
        · exact h1 j hj hjs hkj e

theorem fixDown_size (fuel : Nat) (q : PQ S) (i : Nat) : (fixDown fuel q i).size = q.size := by
  induction fuel generalizing q i with
  | zero => rfl
  | succ fuel ih =>
    unfold fixDown
    split
    · rfl
    · simp only
      split
      · rw [ih, swap_size]
      · rfl

theorem pop_size (q : PQ S) : q.pop.size = q.size - 1 := by
  show PQ.size (ite _ _ _) = _
  rw [apply_ite PQ.size, fixDown_size, ite_self]; rfl

theorem heapify_spec {E : Var → Prop} {m : Var → Option S} (i : Nat) (q : PQ S)
    (hr : Rep E q m) (hi : i < q.size)
    (h1 : ∀ j, 0 < j → j < q.size → i + 1 ≤ parent j → ok q j) :
    Rep E (heapify q i) m ∧ Heap (heapify q i) ∧ (heapify q i).size = q.size := by
  induction i generalizing q with
  | zero =>
    obtain ⟨a, b, c⟩ := fixDown_spec 0 q.size q 0 hr hi (by omega)
      (fun j hj hjs _ hne => h1 j hj hjs (by omega)) (by omega) (by intro _ _ _ _ h; omega)
    refine ⟨a, fun j hj hjs => b j hj (c ▸ hjs) (by omega), c⟩
  | succ i ih =>
    unfold heapify
    obtain ⟨a, b, c⟩ := fixDown_spec (i + 1) q.size q (i + 1) hr hi (by omega)
      (fun j hj hjs hk hne => h1 j hj hjs (by omega)) (by omega)
      (by
        intro j _ _ _ hpos hk
        have := parent_lt hpos; omega)
    obtain ⟨d, e, f⟩ := ih _ a (by omega) (fun j hj hjs hk => b j hj (c ▸ hjs) hk)
    exact ⟨d, e, f.trans c⟩

/-- The root of a heap precedes every other node. -/
theorem heap_root {q : PQ S} (h : Heap q) (i : Nat) (hi : i < q.size) :
    before (q.node i) (q.node 0) = false := by
  induction i using Nat.strongRecOn with
  | _ i ih =>
    rcases Nat.eq_zero_or_pos i with e | hpos
    · subst e; exact before_irrefl _
    · have hp := parent_lt hpos
      exact notBefore_trans (h i hpos hi) (ih _ hp (by omega))

/-! ### Operations -/

/-- The queue represents `m` and is a heap. -/
structure Good (q : PQ S) (m : Var → Option S) : Prop where
  rep : Rep (fun _ => False) q m
  heap : Heap q

theorem empty_good (d : Var × S) : Good (empty d) (fun _ => none) :=
  ⟨⟨by simp [empty], by simp, by simp [empty]⟩, by intro j _ h; simp [empty] at h⟩

theorem push_good {q : PQ S} {m : Var → Option S} (h : Good q m) (v : Var) (s : S) (hv : m v = none) :
    Good (q.push v s) (Function.update m v (some s)) := by
  have hno : ∀ i, i < q.size → (q.node i).1 ≠ v := by
    intro i hi e
    have := (h.rep.map v (q.node i).2).2 ⟨i, hi, by rw [← e]⟩
    rw [hv] at this; cases this
  set q1 : PQ S := ⟨q.size + 1, Function.update q.node q.size (v, s), Function.update q.pos v (some q.size)⟩
    with hq1
  have hn : ∀ i, i < q.size → q1.node i = q.node i := by
    intro i hi; simp only [hq1]; rw [Function.update_of_ne (by omega)]
  have hl : q1.node q.size = (v, s) := by simp [hq1]
  have hr : Rep (fun _ => False) q1 (Function.update m v (some s)) := by
    refine ⟨?_, by simp, ?_⟩
    · intro u _ i
      by_cases e : u = v
      · subst e
        simp only [hq1, Function.update_self]
        constructor
        · intro h; cases h; exact ⟨by omega, by simp⟩
        · rintro ⟨hi, e⟩
          by_cases hc : i = q.size
          · rw [hc]
          · rw [Function.update_of_ne hc] at e
            exact absurd e (hno i (by omega))
      · simp only [hq1]
        rw [Function.update_of_ne e, h.rep.pos u (by simp) i]
        constructor
        · rintro ⟨hi, e'⟩
          exact ⟨by omega, by rw [Function.update_of_ne (by omega)]; exact e'⟩
        · rintro ⟨hi, e'⟩
          by_cases hc : i = q.size
          · subst hc; rw [Function.update_self] at e'; exact absurd e'.symm e
          · rw [Function.update_of_ne hc] at e'; exact ⟨by omega, e'⟩
    · intro u s'
      by_cases e : u = v
      · subst e
        rw [Function.update_self]
        constructor
        · intro h; cases h; exact ⟨q.size, by simp [hq1], hl⟩
        · rintro ⟨i, hi, e⟩
          by_cases hc : i = q.size
          · subst hc; rw [hl] at e; cases e; rfl
          · have hi' : i < q.size := by simp only [hq1] at hi; omega
            rw [hn i hi'] at e
            exact absurd (congrArg Prod.fst e) (hno i hi')
      · rw [Function.update_of_ne e, h.rep.map]
        constructor
        · rintro ⟨i, hi, e'⟩; exact ⟨i, by simp only [hq1]; omega, by rw [hn i hi]; exact e'⟩
        · rintro ⟨i, hi, e'⟩
          by_cases hc : i = q.size
          · subst hc; rw [hl] at e'; cases e'; exact absurd rfl e
          · have hi' : i < q.size := by simp only [hq1] at hi; omega
            rw [hn i hi'] at e'; exact ⟨i, hi', e'⟩
  obtain ⟨a, b, -⟩ := fixUp_spec (q.size + 1) q1 q.size hr (by simp [hq1]) (by omega)
    (by
      intro j hj hjs hne
      have hjs' : j < q.size := by simp only [hq1] at hjs; omega
      have := parent_lt hj
      simp only [ok]
      rw [hn j hjs', hn _ (by omega)]
      exact h.heap j hj hjs')
    (by
      intro j hj hjs hpj _
      have := parent_lt hj
      simp only [hq1] at hjs; omega)
  exact ⟨a, b⟩

theorem update_good {q : PQ S} {m : Var → Option S} (h : Good q m) (v : Var) (s : S) :
    Good (q.update v s) (fun u => if u = v then (m v).map (fun _ => s) else m u) := by
  unfold update
  rcases hp : q.pos v with _ | i
  · simp only
    have hmv : m v = none := by
      rcases hm : m v with _ | s'
      · rfl
      · obtain ⟨j, hj, e⟩ := (h.rep.map v s').1 hm
        have := (h.rep.pos v (by simp) j).2 ⟨hj, by rw [e]⟩
        rw [hp] at this; cases this
    have : (fun u => if u = v then (m v).map (fun _ => s) else m u) = m := by
      funext u; split
      · rename_i e; rw [e, hmv]; rfl
      · rfl
    rw [this]; exact h
  · simp only
    obtain ⟨hi, hiv⟩ := (h.rep.pos v (by simp) i).1 hp
    have hmv : m v = some (q.node i).2 := (h.rep.map _ _).2 ⟨i, hi, by rw [← hiv]⟩
    set q1 : PQ S := ⟨q.size, Function.update q.node i ((q.node i).1, s), q.pos⟩ with hq1
    have hfst : ∀ j, (q1.node j).1 = (q.node j).1 := by
      intro j; simp only [hq1, Function.update_apply]; split
      · rename_i e; rw [e]
      · rfl
    have hne : ∀ j, j ≠ i → q1.node j = q.node j := fun j hj => Function.update_of_ne hj _ _
    have hself : q1.node i = ((q.node i).1, s) := Function.update_self _ _ _
    have hr : Rep (fun _ => False) q1 (fun u => if u = v then (m v).map (fun _ => s) else m u) := by
      refine ⟨?_, by simp, ?_⟩
      · intro u hu j
        rw [hfst]
        exact h.rep.pos u hu j
      · intro u s'
        by_cases e : u = v
        · subst e
          rw [if_pos rfl, hmv]
          simp only [Option.map_some, Option.some.injEq]
          constructor
          · rintro rfl; exact ⟨i, hi, by rw [hself, hiv]⟩
          · rintro ⟨j, hj, e⟩
            have : (q.node j).1 = (q.node i).1 := by rw [← hfst j, e, hiv]
            have hji := h.rep.inj hj hi this
            subst hji
            rw [hself] at e; exact congrArg Prod.snd e
        · rw [if_neg e, h.rep.map]
          constructor
          · rintro ⟨j, hj, e'⟩
            refine ⟨j, hj, ?_⟩
            rw [hne j (fun hji => e (by rw [← hiv, ← hji, e']))]; exact e'
          · rintro ⟨j, hj, e'⟩
            have : j ≠ i := by
              intro hji; apply e; rw [← hiv, ← hji, ← hfst j, e']
            rw [hne j this] at e'; exact ⟨j, hj, e'⟩
    have hup : ∀ a : Var × S, (q.node i).2 ≤ s → before a (q.node i) = false →
        before a (q1.node i) = false := by
      intro a hle ha
      rw [hself]
      simp only [before, Bool.or_eq_false_iff, decide_eq_false_iff_not, Bool.and_eq_false_iff,
        gt_iff_lt, not_lt] at ha ⊢
      refine ⟨le_trans ha.1 hle, ?_⟩
      rcases ha.2 with h1 | h1
      · left; intro e
        exact h1 (le_antisymm ha.1 (e ▸ hle))
      · exact Or.inr h1
    have hdown : ∀ a : Var × S, s < (q.node i).2 → before (q.node i) a = false →
        before (q1.node i) a = false := by
      intro a hlt ha
      rw [hself]
      simp only [before, Bool.or_eq_false_iff, decide_eq_false_iff_not, Bool.and_eq_false_iff,
        gt_iff_lt, not_lt] at ha ⊢
      have : s < a.2 := lt_of_lt_of_le hlt ha.1
      exact ⟨le_of_lt this, Or.inl (ne_of_lt this)⟩
    by_cases hle : (q.node i).2 ≤ s
    · rw [if_pos hle]
      obtain ⟨a, b, -⟩ := fixUp_spec (q.size + 1) q1 i hr hi (by omega)
        (by
          intro j hj hjs hji
          simp only [ok]
          rw [hne j hji]
          by_cases e : parent j = i
          · rw [e]; exact hup _ hle (e ▸ h.heap j hj hjs)
          · rw [hne _ e]; exact h.heap j hj hjs)
        (by
          intro j hj hjs hpj hpos
          have h3 := parent_lt hj
          have h4 := parent_lt hpos
          rw [hne j (by omega), hne _ (by omega)]
          have h5 := h.heap j hj hjs
          simp only [ok, hpj] at h5
          exact notBefore_trans h5 (h.heap i hpos hi))
      exact ⟨a, b⟩
    · rw [if_neg hle]
      have hlt : s < (q.node i).2 := lt_of_not_ge hle
      obtain ⟨a, b, c⟩ := fixDown_spec 0 q.size q1 i hr hi (by simp [hq1])
        (by
          intro j hj hjs _ hpj
          simp only [ok]
          rw [hne _ hpj]
          by_cases e : j = i
          · subst e; exact hdown _ hlt (h.heap j hj hjs)
          · rw [hne _ e]; exact h.heap j hj hjs)
        (by omega)
        (by
          intro j hj hjs hpj hpos _
          have h3 := parent_lt hj
          have h4 := parent_lt hpos
          rw [hne j (by omega), hne _ (by omega)]
          have h5 := h.heap j hj hjs
          simp only [ok, hpj] at h5
          exact notBefore_trans h5 (h.heap i hpos hi))
      exact ⟨a, fun j hj hjs => b j hj (c ▸ hjs) (by omega)⟩

theorem rescale_good {q : PQ S} {m : Var → Option S} (h : Good q m) (f : S → S) :
    Good (q.rescale f) (fun u => (m u).map f) := by
  unfold rescale
  set q1 : PQ S := ⟨q.size, fun i => ((q.node i).1, f (q.node i).2), q.pos⟩ with hq1
  have hr : Rep (fun _ => False) q1 (fun u => (m u).map f) := by
    refine ⟨fun u hu j => h.rep.pos u hu j, by simp, ?_⟩
    intro u s'
    simp only [Option.map_eq_some_iff]
    constructor
    · rintro ⟨s, hs, rfl⟩
      obtain ⟨i, hi, e⟩ := (h.rep.map u s).1 hs
      exact ⟨i, hi, by simp only [hq1, e]⟩
    · rintro ⟨i, hi, e⟩
      simp only [hq1, Prod.mk.injEq] at e
      exact ⟨(q.node i).2, (h.rep.map _ _).2 ⟨i, hi, by rw [← e.1]⟩, e.2⟩
  simp only
  split
  · rename_i hpos
    obtain ⟨a, b, -⟩ := heapify_spec ((q.size - 1) / 4) q1 hr (by simp only [hq1]; omega)
      (by
        intro j hj hjs hk
        simp only [parent, if_pos hj] at hk
        simp only [hq1] at hjs
        omega)
    exact ⟨a, b⟩
  · rename_i hpos
    refine ⟨hr, ?_⟩
    intro j hj hjs
    simp only [hq1] at hjs; omega

theorem pop_good {q : PQ S} {m : Var → Option S} (h : Good q m) (hs : 0 < q.size) :
    Good q.pop (Function.update m q.top none) := by
  unfold pop top
  set v := (q.node 0).1 with hv
  have hsw := swap_rep h.rep hs (show q.size - 1 < q.size by omega)
  have hn := swap_node q 0 (q.size - 1)
  set q2 : PQ S := { q.swap 0 (q.size - 1) with size := (q.swap 0 (q.size - 1)).size - 1 } with hq2
  have hq2s : q2.size = q.size - 1 := rfl
  have hq2n : ∀ i, i < q.size - 1 → q2.node i = if i = 0 then q.node (q.size - 1) else q.node i := by
    intro i hi
    show (q.swap 0 (q.size - 1)).node i = _
    rw [hn, if_neg (show i ≠ q.size - 1 by omega)]
  have hlast : (q.swap 0 (q.size - 1)).node (q.size - 1) = q.node 0 := by rw [hn]; simp
  have hnov : ∀ i, i < q.size - 1 → (q2.node i).1 ≠ v := by
    intro i hi e
    have h1 : i < (q.swap 0 (q.size - 1)).size := by rw [swap_size]; omega
    have := hsw.inj h1 (show q.size - 1 < (q.swap 0 (q.size - 1)).size by rw [swap_size]; omega)
      (by rw [hlast]; exact e)
    omega
  have hr : Rep (fun u => u = v) q2 (Function.update m v none) := by
    refine ⟨?_, ?_, ?_⟩
    · intro u hu i
      show (q.swap 0 (q.size - 1)).pos u = some i ↔ _
      rw [hsw.pos u (by simp) i, swap_size, hq2s]
      constructor
      · rintro ⟨hi, e⟩
        refine ⟨?_, e⟩
        by_contra hc
        have : i = q.size - 1 := by omega
        rw [this, hlast] at e
        exact hu e.symm
      · rintro ⟨hi, e⟩; exact ⟨by omega, e⟩
    · intro i hi e; exact hnov i hi e
    · intro u s
      by_cases e : u = v
      · subst e
        rw [Function.update_self]
        constructor
        · intro h; cases h
        · rintro ⟨i, hi, e⟩; exact absurd (congrArg Prod.fst e) (hnov i hi)
      · rw [Function.update_of_ne e, hsw.map]
        constructor
        · rintro ⟨i, hi, e'⟩
          rw [swap_size] at hi
          refine ⟨i, ?_, e'⟩
          rw [hq2s]
          by_contra hc
          have : i = q.size - 1 := by omega
          rw [this, hlast] at e'
          apply e; rw [hv, e']
        · rintro ⟨i, hi, e'⟩
          exact ⟨i, by rw [swap_size]; rw [hq2s] at hi; omega, e'⟩
  simp only
  -- the heap is repaired
  obtain ⟨a, b, c⟩ : Rep (fun u => u = v) (if q2.size > 0 then fixDown q2.size q2 0 else q2)
        (Function.update m v none) ∧
      (∀ j, 0 < j → j < q2.size → ok (if q2.size > 0 then fixDown q2.size q2 0 else q2) j) ∧
      (if q2.size > 0 then fixDown q2.size q2 0 else q2).size = q2.size := by
    split
    · rename_i hpos
      obtain ⟨a, b, c⟩ := fixDown_spec 0 q2.size q2 0 hr hpos (by omega)
        (by
          intro j hj hjs _ hpj
          simp only [ok]
          have hlt := parent_lt hj
          rw [hq2s] at hjs
          rw [hq2n j hjs, hq2n _ (by omega), if_neg (by omega), if_neg hpj]
          exact h.heap j hj (by omega))
        (by omega) (by intro _ _ _ _ h; omega)
      exact ⟨a, fun j hj hjs => b j hj hjs (by omega), c⟩
    · exact ⟨hr, fun j hj hjs => by omega, rfl⟩
  set q3 := (if q2.size > 0 then fixDown q2.size q2 0 else q2) with hq3
  refine ⟨⟨?_, by simp, a.map⟩, ?_⟩
  · intro u _ i
    show Function.update q3.pos v none u = some i ↔ _
    by_cases e : u = v
    · subst e
      rw [Function.update_self]
      constructor
      · intro h; cases h
      · rintro ⟨hi, e⟩; exact absurd e (a.notE i hi)
    · rw [Function.update_of_ne e]; exact a.pos u e i
  · intro j hj hjs
    exact b j hj (c ▸ hjs)

theorem size_pos_iff {q : PQ S} {m : Var → Option S} (h : Good q m) : 0 < q.size ↔ ∃ v, m v ≠ none := by
  constructor
  · intro hs
    refine ⟨(q.node 0).1, ?_⟩
    rw [(h.rep.map _ _).2 ⟨0, hs, rfl⟩]; simp
  · rintro ⟨v, hv⟩
    obtain ⟨s, hs⟩ := Option.ne_none_iff_exists'.1 hv
    obtain ⟨i, hi, -⟩ := (h.rep.map v s).1 hs
    omega

theorem contains_iff {q : PQ S} {m : Var → Option S} (h : Good q m) (v : Var) :
    q.contains v = true ↔ m v ≠ none := by
  unfold contains
  constructor
  · intro hc
    obtain ⟨i, hi⟩ := Option.isSome_iff_exists.1 hc
    obtain ⟨h1, h2⟩ := (h.rep.pos v (by simp) i).1 hi
    rw [(h.rep.map v (q.node i).2).2 ⟨i, h1, by rw [← h2]⟩]; simp
  · intro hv
    obtain ⟨s, hs⟩ := Option.ne_none_iff_exists'.1 hv
    obtain ⟨i, hi, e⟩ := (h.rep.map v s).1 hs
    rw [(h.rep.pos v (by simp) i).2 ⟨hi, by rw [e]⟩]; rfl

/-! ### Membership view -/

/-- The queue is well formed. -/
def Ok (q : PQ S) : Prop := ∃ m, Good q m

theorem empty_ok (d : Var × S) : Ok (empty d) := ⟨_, empty_good d⟩

theorem push_ok {q : PQ S} (h : Ok q) (v : Var) (s : S) (hv : q.contains v = false) :
    Ok (q.push v s) ∧ ∀ u, (q.push v s).contains u = true ↔ u = v ∨ q.contains u = true := by
  obtain ⟨m, h⟩ := h
  have hm : m v = none := by
    by_contra hc
    rw [(contains_iff h v).2 hc] at hv; cases hv
  have h' := push_good h v s hm
  refine ⟨⟨_, h'⟩, fun u => ?_⟩
  rw [contains_iff h', contains_iff h, Function.update_apply]
  split
  · rename_i e; simp [e]
  · rename_i e; simp [e]

theorem update_ok {q : PQ S} (h : Ok q) (v : Var) (s : S) :
    Ok (q.update v s) ∧ ∀ u, (q.update v s).contains u = q.contains u := by
  obtain ⟨m, h⟩ := h
  have h' := update_good h v s
  refine ⟨⟨_, h'⟩, fun u => ?_⟩
  rw [Bool.eq_iff_iff, contains_iff h', contains_iff h]
  split
  · rename_i e; subst e; simp
  · rfl

theorem rescale_ok {q : PQ S} (h : Ok q) (f : S → S) :
    Ok (q.rescale f) ∧ ∀ u, (q.rescale f).contains u = q.contains u := by
  obtain ⟨m, h⟩ := h
  have h' := rescale_good h f
  refine ⟨⟨_, h'⟩, fun u => ?_⟩
  rw [Bool.eq_iff_iff, contains_iff h', contains_iff h]
  simp

theorem pop_ok {q : PQ S} (h : Ok q) (hs : 0 < q.size) :
    Ok q.pop ∧ ∀ u, q.pop.contains u = true ↔ u ≠ q.top ∧ q.contains u = true := by
  obtain ⟨m, h⟩ := h
  have h' := pop_good h hs
  refine ⟨⟨_, h'⟩, fun u => ?_⟩
  rw [contains_iff h', contains_iff h, Function.update_apply]
  split
  · rename_i e; simp [e]
  · rename_i e; simp [e]

theorem contains_top {q : PQ S} (h : Ok q) (hs : 0 < q.size) : q.contains q.top = true := by
  obtain ⟨m, h⟩ := h
  rw [contains_iff h]
  show m (q.node 0).1 ≠ none
  rw [(h.rep.map _ _).2 ⟨0, hs, rfl⟩]; simp

theorem contains_size {q : PQ S} (h : Ok q) {v : Var} (hv : q.contains v = true) : 0 < q.size := by
  obtain ⟨m, h⟩ := h
  exact (size_pos_iff h).2 ⟨v, (contains_iff h v).1 hv⟩

end PQ
end Yaga
