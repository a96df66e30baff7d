/-
C91: the priority queue stays inside its vectors.
-/
import Verif.Proofs.QueueMemory
import Verif.Props.C11

namespace Yaga
open Spec
variable {S : Type} [LinearOrder S]

/-- At most one variable is on top of a priority map. -/
theorem Spec.isTop_unique {m : PMap S} {v w : Var} (hv : isTop m v) (hw : isTop m w) : v = w := by
  obtain ⟨s, h1, h2⟩ := hv
  obtain ⟨t, h3, h4⟩ := hw
  have a := h2 w t h3
  have b := h4 v s h1
  unfold precedes at a b
  have hst : s = t := le_antisymm (le_of_not_gt fun h => b (Or.inl h)) (le_of_not_gt fun h => a (Or.inl h))
  have ht : v.type.toNat = w.type.toNat := by
    rcases Nat.lt_trichotomy v.type.toNat w.type.toNat with h | h | h
    · exact absurd (Or.inr ⟨hst, Or.inl h⟩) b
    · exact h
    · exact absurd (Or.inr ⟨hst.symm, Or.inl h⟩) a
  have ht' := QMem.type_inj ht
  have ho : v.ord = w.ord := by
    rcases Nat.lt_trichotomy v.ord w.ord with h | h | h
    · exact absurd (Or.inr ⟨hst, Or.inr ⟨ht', h⟩⟩) b
    · exact h
    · exact absurd (Or.inr ⟨hst.symm, Or.inr ⟨ht'.symm, h⟩⟩) a
  cases v; cases w; simp_all

theorem Spec.PStep.det {m m1 m2 : PMap S} {op : QOp S} (h1 : PStep m op m1) (h2 : PStep m op m2) : m1 = m2 := by
  cases h1 with
  | push => cases h2; rfl
  | pop v hv => cases h2 with | pop w hw => rw [isTop_unique hv hw]
  | update => cases h2; rfl
  | rescale => cases h2; rfl

theorem Spec.PStep.pushable {m m1 : PMap S} {op : QOp S} (h : PStep m op m1) : pushable m op := by
  cases h with
  | push v s hv => exact hv
  | pop v hv => obtain ⟨s, h, -⟩ := hv; exact ⟨v, by rw [h]; simp⟩
  | update => trivial
  | rescale => trivial

namespace QMem

/-- One operation. -/
theorem step_sim {D : Var → Prop} {mem : QMem S} {q : PQ S} {m : PMap S} (h : Sim D mem q) (hg : PQ.Good q m)
    (op : QOp S) (hp : pushable m op) :
    ∃ mem' m', mem.step op = some mem' ∧ Sim D mem' (q.step op) ∧ PStep m op m' ∧ PQ.Good (q.step op) m' := by
  obtain ⟨m', h1, h2⟩ := PQ.step_good hg op hp
  have hs : ∃ mem', mem.step op = some mem' ∧ Sim D mem' (q.step op) := by
    cases op with
    | push v s =>
      refine push_sim h ?_ s
      have : q.contains v = false := by
        by_contra hc
        exact (PQ.contains_iff hg v).1 (by simpa using hc) hp
      simpa [PQ.contains] using this
    | pop => exact pop_sim h ((PQ.size_pos_iff hg).2 hp)
    | update v s => exact update_sim h (fun u i hu => ((hg.rep.pos u (by simp) i).1 hu).1) v s
    | rescale f => exact rescale_sim h f
  obtain ⟨mem', e1, e2⟩ := hs
  exact ⟨mem', m', e1, e2, h1, h2⟩

theorem step_none {D : Var → Prop} {mem : QMem S} {q : PQ S} {m : PMap S} (h : Sim D mem q) (hg : PQ.Good q m)
    (op : QOp S) (hp : ¬ pushable m op) : mem.step op = none := by
  cases op with
  | push v s =>
    refine push_none h ?_ s
    have : q.contains v = true := (PQ.contains_iff hg v).2 hp
    intro e
    simp [PQ.contains, e] at this
  | pop =>
    refine pop_none h ?_
    by_contra hc
    exact hp ((PQ.size_pos_iff hg).1 (by omega))
  | update v s => exact absurd trivial hp
  | rescale f => exact absurd trivial hp

theorem run_spec {D : Var → Prop} : ∀ (ops : List (QOp S)) (mem : QMem S) (q : PQ S) (m : PMap S), Sim D mem q →
    PQ.Good q m →
    (∀ mem', run ops mem = some mem' → ∃ q' m', PRun m ops m' ∧ Sim D mem' q' ∧ PQ.Good q' m') ∧
    ((∃ m', PRun m ops m') → ∃ mem', run ops mem = some mem')
  | [], mem, q, m, h, hg => by
    refine ⟨fun mem' e => ?_, fun _ => ⟨mem, rfl⟩⟩
    obtain rfl : mem = mem' := by simpa [run] using e
    exact ⟨q, m, .nil m, h, hg⟩
  | op :: ops, mem, q, m, h, hg => by
    unfold run
    by_cases hp : pushable m op
    · obtain ⟨mem1, m1, e1, e2, e3, e4⟩ := step_sim h hg op hp
      obtain ⟨k1, k2⟩ := run_spec ops mem1 _ m1 e2 e4
      rw [e1]
      simp only [Option.bind_some]
      refine ⟨fun mem' e => ?_, fun ⟨m', hm'⟩ => ?_⟩
      · obtain ⟨q', m', g1, g2, g3⟩ := k1 mem' e
        exact ⟨q', m', .cons e3 g1, g2, g3⟩
      · cases hm' with
        | cons a b => exact k2 ⟨m', by rw [e3.det a]; exact b⟩
    · rw [step_none h hg op hp]
      refine ⟨fun mem' e => (Option.some_ne_none _ e.symm).elim, fun hm => ?_⟩
      obtain ⟨m', hm'⟩ := hm
      cases hm' with
      | cons a b => exact absurd a.pushable hp

end QMem

/-- C91, no failure: a sequence of operations that keeps the two preconditions (no variable is pushed twice, nothing is
taken from an empty queue) fails no assertion and stays inside the vectors `pq` and `position`, and all loops end. A
sequence that does not keep them fails an assertion. -/
theorem C91_memory [Nonempty S] (ops : List (QOp S)) :
    (∃ mem, QMem.run ops (QMem.empty : QMem S) = some mem) ↔ ∃ m : PMap S, PRun (fun _ => none) ops m := by
  obtain ⟨s⟩ := ‹Nonempty S›
  obtain ⟨h1, h2⟩ := QMem.run_spec ops _ _ _ (QMem.empty_sim (.bool 0, s)) (PQ.empty_good _)
  refine ⟨fun ⟨mem, h⟩ => ?_, h2⟩
  obtain ⟨q, m, h3, -⟩ := h1 mem h
  exact ⟨m, h3⟩

/-- C91, contents: whenever a sequence of operations is executed, the vectors contain what the priority map contains:
`pq` has its entries, each variable once, `position` has the index of exactly the variables in `pq`, `contains` is
membership, and `top` fails only for the empty map and returns the variable that no other one precedes. -/
theorem C91_contents [Nonempty S] (ops : List (QOp S)) (mem : QMem S) (h : QMem.run ops (QMem.empty : QMem S) = some mem) :
    ∃ m : PMap S, PRun (fun _ => none) ops m ∧
      (∀ v s, m v = some s ↔ (v, s) ∈ mem.pq) ∧
      (∀ i j : Nat, ∀ a b : Var × S, mem.pq[i]? = some a → mem.pq[j]? = some b → a.1 = b.1 → i = j) ∧
      (∀ v i, mem.find v = some i ↔ ∃ s, mem.pq[i]? = some (v, s)) ∧
      (∀ v, mem.contains v = true ↔ m v ≠ none) ∧
      (mem.top = none ↔ ∀ v, m v = none) ∧ ∀ v, mem.top = some v → isTop m v := by
  obtain ⟨s⟩ := ‹Nonempty S›
  obtain ⟨q, m, h1, h2, h3⟩ :=
    (QMem.run_spec ops _ _ _ (QMem.empty_sim (.bool 0, s)) (PQ.empty_good _)).1 mem h
  have hget : ∀ (i : Nat) (a : Var × S), mem.pq[i]? = some a ↔ i < q.size ∧ q.node i = a := by
    intro i a
    by_cases hi : i < q.size
    · rw [h2.node i hi]; simp [hi]
    · rw [List.getElem?_eq_none (by rw [h2.len]; omega)]; simp [hi]
  have htop : mem.top = if 0 < q.size then some q.top else none := by
    unfold QMem.top
    rw [List.head?_eq_getElem?]
    split_ifs with h0
    · rw [h2.node 0 h0]; rfl
    · rw [List.getElem?_eq_none (by rw [h2.len]; omega)]; rfl
  refine ⟨m, h1, fun v t => ?_, fun i j a b hi hj e => ?_, fun v i => ?_, fun v => ?_, ?_, fun v hv => ?_⟩
  · rw [h3.rep.map, List.mem_iff_getElem?]
    simp only [hget]
  · obtain ⟨k1, rfl⟩ := (hget i a).1 hi
    obtain ⟨k2, rfl⟩ := (hget j b).1 hj
    exact h3.rep.inj k1 k2 e
  · rw [QMem.find_eq h2, h3.rep.pos v (by simp)]
    constructor
    · rintro ⟨k1, rfl⟩
      exact ⟨(q.node i).2, (hget i _).2 ⟨k1, rfl⟩⟩
    · rintro ⟨t, ht⟩
      obtain ⟨k1, k2⟩ := (hget i _).1 ht
      exact ⟨k1, by rw [k2]⟩
  · rw [QMem.contains_eq h2]; exact PQ.contains_iff h3 v
  · rw [htop]
    have := PQ.size_pos_iff h3
    constructor
    · intro e v
      by_contra hv
      rw [if_pos (this.2 ⟨v, hv⟩)] at e; cases e
    · intro e
      rw [if_neg]
      intro h0
      obtain ⟨v, hv⟩ := this.1 h0
      exact hv (e v)
  · rw [htop] at hv
    split_ifs at hv with h0
    obtain rfl := Option.some.inj hv
    exact PQ.top_isTop h3 h0

/-- A sequence that uses every operation; the fifth variable makes the heap two levels deep. -/
def QMem.exOps : List (QOp Nat) :=
  [.push (.bool 0) 3, .push (.bool 1) 5, .push (.rat 2) 5, .push (.bool 4) 1, .push (.bool 2) 2, .push (.rat 0) 9,
    .pop, .update (.bool 4) 9, .rescale (· / 4), .push (.rat 0) 1, .update (.bool 3) 7]

/-- Not vacuous: the sequence is executed; the vector of positions has cells that are missing. -/
example : (QMem.run QMem.exOps QMem.empty).map (fun m => (m.pq, m.position, m.top)) =
    some ([(.bool 4, 2), (.rat 0, 1), (.rat 2, 1), (.bool 1, 1), (.bool 2, 0), (.bool 0, 0)],
      [[5, 3, 4, -1, 0], [1, -1, 2]], some (.bool 4)) := by decide +kernel

/-- The assertions are there: a variable pushed twice and an empty queue are noticed. -/
example : (QMem.run [.push (.bool 0) 3, .push (.bool 0) 3] (QMem.empty : QMem Nat)).isNone = true ∧
    (QMem.run [.push (.bool 0) 3, .pop, .pop] (QMem.empty : QMem Nat)).isNone = true := by decide +kernel

#print axioms C91_memory
#print axioms C91_contents

end Yaga
