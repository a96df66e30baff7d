import Verif.Proofs.PQueue

/-!
# C11: the variable priority queue refines a priority map

Specification: a finite map from variables to scores, with the obvious effect of every operation.
The theorem quantifies over all sequences of operations that respect the two asserted
preconditions (`push` only of an absent variable, `pop` only of a non-empty queue).
-/

namespace Yaga
namespace Spec
variable {S : Type} [LinearOrder S]

/-- Priority map. -/
abbrev PMap (S : Type) := Var → Option S

/-- `(v, s)` has to be taken out before `(w, t)`: higher score first, then smaller type, then
smaller ordinal number. -/
def precedes (v : Var) (s : S) (w : Var) (t : S) : Prop :=
  t < s ∨ (s = t ∧ (v.type.toNat < w.type.toNat ∨ (v.type = w.type ∧ v.ord < w.ord)))

/-- `v` is a stored variable that no stored variable precedes. -/
def isTop (m : PMap S) (v : Var) : Prop :=
  ∃ s, m v = some s ∧ ∀ w t, m w = some t → ¬ precedes w t v s

/-- Relation between an operation, the map before and the map after it. `pop` removes a top
variable. -/
inductive PStep : PMap S → QOp S → PMap S → Prop where
  | push (m v s) : m v = none → PStep m (.push v s) (fun u => if u = v then some s else m u)
  | pop (m v) : isTop m v → PStep m .pop (fun u => if u = v then none else m u)
  | update (m v s) : PStep m (.update v s) (fun u => if u = v then (m v).map (fun _ => s) else m u)
  | rescale (m f) : PStep m (.rescale f) (fun u => (m u).map f)

/-- A run of operations. -/
inductive PRun : PMap S → List (QOp S) → PMap S → Prop where
  | nil (m) : PRun m [] m
  | cons {m m' m'' : PMap S} {op ops} : PStep m op m' → PRun m' ops m'' → PRun m (op :: ops) m''

/-- Preconditions of the operations: asserts in Variable_priority_queue.cpp:16 and 25. -/
def pushable (m : PMap S) : QOp S → Prop
  | .push v _ => m v = none
  | .pop => ∃ v, m v ≠ none
  | _ => True

end Spec

open Spec
variable {S : Type} [LinearOrder S]

theorem PQ.not_precedes {a b : Var × S} (h : PQ.before a b = false) :
    ¬ Spec.precedes a.1 a.2 b.1 b.2 := by
  obtain ⟨⟨ta, oa⟩, sa⟩ := a
  obtain ⟨⟨tb, ob⟩, sb⟩ := b
  simp only [PQ.before, PQ.varBefore, Bool.or_eq_false_iff, decide_eq_false_iff_not,
    Bool.and_eq_false_iff, gt_iff_lt] at h
  rintro (h1 | ⟨h1, h2⟩)
  · exact h.1 h1
  · simp only at h1 h2
    rcases h.2 with h3 | h3
    · exact h3 h1
    · rcases h2 with h2 | ⟨h2, h4⟩
      · exact h3.1 h2
      · rcases h3.2 with h5 | h5
        · rw [h2] at h5; simp at h5
        · exact h5 h4

theorem PQ.top_isTop {q : PQ S} {m : PMap S} (h : PQ.Good q m) (hs : 0 < q.size) : isTop m q.top := by
  refine ⟨(q.node 0).2, (h.rep.map _ _).2 ⟨0, hs, rfl⟩, ?_⟩
  intro w t hw
  obtain ⟨i, hi, e⟩ := (h.rep.map w t).1 hw
  have := PQ.not_precedes (PQ.heap_root h.heap i hi)
  rw [e] at this
  exact this

theorem PQ.step_good {q : PQ S} {m : PMap S} (h : PQ.Good q m) (op : QOp S) (hp : pushable m op) :
    ∃ m', PStep m op m' ∧ PQ.Good (q.step op) m' := by
  cases op with
  | push v s =>
    refine ⟨_, .push m v s hp, ?_⟩
    have := PQ.push_good h v s hp
    have e : Function.update m v (some s) = fun u => if u = v then some s else m u := by
      funext u; rw [Function.update_apply]
    rw [e] at this; exact this
  | pop =>
    have hs := (PQ.size_pos_iff h).2 hp
    refine ⟨_, .pop m q.top (PQ.top_isTop h hs), ?_⟩
    have := PQ.pop_good h hs
    have e : Function.update m q.top none = fun u => if u = q.top then none else m u := by
      funext u; rw [Function.update_apply]
    rw [e] at this; exact this
  | update v s => exact ⟨_, .update m v s, PQ.update_good h v s⟩
  | rescale f => exact ⟨_, .rescale m f, PQ.rescale_good h f⟩

/-- The preconditions hold along the run of `ops` from `q`, judged on the queue itself:
`push` only if `contains` is false, `pop` only if the queue is not empty. -/
def PQ.Legal (q : PQ S) : List (QOp S) → Prop
  | [] => True
  | op :: ops =>
    (match op with
      | .push v _ => q.contains v = false
      | .pop => 0 < q.size
      | _ => True) ∧ PQ.Legal (q.step op) ops

theorem PQ.run_good (ops : List (QOp S)) (q : PQ S) (m : PMap S) (h : PQ.Good q m)
    (hl : PQ.Legal q ops) : ∃ m', PRun m ops m' ∧ PQ.Good (ops.foldl PQ.step q) m' := by
  induction ops generalizing q m with
  | nil => exact ⟨m, .nil m, h⟩
  | cons op ops ih =>
    have hp : pushable m op := by
      cases op with
      | push v s =>
        by_contra hc
        have := (PQ.contains_iff h v).2 hc
        rw [hl.1] at this; cases this
      | pop => exact (PQ.size_pos_iff h).1 hl.1
      | _ => trivial
    obtain ⟨m1, h1, h2⟩ := PQ.step_good h op hp
    obtain ⟨m2, h3, h4⟩ := ih _ _ h2 hl.2
    exact ⟨m2, .cons h1 h3, h4⟩

/-- **C11.** After every legal sequence of operations the queue agrees with a run of the priority
map: the stored nodes are exactly the entries of the map, each stored once, `contains` is
membership, the queue is empty iff the map is, and `top` is a variable that no other stored
variable precedes. -/
theorem C11_priority_map (d : Var × S) (ops : List (QOp S)) (hl : PQ.Legal (PQ.empty d) ops) :
    ∃ m : PMap S, PRun (fun _ => none) ops m ∧
      let q := ops.foldl PQ.step (PQ.empty d)
      (∀ v s, m v = some s ↔ ∃ i, i < q.size ∧ q.node i = (v, s)) ∧
      (∀ i j, i < q.size → j < q.size → (q.node i).1 = (q.node j).1 → i = j) ∧
      (∀ v, q.contains v = true ↔ m v ≠ none) ∧
      (0 < q.size ↔ ∃ v, m v ≠ none) ∧
      (0 < q.size → isTop m q.top) := by
  obtain ⟨m, h1, h2⟩ := PQ.run_good ops _ _ (PQ.empty_good d) hl
  exact ⟨m, h1, h2.rep.map, fun i j hi hj e => h2.rep.inj hi hj e, PQ.contains_iff h2,
    PQ.size_pos_iff h2, PQ.top_isTop h2⟩

/-- `pop` removes what `top` returned. -/
theorem C11_pop_top (d : Var × S) (ops : List (QOp S)) (hl : PQ.Legal (PQ.empty d) ops) :
    let q := ops.foldl PQ.step (PQ.empty d)
    0 < q.size → q.pop.size = q.size - 1 ∧ q.pop.contains q.top = false ∧
      ∀ v, v ≠ q.top → q.pop.contains v = q.contains v := by
  intro q hs
  obtain ⟨m, -, h2⟩ := PQ.run_good ops _ _ (PQ.empty_good d) hl
  have h3 := PQ.pop_good h2 hs
  refine ⟨?_, ?_, ?_⟩
  · exact PQ.pop_size q
  · by_contra hc
    have := (PQ.contains_iff h3 q.top).1 (by simpa using hc)
    exact this (Function.update_self _ _ _)
  · intro v hv
    rw [Bool.eq_iff_iff, PQ.contains_iff h3, PQ.contains_iff h2, Function.update_of_ne hv]

/-- Non-vacuous: a legal sequence that exercises every operation. -/
example : PQ.Legal (PQ.empty (Var.bool 0, (0 : Nat)))
    [.push (.bool 0) 3, .push (.bool 1) 5, .push (.rat 0) 5, .pop, .update (.bool 0) 9,
      .rescale (· / 2), .push (.bool 1) 1] := by
  refine ⟨?_, ?_, ?_, ?_, trivial, trivial, ?_, trivial⟩ <;> decide

example : (([.push (.bool 0) 3, .push (.bool 1) 5, .push (.rat 0) 5, .pop, .update (.bool 0) 9,
      .rescale (· / 2), .push (.bool 1) 1] : List (QOp Nat)).foldl PQ.step
        (PQ.empty (Var.bool 0, 0))).top = Var.bool 0 := by decide

#print axioms C11_priority_map
#print axioms C11_pop_top

end Yaga
