/-
Invariant of the connections between the parts of a solver.
-/
import Verif.Spec.Wiring
import Verif.Proofs.Std
import Mathlib.Data.List.Nodup
import Mathlib.Data.List.Basic

namespace Yaga
namespace Wiring
open Spec

/-! ### Positions -/

theorem positions_snoc (p : Op → Bool) (ops : List Op) (op : Op) :
    positions p (ops ++ [op]) = positions p ops ++ if p op then [ops.length + 1] else [] := by
  unfold positions
  rw [List.length_append, List.length_singleton, List.range_succ, List.filter_append, List.map_append]
  congr 1
  · congr 1
    apply List.filter_congr
    intro i hi
    rw [List.getElem?_append_left (List.mem_range.mp hi)]
  · simp only [List.filter_singleton, List.getElem?_concat_length, Option.any_some]
    split <;> simp [*]

theorem mem_positions {p : Op → Bool} {ops : List Op} {k : Nat} (h : k ∈ positions p ops) :
    0 < k ∧ k ≤ ops.length ∧ ∃ op, ops[k - 1]? = some op ∧ p op = true := by
  unfold positions at h
  obtain ⟨i, hi, rfl⟩ := List.mem_map.mp h
  obtain ⟨h1, h2⟩ := List.mem_filter.mp hi
  have := List.mem_range.mp h1
  refine ⟨by omega, by omega, ?_⟩
  rw [show i + 1 - 1 = i from rfl]
  cases ho : ops[i]? with
  | none => rw [ho] at h2; simp at h2
  | some op => rw [ho] at h2; exact ⟨op, rfl, by simpa using h2⟩

theorem lastOf_snoc (p : Op → Bool) (ops : List Op) (op : Op) :
    lastOf p (ops ++ [op]) = if p op then some (ops.length + 1) else lastOf p ops := by
  unfold lastOf
  rw [positions_snoc]
  split <;> simp

theorem mem_lastOf {p : Op → Bool} {ops : List Op} {k : Nat} (h : lastOf p ops = some k) :
    0 < k ∧ k ≤ ops.length ∧ ∃ op, ops[k - 1]? = some op ∧ p op = true :=
  mem_positions (List.mem_of_getLast? h)

/-- The combination or object that the calls made. -/
def nodeOf (p : Op → Bool) (comb add : Op) (ops : List Op) : Option Node :=
  (lastOf p ops).map fun k =>
    if ops[k - 1]? = some comb then .comb k ((positions (· = add) ops).filter (k < ·)) else .plain k

theorem nodeOf_id (p : Op → Bool) (comb add : Op) (ops : List Op) :
    (nodeOf p comb add ops).map Node.id = lastOf p ops := by
  unfold nodeOf
  cases lastOf p ops with
  | none => rfl
  | some k => simp only [Option.map_some]; split <;> rfl

/-- A call that is not about the node does not change it. -/
theorem nodeOf_skip {p : Op → Bool} {comb add : Op} {ops : List Op} {op : Op} (h1 : p op = false) (h2 : op ≠ add) :
    nodeOf p comb add (ops ++ [op]) = nodeOf p comb add ops := by
  unfold nodeOf
  rw [lastOf_snoc, h1, positions_snoc]
  simp only [Bool.false_eq_true, if_false, decide_eq_true_eq, h2, List.append_nil]
  cases hk : lastOf p ops with
  | none => rfl
  | some k =>
    obtain ⟨a, b, -⟩ := mem_lastOf hk
    simp only [Option.map_some]
    rw [List.getElem?_append_left (by omega)]

theorem nodeOf_set {p : Op → Bool} {comb add : Op} {ops : List Op} {op : Op} (h1 : p op = true) (h2 : op ≠ add) :
    nodeOf p comb add (ops ++ [op]) =
      some (if op = comb then .comb (ops.length + 1) [] else .plain (ops.length + 1)) := by
  unfold nodeOf
  rw [lastOf_snoc, h1, positions_snoc]
  simp only [if_true, decide_eq_true_eq, h2, if_false, List.append_nil, Option.map_some, Option.some.injEq]
  rw [show ops.length + 1 - 1 = ops.length from rfl, List.getElem?_concat_length]
  have hn : (positions (· = add) ops).filter (ops.length + 1 < ·) = [] := by
    rw [List.filter_eq_nil_iff]
    intro k hk
    have := (mem_positions hk).2.1
    simp; omega
  simp only [Option.some.injEq]
  split
  · rw [hn]
  · rfl

theorem nodeOf_add {p : Op → Bool} {comb add : Op} {ops : List Op} (h1 : p add = false) {i : Nat} {subs : List Nat}
    (h : nodeOf p comb add ops = some (.comb i subs)) :
    nodeOf p comb add (ops ++ [add]) = some (.comb i (subs ++ [ops.length + 1])) := by
  unfold nodeOf at h ⊢
  rw [lastOf_snoc, h1, positions_snoc]
  simp only [Bool.false_eq_true, if_false, decide_true, if_true]
  cases hk : lastOf p ops with
  | none => rw [hk] at h; cases h
  | some k =>
    obtain ⟨a, b, -⟩ := mem_lastOf hk
    rw [hk] at h
    simp only [Option.map_some, Option.some.injEq] at h ⊢
    rw [List.getElem?_append_left (by omega)]
    split at h
    · rename_i hc
      injection h with h3 h4
      subst h3 h4
      rw [if_pos hc, List.filter_append]
      congr 2
      simp; omega
    · cases h

/-! ### Delivery -/

/-- What the objects behind a listener receive. -/
def recv (th od : Option Node) (e : Ev) (l : Nat) : List (Nat × Ev) :=
  match th with
  | some (.comb i subs) => if i = l then subs.map fun x => (x, e) else recvO od e l
  | _ => recvO od e l
where
  recvO (od : Option Node) (e : Ev) (l : Nat) : List (Nat × Ev) :=
    match od with
    | some (.comb i subs) => if i = l then subs.map fun x => (x, e.combined) else [(l, e)]
    | _ => [(l, e)]

/-- `current_num_vars` after an event. -/
def numsAfter (th : Option Node) (ls : List Nat) (f : VType → Nat) (e : Ev) : VType → Nat :=
  match th, e with
  | some (.comb i _), .resize ty n => if i ∈ ls then Function.update f ty n else f
  | _, _ => f

theorem notify_eq (e : Ev) (s : State) (l : Nat) :
    notify e s l = { s with log := s.log ++ recv s.theory s.order e l, nums := numsAfter s.theory [l] s.nums e } := by
  have ho : notify.notifyOrder e s l = { s with log := s.log ++ recv.recvO s.order e l } := by
    unfold notify.notifyOrder recv.recvO
    cases hod : s.order with
    | none => simp
    | some nd =>
      cases nd with
      | plain i => simp
      | comb i subs => simp only; split <;> simp
  unfold notify recv numsAfter
  cases hth : s.theory with
  | none => simp only [ho, hth]
  | some nd =>
    cases nd with
    | plain i => simp only [ho, hth]
    | comb i subs =>
      simp only [List.mem_singleton]
      by_cases hl : i = l
      · simp only [if_pos hl]
        cases e <;> simp [hl]
      · simp only [if_neg hl, ho]
        cases e <;> simp [hth, hl]

theorem dispatch_list (e : Ev) : ∀ (ls : List Nat) (s : State), ls.foldl (notify e) s =
    { s with log := s.log ++ ls.flatMap (recv s.theory s.order e), nums := numsAfter s.theory ls s.nums e }
  | [], s => by
    simp only [List.foldl_nil, List.flatMap_nil, List.append_nil, numsAfter]
    split <;> simp
  | l :: ls, s => by
    rw [List.foldl_cons, dispatch_list e ls, notify_eq]
    simp only [List.flatMap_cons, List.append_assoc, State.mk.injEq, true_and, and_true]
    unfold numsAfter
    cases s.theory with
    | none => rfl
    | some nd =>
      cases nd with
      | plain i => rfl
      | comb i subs =>
        cases e with
        | resize ty n =>
          simp only [List.mem_cons]
          by_cases h1 : i = l <;> by_cases h2 : i ∈ ls <;> simp [h1, h2]
        | _ => rfl

theorem dispatch_eq (s : State) (e : Ev) : dispatch s e =
    { s with
      log := s.log ++ s.listeners.flatMap (recv s.theory s.order e)
      nums := numsAfter s.theory s.listeners s.nums e } := dispatch_list e _ _

/-! ### The invariant -/

/-- The listeners: subsumption, theory, restart policy and variable order. -/
def ids (s : State) : List Nat :=
  0 :: ((s.theory.map Node.id).toList ++ s.restart.toList ++ (s.order.map Node.id).toList)

structure Inv (ops : List Op) (s : State) : Prop where
  clock : s.clock = ops.length
  theory : s.theory = nodeOf isSetTheory (.setTheory true) .addTheory ops
  order : s.order = nodeOf isSetOrder (.setOrder true) .addOrder ops
  restart : s.restart = lastOf (· = .setRestart) ops
  models : s.models = varCount ops
  perm : s.listeners.Perm (ids s)
  first : s.listeners.head? = some 0
  nums : ∀ i subs, s.theory = some (.comb i subs) → ∀ ty, s.nums ty = (s.models ty).getD 0
  old : ∀ x ∈ s.log, x.1 ≤ s.clock
  zero : ∀ ty, told s.log 0 ty = s.models ty
  tells : ∀ l ∈ theories ops, ∀ ty, (told s.log l ty).getD 0 = (s.models ty).getD 0

theorem theories_eq (ops : List Op) : theories ops =
    match nodeOf isSetTheory (.setTheory true) .addTheory ops with
    | none => []
    | some (.plain k) => [k]
    | some (.comb _ subs) => subs := by
  unfold theories nodeOf
  cases lastOf isSetTheory ops with
  | none => rfl
  | some k => simp only [Option.map_some]; split <;> rfl

theorem orders_eq (ops : List Op) : plainOrder ops =
    (match nodeOf isSetOrder (.setOrder true) .addOrder ops with
    | some (.plain k) => [k]
    | _ => []) ∧ combinedOrders ops =
    match nodeOf isSetOrder (.setOrder true) .addOrder ops with
    | some (.comb _ subs) => subs
    | _ => [] := by
  unfold plainOrder combinedOrders nodeOf
  cases lastOf isSetOrder ops with
  | none => exact ⟨rfl, rfl⟩
  | some k => simp only [Option.map_some]; split <;> exact ⟨rfl, rfl⟩

theorem ids_eq {ops : List Op} {s : State} (h : Inv ops s) : ids s =
    0 :: ((lastOf isSetTheory ops).toList ++ (lastOf (· = .setRestart) ops).toList ++ (lastOf isSetOrder ops).toList) := by
  unfold ids
  rw [h.theory, h.order, h.restart, nodeOf_id, nodeOf_id]

/-- Different objects have different numbers. -/
theorem differ {p q : Op → Bool} (h : ∀ op, p op = true → q op = true → False) {ops : List Op} {i : Nat}
    (h1 : lastOf p ops = some i) (h2 : lastOf q ops = some i) : False := by
  obtain ⟨-, -, a, ha, hp⟩ := mem_lastOf h1
  obtain ⟨-, -, b, hb, hq⟩ := mem_lastOf h2
  rw [ha] at hb
  cases hb
  exact h a hp hq

theorem disj_tr : ∀ op, isSetTheory op = true → decide (op = .setRestart) = true → False := by
  rintro (_ | _ | _ | _ | _ | _ | _ | _ | _) <;> simp [isSetTheory]

theorem disj_to : ∀ op, isSetTheory op = true → isSetOrder op = true → False := by
  rintro (_ | _ | _ | _ | _ | _ | _ | _ | _) <;> simp [isSetTheory, isSetOrder]

theorem disj_ro : ∀ op, decide (op = .setRestart) = true → isSetOrder op = true → False := by
  rintro (_ | _ | _ | _ | _ | _ | _ | _ | _) <;> simp [isSetOrder]

theorem ids_nodup {ops : List Op} {s : State} (h : Inv ops s) : (ids s).Nodup := by
  rw [ids_eq h]
  have p1 : ∀ i, lastOf isSetTheory ops = some i → 0 < i := fun i h => (mem_lastOf h).1
  have p2 : ∀ i, lastOf (· = .setRestart) ops = some i → 0 < i := fun i h => (mem_lastOf h).1
  have p3 : ∀ i, lastOf isSetOrder ops = some i → 0 < i := fun i h => (mem_lastOf h).1
  have d1 : ∀ i, lastOf isSetTheory ops = some i → ∀ j, lastOf (· = .setRestart) ops = some j → i ≠ j :=
    fun i h j h' e => differ disj_tr h (e ▸ h')
  have d2 : ∀ i, lastOf isSetTheory ops = some i → ∀ j, lastOf isSetOrder ops = some j → i ≠ j :=
    fun i h j h' e => differ disj_to h (e ▸ h')
  have d3 : ∀ i, lastOf (· = .setRestart) ops = some i → ∀ j, lastOf isSetOrder ops = some j → i ≠ j :=
    fun i h j h' e => differ disj_ro h (e ▸ h')
  clear h
  generalize lastOf isSetTheory ops = a at *
  generalize lastOf (· = .setRestart) ops = b at *
  generalize lastOf isSetOrder ops = c at *
  cases a <;> cases b <;> cases c <;> simp_all <;> omega

/-! ### What objects are told -/

theorem told_append (a b : List (Nat × Ev)) (l : Nat) (ty : VType) :
    told (a ++ b) l ty = (told b l ty).or (told a l ty) := by
  unfold told
  rw [List.filterMap_append, List.getLast?_append]

theorem told_none {a : List (Nat × Ev)} {l : Nat} {ty : VType} (h : ∀ n, (l, Ev.resize ty n) ∉ a) :
    told a l ty = none := by
  unfold told
  rw [List.getLast?_eq_none_iff, List.filterMap_eq_nil_iff]
  rintro ⟨l', e⟩ hx
  cases e with
  | resize ty' n =>
    simp only [ite_eq_right_iff, reduceCtorEq, imp_false]
    rintro ⟨rfl, rfl⟩
    exact h n hx
  | _ => rfl

theorem told_some {a : List (Nat × Ev)} {l : Nat} {ty : VType} {n : Nat} (hm : (l, Ev.resize ty n) ∈ a)
    (h : ∀ m, (l, Ev.resize ty m) ∈ a → m = n) : told a l ty = some n := by
  unfold told
  cases hg : List.getLast? _ with
  | none =>
    rw [List.getLast?_eq_none_iff, List.filterMap_eq_nil_iff] at hg
    have := hg _ hm
    simp at this
  | some m =>
    have := List.mem_of_getLast? hg
    obtain ⟨⟨l', e⟩, h1, h2⟩ := List.mem_filterMap.mp this
    cases e with
    | resize ty' k =>
      simp only [Option.ite_none_right_eq_some, Option.some.injEq] at h2
      obtain ⟨⟨rfl, rfl⟩, rfl⟩ := h2
      rw [h k h1]
    | _ => cases h2

theorem told_older {a : List (Nat × Ev)} {k l : Nat} (h : ∀ x ∈ a, x.1 ≤ k) (hl : k < l) (ty : VType) :
    told a l ty = none :=
  told_none fun n hn => by have := h _ hn; simp at this; omega

/-- The objects that receive an event, with what they receive. -/
def expected (ops : List Op) (e : Ev) : List (Nat × Ev) :=
  (0, e) :: ((theories ops).map (fun l => (l, e)) ++ (restartPolicy ops).map (fun l => (l, e)) ++
    (plainOrder ops).map (fun l => (l, e)) ++ (combinedOrders ops).map fun l => (l, e.combined))

theorem recv_ids {ops : List Op} {s : State} (h : Inv ops s) (e : Ev) :
    (ids s).flatMap (recv s.theory s.order e) = expected ops e := by
  have hnd := ids_nodup h
  unfold expected restartPolicy
  rw [theories_eq, (orders_eq ops).1, (orders_eq ops).2, ← h.theory, ← h.order, ← h.restart]
  unfold ids at hnd ⊢
  generalize s.theory = a at hnd ⊢
  generalize s.restart = b at hnd ⊢
  generalize s.order = c at hnd ⊢
  rcases a with _ | (_ | _) <;> rcases b with _ | _ <;> rcases c with _ | (_ | _) <;>
    simp_all [recv, recv.recvO, Node.id, eq_comm]

theorem recv_perm {ops : List Op} {s : State} (h : Inv ops s) (e : Ev) :
    (s.listeners.flatMap (recv s.theory s.order e)).Perm (expected ops e) := by
  rw [← recv_ids h e]
  exact h.perm.flatMap_right _

theorem theories_le {ops : List Op} {l : Nat} (h : l ∈ theories ops) : 0 < l ∧ l ≤ ops.length ∧
    ∃ op, ops[l - 1]? = some op ∧ (op = .addTheory ∨ isSetTheory op = true) := by
  unfold theories at h
  split at h
  · cases h
  · rename_i k hk
    split at h
    · obtain ⟨a, b, op, c, d⟩ := mem_positions (List.mem_filter.mp h).1
      exact ⟨a, b, op, c, .inl (by simpa using d)⟩
    · obtain rfl := List.mem_singleton.mp h
      obtain ⟨a, b, op, c, d⟩ := mem_lastOf hk
      exact ⟨a, b, op, c, .inr d⟩

theorem orders_le {ops : List Op} {l : Nat} (h : l ∈ plainOrder ops ∨ l ∈ combinedOrders ops) : 0 < l ∧
    l ≤ ops.length ∧ ∃ op, ops[l - 1]? = some op ∧ (op = .addOrder ∨ isSetOrder op = true) := by
  unfold plainOrder combinedOrders at h
  cases hk : lastOf isSetOrder ops with
  | none => rw [hk] at h; simp at h
  | some k =>
    rw [hk] at h
    simp only at h
    by_cases hc : ops[k - 1]? = some (.setOrder true)
    · rw [if_pos hc, if_pos hc] at h
      rcases h with h | h
      · cases h
      · obtain ⟨a, b, op, c, d⟩ := mem_positions (List.mem_filter.mp h).1
        exact ⟨a, b, op, c, .inl (by simpa using d)⟩
    · rw [if_neg hc, if_neg hc] at h
      rcases h with h | h
      · obtain rfl := List.mem_singleton.mp h
        obtain ⟨a, b, op, c, d⟩ := mem_lastOf hk
        exact ⟨a, b, op, c, .inr d⟩
      · cases h

theorem restart_le {ops : List Op} {l : Nat} (h : l ∈ restartPolicy ops) : 0 < l ∧ l ≤ ops.length ∧
    ops[l - 1]? = some .setRestart := by
  obtain ⟨a, b, op, c, d⟩ := mem_lastOf (Option.mem_toList.mp h)
  simp only [decide_eq_true_eq] at d
  exact ⟨a, b, d ▸ c⟩

theorem expected_mem {ops : List Op} {e : Ev} {x : Nat × Ev} (h : x ∈ expected ops e) :
    x.1 ≤ ops.length ∧ (x.2 = e ∨ x.2 = e.combined) := by
  unfold expected at h
  simp only [List.mem_cons, List.mem_append, List.mem_map] at h
  rcases h with rfl | ((⟨l, h, rfl⟩ | ⟨l, h, rfl⟩) | ⟨l, h, rfl⟩) | ⟨l, h, rfl⟩
  · exact ⟨Nat.zero_le _, .inl rfl⟩
  · exact ⟨(theories_le h).2.1, .inl rfl⟩
  · exact ⟨(restart_le h).2.1, .inl rfl⟩
  · exact ⟨(orders_le (.inl h)).2.1, .inl rfl⟩
  · exact ⟨(orders_le (.inr h)).2.1, .inr rfl⟩

/-! ### The invariant is kept -/

theorem told_resize {ops : List Op} {s : State} (h : Inv ops s) (ty : VType) (n l : Nat) (ty' : VType) :
    told (s.listeners.flatMap (recv s.theory s.order (.resize ty n))) l ty' =
      if ty' = ty ∧ (l = 0 ∨ l ∈ theories ops ∨ l ∈ restartPolicy ops ∨ l ∈ plainOrder ops ∨ l ∈ combinedOrders ops)
      then some n else none := by
  have hp := recv_perm h (.resize ty n)
  have hall : ∀ x ∈ s.listeners.flatMap (recv s.theory s.order (.resize ty n)), x.2 = .resize ty n := by
    intro x hx
    rcases (expected_mem (hp.subset hx)).2 with e | e <;> exact e
  split
  · rename_i hc
    obtain ⟨rfl, hl⟩ := hc
    refine told_some (hp.symm.subset ?_) fun m hm => ?_
    · unfold expected
      simp only [List.mem_cons, List.mem_append, List.mem_map, Ev.combined]
      rcases hl with rfl | hl | hl | hl | hl
      · exact .inl rfl
      · exact .inr (.inl (.inl (.inl ⟨l, hl, rfl⟩)))
      · exact .inr (.inl (.inl (.inr ⟨l, hl, rfl⟩)))
      · exact .inr (.inl (.inr ⟨l, hl, rfl⟩))
      · exact .inr (.inr ⟨l, hl, rfl⟩)
    · have := hall _ hm
      simp only [Ev.resize.injEq] at this
      exact this.2
  · rename_i hc
    refine told_none fun m hm => hc ?_
    have he := hall _ hm
    simp only [Ev.resize.injEq] at he
    obtain ⟨rfl, rfl⟩ := he
    refine ⟨rfl, ?_⟩
    have := hp.subset hm
    unfold expected at this
    simp only [List.mem_cons, List.mem_append, List.mem_map, Prod.mk.injEq] at this
    rcases this with ⟨rfl, -⟩ | ((⟨l', h, e, -⟩ | ⟨l', h, e, -⟩) | ⟨l', h, e, -⟩) | ⟨l', h, e, -⟩
    all_goals first
      | exact .inl rfl
      | (subst e; simp [h])

theorem inv_resize {ops ops' : List Op} {s : State} (h : Inv ops s) {k : Nat} {ty : VType} {n : Nat}
    (ht : nodeOf isSetTheory (.setTheory true) .addTheory ops' = nodeOf isSetTheory (.setTheory true) .addTheory ops)
    (ho : nodeOf isSetOrder (.setOrder true) .addOrder ops' = nodeOf isSetOrder (.setOrder true) .addOrder ops)
    (hr : lastOf (· = .setRestart) ops' = lastOf (· = .setRestart) ops) (hk : k = ops'.length) (hk' : s.clock ≤ k)
    (hm : varCount ops' = Function.update s.models ty (some n)) :
    Inv ops' (dispatch { s with clock := k, models := Function.update s.models ty (some n) } (.resize ty n)) := by
  rw [dispatch_eq]
  have hth : theories ops' = theories ops := by rw [theories_eq, theories_eq, ht]
  refine ⟨hk, ht ▸ h.theory, ho ▸ h.order, hr ▸ h.restart, hm.symm, h.perm, h.first, ?_, ?_, ?_, ?_⟩
  · intro i subs hi ty'
    simp only at hi ⊢
    unfold numsAfter
    have hmem : i ∈ s.listeners := h.perm.symm.subset (by unfold ids; rw [hi]; simp [Node.id])
    rw [hi]
    simp only [hmem, if_true]
    by_cases e : ty' = ty
    · subst e; simp
    · rw [Function.update_of_ne e, Function.update_of_ne e]; exact h.nums i subs hi ty'
  · intro x hx
    rcases List.mem_append.mp hx with hx | hx
    · exact (h.old x hx).trans hk'
    · have := (expected_mem ((recv_perm h _).subset hx)).1
      rw [h.clock] at hk'
      exact this.trans hk'
  · intro ty'
    simp only
    rw [told_append, told_resize h]
    by_cases e : ty' = ty
    · subst e; simp
    · rw [if_neg (by simp [e]), Function.update_of_ne e]; simpa using h.zero ty'
  · intro l hl ty'
    simp only
    rw [told_append, told_resize h]
    by_cases e : ty' = ty
    · subst e; rw [if_pos ⟨rfl, .inr (.inl (hth ▸ hl))⟩]; simp
    · rw [if_neg (by simp [e]), Function.update_of_ne e]; simpa using h.tells l (hth ▸ hl) ty'

theorem inv_event {ops : List Op} {s : State} (h : Inv ops s) {e : Ev} (he : ∀ ty n, e ≠ .resize ty n) :
    Inv ops (dispatch s e) := by
  have hc : ∀ ty n, e.combined ≠ .resize ty n := by cases e <;> simp [Ev.combined] at he ⊢
  have ht : ∀ l ty, told (s.listeners.flatMap (recv s.theory s.order e)) l ty = none := fun l ty =>
    told_none fun n hn => by
      rcases (expected_mem ((recv_perm h e).subset hn)).2 with h' | h'
      · exact he ty n h'.symm
      · exact hc ty n h'.symm
  rw [dispatch_eq]
  refine ⟨h.clock, h.theory, h.order, h.restart, h.models, h.perm, h.first, ?_, ?_, ?_, ?_⟩
  · intro i subs hi ty
    simp only at hi ⊢
    rw [show numsAfter s.theory s.listeners s.nums e = s.nums by
      unfold numsAfter; rw [hi]; cases e <;> first | rfl | exact absurd rfl (he _ _)]
    exact h.nums i subs hi ty
  · intro x hx
    rcases List.mem_append.mp hx with hx | hx
    · exact h.old x hx
    · rw [show (_ : State).clock = ops.length from h.clock]
      exact (expected_mem ((recv_perm h _).subset hx)).1
  · intro ty
    simp only
    rw [told_append, ht]; exact h.zero ty
  · intro l hl ty
    simp only
    rw [told_append, ht]; exact h.tells l hl ty

theorem varCount_snoc (ops : List Op) (op : Op) (ty : VType) : varCount (ops ++ [op]) ty =
    match op with
    | .setModel ty' n => if ty' = ty then some n else varCount ops ty
    | .resize ty' n => if ty' = ty then some n else varCount ops ty
    | _ => varCount ops ty := by
  unfold varCount
  rw [List.filterMap_append, List.getLast?_append]
  cases op <;> simp <;> split <;> simp

/-- A call that creates no object and no variables. -/
theorem inv_tick {ops : List Op} {s : State} (h : Inv ops s) {op : Op}
    (hop : op = .init ∨ ∃ e, op = .raise e) : Inv (ops ++ [op]) { s with clock := s.clock + 1 } := by
  have h1 : isSetTheory op = false := by rcases hop with rfl | ⟨e, rfl⟩ <;> rfl
  have h2 : isSetOrder op = false := by rcases hop with rfl | ⟨e, rfl⟩ <;> rfl
  have h3 : op ≠ .addTheory := by rcases hop with rfl | ⟨e, rfl⟩ <;> simp
  have h4 : op ≠ .addOrder := by rcases hop with rfl | ⟨e, rfl⟩ <;> simp
  have h5 : op ≠ .setRestart := by rcases hop with rfl | ⟨e, rfl⟩ <;> simp
  have hth : theories (ops ++ [op]) = theories ops := by rw [theories_eq, theories_eq, nodeOf_skip h1 h3]
  refine ⟨by simp [h.clock], by rw [nodeOf_skip h1 h3]; exact h.theory, by rw [nodeOf_skip h2 h4]; exact h.order,
    by rw [lastOf_snoc]; simpa [h5] using h.restart, ?_, h.perm, h.first, h.nums,
    fun x hx => (h.old x hx).trans (Nat.le_succ _), h.zero, fun l hl => h.tells l (hth ▸ hl)⟩
  show s.models = _
  rw [h.models]
  funext ty
  rw [varCount_snoc]
  rcases hop with rfl | ⟨e, rfl⟩ <;> rfl

theorem dispatch_same {s : State} {ty : VType} {n : Nat} (hm : s.models ty = some n) :
    dispatch s (.resize ty n) =
      dispatch { s with clock := s.clock, models := Function.update s.models ty (some n) } (.resize ty n) := by
  rw [← hm, Function.update_eq_self]

theorem inv_again {ops : List Op} {s : State} (h : Inv ops s) {ty : VType} {n : Nat} (hm : s.models ty = some n) :
    Inv ops (dispatch s (.resize ty n)) := by
  rw [dispatch_same hm]
  refine inv_resize h rfl rfl rfl h.clock (le_refl _) ?_
  rw [← hm, Function.update_eq_self, h.models]

theorem mem_allModels {s : State} {m : VType × Nat} : m ∈ allModels s ↔ s.models m.1 = some m.2 := by
  obtain ⟨ty, n⟩ := m
  unfold allModels
  simp only [List.mem_filterMap, List.mem_cons, List.not_mem_nil, or_false, Option.map_eq_some_iff, Prod.mk.injEq]
  constructor
  · rintro ⟨a, -, k, h, rfl, rfl⟩; exact h
  · intro h
    exact ⟨ty, by cases ty <;> simp, n, h, rfl, rfl⟩

theorem inv_models {ops : List Op} : ∀ (ms : List (VType × Nat)) {s : State}, Inv ops s →
    (∀ m ∈ ms, s.models m.1 = some m.2) → Inv ops (ms.foldl (fun s m => dispatch s (.resize m.1 m.2)) s) ∧
      (ms.foldl (fun s m => dispatch s (.resize m.1 m.2)) s).models = s.models
  | [], s, h, _ => ⟨h, rfl⟩
  | m :: ms, s, h, hm => by
    have h1 := inv_again h (hm m (by simp))
    have e : (dispatch s (.resize m.1 m.2)).models = s.models := by rw [dispatch_eq]
    obtain ⟨a, b⟩ := inv_models ms h1 (fun x hx => by rw [e]; exact hm x (by simp [hx]))
    exact ⟨a, b.trans e⟩

theorem perm_replace {s : State} {A B : List Nat} {x : Option Nat} {k : Nat}
    (h : s.listeners.Perm (A ++ x.toList ++ B)) : (unlink s x ++ [k]).Perm (A ++ [k] ++ B) := by
  have key : ∀ {m : List Nat}, m.Perm (A ++ B) → (m ++ [k]).Perm (A ++ [k] ++ B) := fun {m} hm => by
    refine (List.perm_append_singleton k m).trans ((hm.cons k).trans ?_)
    simpa using (List.perm_middle (a := k) (l₁ := A) (l₂ := B)).symm
  cases x with
  | none => exact key (by simpa [unlink] using h)
  | some i =>
    refine key ?_
    have h' : s.listeners.Perm (i :: (A ++ B)) := h.trans (by simp)
    simpa [unlink] using h'.erase i

theorem head_replace {s : State} {x : Option Nat} {k : Nat} (h : s.listeners.head? = some 0) (hx : x ≠ some 0) :
    (unlink s x ++ [k]).head? = some 0 := by
  unfold unlink
  generalize s.listeners = ls at h ⊢
  cases ls with
  | nil => cases h
  | cons a ls =>
    cases h
    cases x with
    | none => rfl
    | some i =>
      have : (0 : Nat) ≠ i := fun e => hx (by rw [e])
      simp [this]

theorem inv_setRestart {ops : List Op} {s : State} (h : Inv ops s) :
    Inv (ops ++ [.setRestart])
      { s with clock := s.clock + 1, listeners := unlink s s.restart ++ [s.clock + 1], restart := some (s.clock + 1) } := by
  have hth : theories (ops ++ [.setRestart]) = theories ops := by
    rw [theories_eq, theories_eq, nodeOf_skip rfl (by simp)]
  refine ⟨by simp [h.clock], by rw [nodeOf_skip rfl (by simp)]; exact h.theory,
    by rw [nodeOf_skip rfl (by simp)]; exact h.order, by rw [lastOf_snoc]; simp [h.clock], ?_, ?_, ?_, h.nums,
    fun x hx => (h.old x hx).trans (Nat.le_succ _), h.zero, fun l hl => h.tells l (hth ▸ hl)⟩
  · show s.models = _
    rw [h.models]; funext ty; rw [varCount_snoc]
  · have := h.perm
    unfold ids at this ⊢
    have := perm_replace (k := s.clock + 1) (A := 0 :: (s.theory.map Node.id).toList) (by simpa using this)
    simpa using this
  · refine head_replace h.first fun e => ?_
    rw [h.restart] at e
    exact absurd (mem_lastOf e).1 (by omega)

theorem inv_setOrder {ops : List Op} {s : State} (h : Inv ops s) (c : Bool) :
    Inv (ops ++ [.setOrder c])
      { s with
        clock := s.clock + 1
        listeners := unlink s (s.order.map Node.id) ++ [s.clock + 1]
        order := some (if c then .comb (s.clock + 1) [] else .plain (s.clock + 1)) } := by
  have hth : theories (ops ++ [.setOrder c]) = theories ops := by
    rw [theories_eq, theories_eq, nodeOf_skip rfl (by simp)]
  refine ⟨by simp [h.clock], by rw [nodeOf_skip rfl (by simp)]; exact h.theory,
    by rw [nodeOf_set rfl (by simp)]; cases c <;> simp [h.clock], by rw [lastOf_snoc]; simpa using h.restart, ?_, ?_,
    ?_, h.nums, fun x hx => (h.old x hx).trans (Nat.le_succ _), h.zero, fun l hl => h.tells l (hth ▸ hl)⟩
  · show s.models = _
    rw [h.models]; funext ty; rw [varCount_snoc]
  · have := h.perm
    unfold ids at this ⊢
    have := perm_replace (k := s.clock + 1) (A := 0 :: ((s.theory.map Node.id).toList ++ s.restart.toList)) (B := [])
      (by simpa using this)
    cases c <;> simpa [Node.id] using this
  · refine head_replace h.first fun e => ?_
    rw [h.order, nodeOf_id] at e
    exact absurd (mem_lastOf e).1 (by omega)

theorem inv_addOrder {ops : List Op} {s : State} (h : Inv ops s) {i : Nat} {subs : List Nat}
    (ho : s.order = some (.comb i subs)) :
    Inv (ops ++ [.addOrder])
      { s with clock := s.clock + 1, order := some (.comb i (subs ++ [s.clock + 1])) } := by
  have hth : theories (ops ++ [.addOrder]) = theories ops := by
    rw [theories_eq, theories_eq, nodeOf_skip rfl (by simp)]
  refine ⟨by simp [h.clock], by rw [nodeOf_skip rfl (by simp)]; exact h.theory,
    by rw [nodeOf_add rfl (h.order ▸ ho)]; simp [h.clock], by rw [lastOf_snoc]; simpa using h.restart, ?_, ?_,
    h.first, h.nums, fun x hx => (h.old x hx).trans (Nat.le_succ _), h.zero, fun l hl => h.tells l (hth ▸ hl)⟩
  · show s.models = _
    rw [h.models]; funext ty; rw [varCount_snoc]
  · have := h.perm
    unfold ids at this ⊢
    rw [ho] at this
    exact this

theorem told_models {s : State} {k : Nat} (ty : VType) :
    told ((allModels s).map fun m => (k, Ev.resize m.1 m.2)) k ty = s.models ty := by
  cases hm : s.models ty with
  | none =>
    refine told_none fun n hn => ?_
    obtain ⟨m, h1, h2⟩ := List.mem_map.mp hn
    simp only [Prod.mk.injEq, true_and, Ev.resize.injEq] at h2
    have := mem_allModels.mp h1
    rw [h2.1, hm] at this
    cases this
  | some n =>
    refine told_some (List.mem_map.mpr ⟨(ty, n), mem_allModels.mpr hm, rfl⟩) fun m hm' => ?_
    obtain ⟨x, h1, h2⟩ := List.mem_map.mp hm'
    simp only [Prod.mk.injEq, true_and, Ev.resize.injEq] at h2
    have := mem_allModels.mp h1
    rw [h2.1, hm, h2.2] at this
    simpa using this.symm

theorem nums_models (s : State) (ty : VType) :
    (allModels s).foldl (fun f m => Function.update f m.1 m.2) (fun _ => 0) ty = (s.models ty).getD 0 := by
  unfold allModels
  cases h1 : s.models .boolean <;> cases h2 : s.models .rational <;> cases ty <;> simp [h1, h2]

theorem inv_setTheory {ops : List Op} {s : State} (h : Inv ops s) (c : Bool) :
    Inv (ops ++ [.setTheory c])
      { s with
        clock := s.clock + 1
        listeners := unlink s (s.theory.map Node.id) ++ [s.clock + 1]
        theory := some (if c then .comb (s.clock + 1) [] else .plain (s.clock + 1))
        nums := if c then (allModels s).foldl (fun f m => Function.update f m.1 m.2) (fun _ => 0) else fun _ => 0
        log := if c then s.log else s.log ++ (allModels s).map fun m => (s.clock + 1, .resize m.1 m.2) } := by
  have hn : nodeOf isSetTheory (.setTheory true) .addTheory (ops ++ [.setTheory c]) =
      some (if c then .comb (s.clock + 1) [] else .plain (s.clock + 1)) := by
    rw [nodeOf_set rfl (by simp)]; cases c <;> simp [h.clock]
  have hold : ∀ ty, told s.log (s.clock + 1) ty = none := told_older h.old (by omega)
  have hother : ∀ ty, told ((allModels s).map fun m => (s.clock + 1, Ev.resize m.1 m.2)) 0 ty = none := fun ty =>
    told_none fun n hn => by
      obtain ⟨m, -, h2⟩ := List.mem_map.mp hn
      simp at h2
  refine ⟨by simp [h.clock], hn.symm, by rw [nodeOf_skip rfl (by simp)]; exact h.order,
    by rw [lastOf_snoc]; simpa using h.restart, ?_, ?_, ?_, ?_, ?_, ?_, ?_⟩
  · show s.models = _
    rw [h.models]; funext ty; rw [varCount_snoc]
  · have := h.perm
    unfold ids at this ⊢
    have := perm_replace (k := s.clock + 1) (A := [0]) (B := s.restart.toList ++ (s.order.map Node.id).toList)
      (by simpa using this)
    cases c <;> simpa [Node.id] using this
  · refine head_replace h.first fun e => ?_
    rw [h.theory, nodeOf_id] at e
    exact absurd (mem_lastOf e).1 (by omega)
  · intro i subs hi ty
    cases c
    · cases hi
    · exact nums_models s ty
  · intro x hx
    cases c
    · rcases List.mem_append.mp hx with hx | hx
      · exact (h.old x hx).trans (Nat.le_succ _)
      · obtain ⟨m, -, rfl⟩ := List.mem_map.mp hx
        exact le_refl _
    · exact (h.old x hx).trans (Nat.le_succ _)
  · intro ty
    cases c
    · show told (s.log ++ _) 0 ty = _
      rw [told_append, hother]; exact h.zero ty
    · exact h.zero ty
  · intro l hl ty
    rw [theories_eq, hn] at hl
    cases c
    · obtain rfl := List.mem_singleton.mp hl
      show (told (s.log ++ _) _ ty).getD 0 = _
      rw [told_append, hold, told_models]
      simp
    · cases hl

theorem inv_addTheory {ops : List Op} {s : State} (h : Inv ops s) {i : Nat} {subs : List Nat}
    (ht : s.theory = some (.comb i subs)) :
    Inv (ops ++ [.addTheory])
      { s with
        clock := s.clock + 1
        theory := some (.comb i (subs ++ [s.clock + 1]))
        log := s.log ++ ([VType.boolean, .rational].filter fun ty => decide (s.nums ty > 0)).map
          fun ty => (s.clock + 1, .resize ty (s.nums ty)) } := by
  have hn : nodeOf isSetTheory (.setTheory true) .addTheory (ops ++ [.addTheory]) =
      some (.comb i (subs ++ [s.clock + 1])) := by
    rw [nodeOf_add rfl (h.theory ▸ ht)]; simp [h.clock]
  have hsub : theories ops = subs := by rw [theories_eq, ← h.theory, ht]
  have hold : ∀ ty, told s.log (s.clock + 1) ty = none := told_older h.old (by omega)
  have hmem : ∀ l ty n, (l, Ev.resize ty n) ∈ ([VType.boolean, .rational].filter fun ty => decide (s.nums ty > 0)).map
      (fun ty => (s.clock + 1, Ev.resize ty (s.nums ty))) ↔ l = s.clock + 1 ∧ n = s.nums ty ∧ 0 < n := by
    intro l ty n
    simp only [List.mem_map, List.mem_filter, decide_eq_true_eq, Prod.mk.injEq, Ev.resize.injEq]
    constructor
    · rintro ⟨ty', ⟨-, a⟩, rfl, rfl, rfl⟩
      exact ⟨rfl, rfl, a⟩
    · rintro ⟨rfl, rfl, a⟩
      exact ⟨ty, ⟨by cases ty <;> simp, a⟩, rfl, rfl, rfl⟩
  have hother : ∀ l ty, l ≠ s.clock + 1 → told (([VType.boolean, .rational].filter fun ty =>
      decide (s.nums ty > 0)).map fun ty => (s.clock + 1, Ev.resize ty (s.nums ty))) l ty = none := fun l ty hl =>
    told_none fun n hn => hl ((hmem l ty n).mp hn).1
  refine ⟨by simp [h.clock], hn.symm, by rw [nodeOf_skip rfl (by simp)]; exact h.order,
    by rw [lastOf_snoc]; simpa using h.restart, ?_, ?_, h.first, ?_, ?_, ?_, ?_⟩
  · show s.models = _
    rw [h.models]; funext ty; rw [varCount_snoc]
  · have := h.perm
    unfold ids at this ⊢
    rw [ht] at this
    exact this
  · intro i' subs' hi ty
    exact h.nums i subs ht ty
  · intro x hx
    rcases List.mem_append.mp hx with hx | hx
    · exact (h.old x hx).trans (Nat.le_succ _)
    · obtain ⟨m, -, rfl⟩ := List.mem_map.mp hx
      exact le_refl _
  · intro ty
    show told (s.log ++ _) 0 ty = _
    rw [told_append, hother 0 ty (by omega)]; exact h.zero ty
  · intro l hl ty
    rw [theories_eq, hn] at hl
    show (told (s.log ++ _) _ ty).getD 0 = _
    rw [told_append]
    rcases List.mem_append.mp hl with hl | hl
    · have hle := (theories_le (hsub ▸ hl)).2.1
      rw [hother l ty (by rw [h.clock]; omega)]
      exact h.tells l (hsub ▸ hl) ty
    · obtain rfl := List.mem_singleton.mp hl
      rw [hold]
      show _ = (s.models ty).getD 0
      rw [← h.nums i subs ht ty]
      by_cases hz : 0 < s.nums ty
      · rw [told_some ((hmem _ _ _).mpr ⟨rfl, rfl, hz⟩) fun m hm => ((hmem _ _ _).mp hm).2.1]
        rfl
      · rw [told_none fun n hn => hz (by have := (hmem _ _ _).mp hn; rw [← this.2.1]; exact this.2.2)]
        simp; omega

theorem inv_start : Inv [] start := by
  refine ⟨rfl, rfl, rfl, rfl, rfl, List.Perm.refl _, rfl, ?_, ?_, fun _ => rfl, ?_⟩
  · intro i subs h; cases h
  · intro x h; cases h
  · intro l h; cases h

theorem inv_step {ops : List Op} {s s' : State} (h : Inv ops s) {op : Op} (hs : step s op = some s') :
    Inv (ops ++ [op]) s' := by
  have hvar : ∀ {op : Op} {ty n}, (op = .setModel ty n ∨ op = .resize ty n) →
      varCount (ops ++ [op]) = Function.update s.models ty (some n) := by
    intro op ty n ho
    funext ty'
    rw [varCount_snoc, h.models]
    rcases ho with rfl | rfl <;> by_cases e : ty' = ty
    all_goals first
      | (subst e; simp)
      | (rw [Function.update_of_ne e]; simp [Ne.symm e])
  cases op with
  | setModel ty n =>
    cases hs
    exact inv_resize h (nodeOf_skip rfl (by simp)) (nodeOf_skip rfl (by simp)) (by rw [lastOf_snoc]; simp)
      (by simp [h.clock]) (Nat.le_succ _) (hvar (.inl rfl))
  | resize ty n =>
    unfold step at hs
    simp only at hs
    split at hs
    · cases hs
    · cases hs
      exact inv_resize h (nodeOf_skip rfl (by simp)) (nodeOf_skip rfl (by simp)) (by rw [lastOf_snoc]; simp)
        (by simp [h.clock]) (Nat.le_succ _) (hvar (.inr rfl))
  | setTheory c => cases hs; exact inv_setTheory h c
  | addTheory =>
    unfold step at hs
    simp only at hs
    split at hs
    · rename_i i subs ht
      cases hs; exact inv_addTheory h ht
    · cases hs
  | setRestart => cases hs; exact inv_setRestart h
  | setOrder c => cases hs; exact inv_setOrder h c
  | addOrder =>
    unfold step at hs
    simp only at hs
    split at hs
    · rename_i i subs ht
      cases hs; exact inv_addOrder h ht
    · cases hs
  | init =>
    cases hs
    have h1 := inv_tick h (op := .init) (.inl rfl)
    exact inv_event (inv_models (allModels s) h1 fun m hm => mem_allModels.mp hm).1 (by simp)
  | raise e =>
    have h1 := inv_tick h (op := .raise e) (.inr ⟨e, rfl⟩)
    cases e with
    | init => cases hs
    | resize ty n => cases hs
    | _ => cases hs; exact inv_event h1 (by simp)

theorem inv_run {ops : List Op} {s : State} (h : run ops = some s) : Inv ops s := by
  induction ops using List.reverseRecOn generalizing s with
  | nil => cases h; exact inv_start
  | append_singleton ops op ih =>
    unfold run at h ih
    rw [List.foldlM_append] at h
    cases hr : ops.foldlM step start with
    | none => rw [hr] at h; cases h
    | some t =>
      rw [hr] at h
      have h' : step t op = some s := by
        cases hs : step t op with
        | none => simp [hs] at h
        | some r => simpa [hs] using h
      exact inv_step (ih hr) h'

end Wiring
end Yaga
