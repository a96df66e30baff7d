/-
The priority queue with its vectors computes what the model without memory computes.
-/
import Verif.Model.QueueMemory
import Verif.Proofs.PQueue

namespace Yaga
namespace QMem
variable {S : Type} [LinearOrder S]

theorem type_inj {a b : VType} (h : a.toNat = b.toNat) : a = b := by
  cases a <;> cases b <;> simp_all [VType.toNat]

theorem setCell_some {p : List (List Int)} {v : Var} (h : (cell p v).isSome) (k : Int) :
    ∃ p', setCell p v k = some p' ∧ ∀ w, cell p' w = if w = v then some k else cell p w := by
  unfold cell at h
  unfold setCell
  cases hr : p[v.type.toNat]? with
  | none => rw [hr] at h; cases h
  | some row =>
    rw [hr] at h
    simp only [Option.bind_some] at h
    have ho : v.ord < row.length := by
      by_contra hn
      rw [List.getElem?_eq_none (by omega)] at h; cases h
    have ht : v.type.toNat < p.length := by
      by_contra hn
      rw [List.getElem?_eq_none (by omega)] at hr; cases hr
    refine ⟨_, by simp only; rw [if_pos ho], fun w => ?_⟩
    unfold cell
    by_cases h1 : w.type = v.type
    · rw [h1, List.getElem?_set_self ht, hr]
      simp only [Option.bind_some]
      by_cases h2 : w.ord = v.ord
      · have : w = v := by cases w; cases v; simp_all
        rw [if_pos this, h2, List.getElem?_set_self ho]
      · have : w ≠ v := fun e => h2 (by rw [e])
        rw [if_neg this, List.getElem?_set_ne (fun e => h2 e.symm)]
    · have : w ≠ v := fun e => h1 (by rw [e])
      rw [if_neg this, List.getElem?_set_ne (fun e => h1 (type_inj e.symm))]

/-- How a cell stores a position. -/
inductive Enc : Option Int → Option Nat → Prop
  | absent : Enc none none
  | missing : Enc (some (-1)) none
  | at (n : Nat) : Enc (some n) (some n)

/-- The vectors store the queue; the variables of the heap and those of `D` have a cell. -/
structure Sim (D : Var → Prop) (m : QMem S) (q : PQ S) : Prop where
  len : m.pq.length = q.size
  node : ∀ i, i < q.size → m.pq[i]? = some (q.node i)
  pos : ∀ v, Enc (cell m.position v) (q.pos v)
  cells : ∀ i, i < q.size → (cell m.position (q.node i).1).isSome
  dom : ∀ v, D v → (cell m.position v).isSome

variable {D : Var → Prop} {m : QMem S} {q : PQ S}

theorem swap_sim (h : Sim D m q) {i j : Nat} (hi : i < q.size) (hj : j < q.size) :
    ∃ m', m.swap i j = some m' ∧ Sim D m' (q.swap i j) := by
  have li : i < m.pq.length := by rw [h.len]; exact hi
  have lj : j < m.pq.length := by rw [h.len]; exact hj
  have hget : ∀ k, k < q.size → ((m.pq.set i (q.node j)).set j (q.node i))[k]? = some ((q.swap i j).node k) := by
    intro k hk
    rw [PQ.swap_node]
    by_cases e1 : k = j
    · subst e1
      rw [if_pos rfl, List.getElem?_set_self (by simpa using lj)]
    · rw [if_neg e1, List.getElem?_set_ne (fun e => e1 e.symm)]
      by_cases e2 : k = i
      · subst e2; rw [if_pos rfl, List.getElem?_set_self li]
      · rw [if_neg e2, List.getElem?_set_ne (fun e => e2 e.symm), h.node k hk]
  have hcell : ∀ k, k < q.size → (cell m.position ((q.swap i j).node k).1).isSome := by
    intro k hk
    rw [PQ.swap_node]
    split_ifs
    · exact h.cells i hi
    · exact h.cells j hj
    · exact h.cells k hk
  unfold swap
  rw [h.node i hi, h.node j hj]
  simp only
  rw [hget i hi, hget j hj]
  simp only
  obtain ⟨k, hk⟩ := Option.isSome_iff_exists.1 (hcell i hi)
  obtain ⟨l, hl⟩ := Option.isSome_iff_exists.1 (hcell j hj)
  rw [hk, hl]
  simp only
  obtain ⟨p1, e1, f1⟩ := setCell_some (hcell i hi) l
  have hc2 : (cell p1 ((q.swap i j).node j).1).isSome := by
    rw [f1]; split_ifs
    · rfl
    · exact hcell j hj
  obtain ⟨p2, e2, f2⟩ := setCell_some hc2 k
  rw [e1]
  simp only [Option.bind_some]
  rw [e2]
  have hex : ∀ v, (cell m.position v).isSome → (cell p2 v).isSome := by
    intro v hv
    rw [f2, f1]
    split_ifs <;> first | rfl | exact hv
  refine ⟨_, rfl, ⟨by simpa using h.len, hget, fun v => ?_, fun k hk => hex _ (hcell k hk), fun v hv => hex _ (h.dom v hv)⟩⟩
  show Enc (cell p2 v) ((Function.update (Function.update q.pos ((q.swap i j).node i).1
    (q.pos ((q.swap i j).node j).1)) ((q.swap i j).node j).1 (q.pos ((q.swap i j).node i).1)) v)
  rw [f2, f1, Function.update_apply, Function.update_apply]
  split_ifs
  · rw [← hk]; exact h.pos _
  · rw [← hl]; exact h.pos _
  · exact h.pos v

theorem fixUp_sim : ∀ (fuel : Nat) (m : QMem S) (q : PQ S) (i : Nat), Sim D m q → i < q.size → i < fuel →
    ∃ m', fixUp fuel m i = some m' ∧ ∀ fuel', i ≤ fuel' → Sim D m' (PQ.fixUp fuel' q i)
  | 0, _, _, _, _, _, hf => absurd hf (by omega)
  | fuel + 1, m, q, i, h, hi, hf => by
    unfold fixUp
    by_cases h0 : i = 0
    · rw [if_pos h0]
      refine ⟨m, rfl, fun fuel' _ => ?_⟩
      cases fuel' with
      | zero => exact h
      | succ n => unfold PQ.fixUp; rw [if_pos h0]; exact h
    · rw [if_neg h0]
      have hp := PQ.parent_lt (i := i) (by omega)
      have hp' : PQ.parent i < q.size := by omega
      rw [h.node i hi, h.node _ hp']
      simp only
      by_cases hb : PQ.before (q.node i) (q.node (PQ.parent i)) = true
      · rw [if_pos hb]
        obtain ⟨m1, e1, s1⟩ := swap_sim h hi hp'
        rw [e1]
        simp only [Option.bind_some]
        obtain ⟨m2, e2, s2⟩ := fixUp_sim fuel m1 (q.swap i (PQ.parent i)) _ s1 hp' (by omega)
        refine ⟨m2, e2, fun fuel' hf' => ?_⟩
        cases fuel' with
        | zero => omega
        | succ n => unfold PQ.fixUp; rw [if_neg h0, if_pos hb]; exact s2 n (by omega)
      · rw [if_neg hb]
        obtain ⟨m2, e2, s2⟩ := fixUp_sim fuel m q _ h hp' (by omega)
        refine ⟨m2, e2, fun fuel' hf' => ?_⟩
        cases fuel' with
        | zero => omega
        | succ n => unfold PQ.fixUp; rw [if_neg h0, if_neg hb]; exact s2 n (by omega)

theorem maxChild_eq (h : Sim D m q) : ∀ (cs : List Nat) (b : Nat), b < q.size → (∀ c ∈ cs, c < q.size) →
    m.maxChild b cs = some (q.maxChild b cs)
  | [], _, _, _ => rfl
  | c :: cs, b, hb, hc => by
    have h1 := hc c List.mem_cons_self
    unfold maxChild PQ.maxChild
    rw [h.node c h1, h.node b hb]
    simp only
    split
    · exact maxChild_eq h cs c h1 fun d hd => hc d (List.mem_cons_of_mem _ hd)
    · exact maxChild_eq h cs b hb fun d hd => hc d (List.mem_cons_of_mem _ hd)

omit [LinearOrder S] in
theorem children_eq (h : Sim D m q) (i : Nat) : m.children i = q.children i := by
  unfold children PQ.children
  rw [h.len]

theorem lt_of_parent {i j : Nat} (hj : 0 < j) (h : PQ.parent j = i) : i < j := h ▸ PQ.parent_lt hj

theorem fixDown_sim : ∀ (fuel : Nat) (m : QMem S) (q : PQ S) (i : Nat), Sim D m q → i < q.size → q.size ≤ fuel + i →
    ∃ m', fixDown fuel m i = some m' ∧ Sim D m' (PQ.fixDown fuel q i)
  | 0, _, _, _, _, hi, hf => absurd hf (by omega)
  | fuel + 1, m, q, i, h, hi, hf => by
    unfold fixDown PQ.fixDown
    rw [children_eq h]
    have hm : ∀ j ∈ q.children i, i < j ∧ j < q.size := fun j hj => by
      obtain ⟨a, b, c⟩ := (PQ.mem_children q i j).1 hj
      exact ⟨lt_of_parent a c, b⟩
    cases hcs : q.children i with
    | nil => exact ⟨m, rfl, h⟩
    | cons c cs =>
      rw [hcs] at hm
      have hc := hm c List.mem_cons_self
      simp only
      rw [maxChild_eq h cs c hc.2 fun d hd => (hm d (List.mem_cons_of_mem _ hd)).2]
      have hk : i < q.maxChild c cs ∧ q.maxChild c cs < q.size := by
        rcases (PQ.maxChild_spec q c cs).1 with e | e
        · rw [e]; exact hc
        · exact hm _ (List.mem_cons_of_mem _ e)
      simp only
      rw [h.node _ hk.2, h.node _ hi]
      simp only
      by_cases hb : PQ.before (q.node (q.maxChild c cs)) (q.node i) = true
      · rw [if_pos hb, if_pos hb]
        obtain ⟨m1, e1, s1⟩ := swap_sim h hk.2 hi
        rw [e1]
        simp only [Option.bind_some]
        exact fixDown_sim fuel m1 _ _ s1 hk.2 (by rw [PQ.swap_size]; omega)
      · rw [if_neg hb, if_neg hb]; exact ⟨m, rfl, h⟩

theorem grow_spec (p : List (List Int)) (v : Var) : ∃ p', grow p v = some p' ∧ (cell p' v).isSome ∧
    ∀ w, cell p' w = cell p w ∨ cell p w = none ∧ cell p' w = some (-1) := by
  obtain ⟨p1, hp1, hlt, hrow⟩ : ∃ p1, p1 = (if p.length ≤ v.type.toNat then
      p ++ List.replicate (v.type.toNat + 1 - p.length) [] else p) ∧ v.type.toNat < p1.length ∧
      ∀ w, cell p1 w = cell p w := by
    refine ⟨_, rfl, ?_, fun w => ?_⟩
    · split_ifs with h
      · simp; omega
      · omega
    · split_ifs with h
      · unfold cell
        by_cases hw : w.type.toNat < p.length
        · rw [List.getElem?_append_left hw]
        · rw [List.getElem?_append_right (by omega), List.getElem?_replicate, List.getElem?_eq_none (l := p) (by omega)]
          split_ifs <;> simp
      · rfl
  unfold grow
  simp only
  rw [← hp1, List.getElem?_eq_getElem hlt]
  simp only
  have hcell : cell p1 v = p1[v.type.toNat][v.ord]? := by
    unfold cell; rw [List.getElem?_eq_getElem hlt]; rfl
  by_cases ho : p1[v.type.toNat].length ≤ v.ord
  · rw [if_pos ho]
    refine ⟨_, rfl, ?_, fun w => ?_⟩
    · unfold cell
      rw [List.getElem?_set_self hlt]
      simp only [Option.bind_some]
      rw [List.getElem?_append_right ho, List.getElem?_replicate, if_pos (by omega)]
      rfl
    · rw [← hrow w]
      by_cases ht : w.type = v.type
      · have h1 : cell p1 w = p1[v.type.toNat][w.ord]? := by
          unfold cell; rw [ht, List.getElem?_eq_getElem hlt]; rfl
        have h2 : cell (p1.set v.type.toNat (p1[v.type.toNat] ++
            List.replicate (v.ord + 1 - p1[v.type.toNat].length) (-1))) w =
            (p1[v.type.toNat] ++ List.replicate (v.ord + 1 - p1[v.type.toNat].length) (-1))[w.ord]? := by
          unfold cell; rw [ht, List.getElem?_set_self hlt]; rfl
        rw [h1, h2]
        by_cases hl : w.ord < p1[v.type.toNat].length
        · left; rw [List.getElem?_append_left hl]
        · rw [List.getElem?_append_right (by omega), List.getElem?_replicate, List.getElem?_eq_none (by omega)]
          split_ifs
          · exact Or.inr ⟨rfl, rfl⟩
          · exact Or.inl rfl
      · left
        unfold cell
        rw [List.getElem?_set_ne (fun e => ht (type_inj e.symm))]
  · rw [if_neg ho]
    refine ⟨_, rfl, ?_, fun w => Or.inl (hrow w)⟩
    rw [hcell, List.getElem?_eq_getElem (by omega)]; rfl

theorem push_sim (h : Sim D m q) {v : Var} (hv : q.pos v = none) (s : S) :
    ∃ m', m.push v s = some m' ∧ Sim D m' (q.push v s) := by
  obtain ⟨p, e1, e2, e3⟩ := grow_spec m.position v
  have henc : ∀ w, Enc (cell p w) (q.pos w) := fun w => by
    rcases e3 w with e | ⟨e, e'⟩
    · rw [e]; exact h.pos w
    · have := h.pos w
      rw [e] at this
      rw [e']
      generalize q.pos w = y at this
      cases this; exact .missing
  have hkeep : ∀ w, (cell m.position w).isSome → (cell p w).isSome := fun w hw => by
    rcases e3 w with e | ⟨e, -⟩
    · rw [e]; exact hw
    · rw [e] at hw; cases hw
  have hm : cell p v = some (-1) := by
    have := henc v
    rw [hv] at this
    generalize cell p v = y at this e2
    cases this
    · cases e2
    · rfl
  unfold push
  rw [e1]
  simp only [Option.bind_some]
  rw [if_pos hm]
  obtain ⟨p2, f1, f2⟩ := setCell_some e2 (m.pq.length : Int)
  rw [f1]
  simp only [Option.bind_some]
  have hex : ∀ w, (cell p w).isSome → (cell p2 w).isSome := fun w hw => by
    rw [f2]; split_ifs <;> first | rfl | exact hw
  have hs : Sim D ⟨m.pq ++ [(v, s)], p2⟩ (⟨q.size + 1, Function.update q.node q.size (v, s),
      Function.update q.pos v (some q.size)⟩ : PQ S) := by
    refine ⟨by simp [h.len], fun i hi => ?_, fun w => ?_, fun i hi => ?_, fun w hw => hex _ (hkeep _ (h.dom w hw))⟩
    · show (m.pq ++ [(v, s)])[i]? = some (Function.update q.node q.size (v, s) i)
      rw [Function.update_apply]
      split_ifs with e
      · rw [e, ← h.len]; simp
      · have hi' : i < q.size := by simp only at hi; omega
        rw [List.getElem?_append_left (by rw [h.len]; exact hi'), h.node i hi']
    · show Enc (cell p2 w) (Function.update q.pos v (some q.size) w)
      rw [f2, Function.update_apply]
      split_ifs
      · rw [h.len]; exact .at _
      · exact henc w
    · show (cell p2 (Function.update q.node q.size (v, s) i).1).isSome
      rw [Function.update_apply]
      split_ifs with e
      · exact hex _ e2
      · have hi' : i < q.size := by simp only at hi; omega
        exact hex _ (hkeep _ (h.cells i hi'))
  obtain ⟨m', g1, g2⟩ := fixUp_sim (m.pq.length + 1) _ _ q.size hs (by simp) (by rw [h.len]; omega)
  refine ⟨m', by rw [h.len] at g1 ⊢; exact g1, g2 _ (by omega)⟩

theorem pop_sim (h : Sim D m q) (hq : 0 < q.size) : ∃ m', m.pop = some m' ∧ Sim D m' q.pop := by
  have h0 := h.node 0 hq
  unfold pop
  cases hp : m.pq with
  | nil => rw [hp] at h0; cases h0
  | cons a rest =>
    have ha : a = q.node 0 := by rw [hp] at h0; simpa using h0
    simp only
    rw [← hp]
    have hD : Sim (fun u => D u ∨ u = a.1) m q := ⟨h.len, h.node, h.pos, h.cells, fun u hu => by
      rcases hu with hu | rfl
      · exact h.dom u hu
      · rw [ha]; exact h.cells 0 hq⟩
    obtain ⟨m1, e1, s1⟩ := swap_sim hD hq (j := q.size - 1) (by omega)
    rw [h.len, e1]
    simp only [Option.bind_some]
    have s2 : Sim (fun u => D u ∨ u = a.1) (⟨m1.pq.dropLast, m1.position⟩ : QMem S)
        { q.swap 0 (q.size - 1) with size := q.size - 1 } := by
      have hl : m1.pq.length = q.size := s1.len
      refine ⟨by simp [hl], fun i hi => ?_, s1.pos, fun i hi => s1.cells i ?_, s1.dom⟩
      · have hi' : i < q.size - 1 := hi
        rw [List.getElem?_dropLast, if_pos (by omega)]
        exact s1.node i (by rw [PQ.swap_size]; omega)
      · have hi' : i < q.size - 1 := hi
        rw [PQ.swap_size]; omega
    have h3 : ∃ m3, (if m1.pq.dropLast = [] then some (⟨m1.pq.dropLast, m1.position⟩ : QMem S) else
        fixDown m1.pq.dropLast.length ⟨m1.pq.dropLast, m1.position⟩ 0) = some m3 ∧
        Sim (fun u => D u ∨ u = a.1) m3
          (if q.size - 1 > 0 then PQ.fixDown (q.size - 1) { q.swap 0 (q.size - 1) with size := q.size - 1 } 0
            else { q.swap 0 (q.size - 1) with size := q.size - 1 }) := by
      have hl : m1.pq.dropLast.length = q.size - 1 := s2.len
      by_cases hz : q.size - 1 > 0
      · rw [if_neg (fun e => by rw [e] at hl; simp at hl; omega), if_pos hz, hl]
        exact fixDown_sim _ _ _ 0 s2 hz (by simp)
      · rw [if_pos (List.length_eq_zero_iff.1 (by omega)), if_neg hz]
        exact ⟨_, rfl, s2⟩
    obtain ⟨m3, e3, s3⟩ := h3
    rw [e3]
    simp only [Option.bind_some]
    obtain ⟨p, f1, f2⟩ := setCell_some (s3.dom a.1 (Or.inr rfl)) (-1)
    rw [f1]
    have hex : ∀ w, (cell m3.position w).isSome → (cell p w).isSome := fun w hw => by
      rw [f2]; split_ifs <;> first | rfl | exact hw
    refine ⟨_, rfl, ⟨s3.len, s3.node, fun w => ?_, fun i hi => hex _ (s3.cells i hi), fun w hw =>
      hex _ (s3.dom w (Or.inl hw))⟩⟩
    have hpop : q.pop.pos w = if w = a.1 then none else
        (if q.size - 1 > 0 then PQ.fixDown (q.size - 1) { q.swap 0 (q.size - 1) with size := q.size - 1 } 0
            else { q.swap 0 (q.size - 1) with size := q.size - 1 }).pos w := by
      rw [ha, ← Function.update_apply]; rfl
    rw [hpop]
    show Enc (cell p w) _
    rw [f2]
    by_cases e : w = a.1
    · rw [if_pos e, if_pos e]; exact .missing
    · rw [if_neg e, if_neg e]; exact s3.pos w

omit [LinearOrder S] in
theorem find_eq (h : Sim D m q) (v : Var) : m.find v = q.pos v := by
  have := h.pos v
  unfold cell at this
  unfold find
  cases hr : m.position[v.type.toNat]? with
  | none =>
    rw [hr] at this
    simp only [Option.bind_none] at this ⊢
    generalize q.pos v = y at this
    cases this; rfl
  | some row =>
    rw [hr] at this
    simp only [Option.bind_some] at this ⊢
    generalize q.pos v = y at this
    generalize row[v.ord]? = x at this
    cases this
    · rfl
    · rfl
    · simp

omit [LinearOrder S] in
theorem contains_eq (h : Sim D m q) (v : Var) : m.contains v = q.contains v := by
  have := h.pos v
  unfold cell at this
  unfold contains PQ.contains
  cases hr : m.position[v.type.toNat]? with
  | none =>
    rw [hr] at this
    simp only [Option.bind_none] at this ⊢
    generalize q.pos v = y at this
    cases this; rfl
  | some row =>
    rw [hr] at this
    simp only [Option.bind_some] at this ⊢
    generalize q.pos v = y at this
    generalize row[v.ord]? = x at this
    cases this
    · rfl
    · rfl
    · simp

omit [LinearOrder S] in
theorem setNode_sim (h : Sim D m q) {i : Nat} (hi : i < q.size) (s : S) :
    Sim D (⟨m.pq.set i ((q.node i).1, s), m.position⟩ : QMem S)
      { q with node := Function.update q.node i ((q.node i).1, s) } := by
  have li : i < m.pq.length := by rw [h.len]; exact hi
  refine ⟨by simpa using h.len, fun k hk => ?_, h.pos, fun k hk => ?_, h.dom⟩
  · show (m.pq.set i _)[k]? = some (Function.update q.node i _ k)
    rw [Function.update_apply]
    split_ifs with e
    · rw [e, List.getElem?_set_self li]
    · rw [List.getElem?_set_ne (fun e' => e e'.symm), h.node k hk]
  · show (cell m.position (Function.update q.node i ((q.node i).1, s) k).1).isSome
    rw [Function.update_apply]
    split_ifs with e
    · exact h.cells i hi
    · exact h.cells k hk

theorem update_sim (h : Sim D m q) (hp : ∀ v i, q.pos v = some i → i < q.size) (v : Var) (s : S) :
    ∃ m', m.update v s = some m' ∧ Sim D m' (q.update v s) := by
  unfold update PQ.update
  rw [find_eq h]
  cases hv : q.pos v with
  | none => exact ⟨m, rfl, h⟩
  | some i =>
    have hi := hp v i hv
    simp only
    rw [h.node i hi]
    simp only
    have hs := setNode_sim h hi s
    split
    · obtain ⟨m', g1, g2⟩ := fixUp_sim (m.pq.length + 1) _ _ i hs hi (by rw [h.len]; omega)
      exact ⟨m', g1, g2 _ (by omega)⟩
    · rw [h.len]
      exact fixDown_sim _ _ _ i hs hi (by show q.size ≤ _; omega)

theorem heapify_sim : ∀ (i : Nat) (m : QMem S) (q : PQ S), Sim D m q → i < q.size →
    ∃ m', m.heapify i = some m' ∧ Sim D m' (q.heapify i)
  | 0, m, q, h, hi => by
    unfold heapify PQ.heapify
    rw [h.len]
    exact fixDown_sim _ _ _ 0 h hi (by omega)
  | i + 1, m, q, h, hi => by
    unfold heapify PQ.heapify
    rw [h.len]
    obtain ⟨m1, e1, s1⟩ := fixDown_sim q.size _ _ (i + 1) h hi (by omega)
    rw [e1]
    simp only [Option.bind_some]
    exact heapify_sim i m1 _ s1 (by rw [PQ.fixDown_size]; omega)

theorem rescale_sim (h : Sim D m q) (f : S → S) : ∃ m', m.rescale f = some m' ∧ Sim D m' (q.rescale f) := by
  have hs : Sim D (⟨m.pq.map fun a => (a.1, f a.2), m.position⟩ : QMem S)
      { q with node := fun i => ((q.node i).1, f (q.node i).2) } :=
    ⟨by simpa using h.len, fun i hi => by simp [h.node i hi], h.pos, fun i hi => h.cells i hi, h.dom⟩
  have hl : (m.pq.map fun a => (a.1, f a.2)).length = q.size := hs.len
  unfold rescale PQ.rescale
  simp only
  by_cases hz : q.size > 0
  · rw [if_neg (fun e => by rw [e] at hl; simp at hl; omega), if_pos hz, hl]
    exact heapify_sim _ _ _ hs (by show _ < q.size; omega)
  · rw [if_pos (List.length_eq_zero_iff.1 (by omega)), if_neg hz]
    exact ⟨_, rfl, hs⟩

omit [LinearOrder S] in
theorem empty_sim (d : Var × S) : Sim (fun _ => False) (empty : QMem S) (PQ.empty d) :=
  ⟨rfl, fun i hi => absurd hi (by simp [PQ.empty]), fun v => by simpa [cell, empty, PQ.empty] using Enc.absent,
    fun i hi => absurd hi (by simp [PQ.empty]), fun _ h => h.elim⟩

theorem push_none (h : Sim D m q) {v : Var} (hv : q.pos v ≠ none) (s : S) : m.push v s = none := by
  obtain ⟨p, e1, e2, e3⟩ := grow_spec m.position v
  unfold push
  rw [e1]
  simp only [Option.bind_some]
  rw [if_neg]
  intro e
  have := h.pos v
  rcases e3 v with e' | ⟨e', -⟩
  · rw [← e', e] at this
    generalize q.pos v = y at this hv
    cases this with
    | missing => exact hv rfl
  · rw [e'] at this
    generalize q.pos v = y at this hv
    cases this; exact hv rfl

theorem pop_none (h : Sim D m q) (hq : q.size = 0) : m.pop = none := by
  have hl := h.len
  rw [hq] at hl
  unfold pop
  rw [List.length_eq_zero_iff.1 hl]

end QMem
end Yaga
