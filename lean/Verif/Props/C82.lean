/-
C82: how the parts of a solver are connected: every event reaches every part, and every part knows the number of
variables.
-/
import Verif.Proofs.Wiring

namespace Yaga
open Spec Wiring

theorem positions_nodup (p : Op → Bool) (ops : List Op) : (positions p ops).Nodup :=
  (List.nodup_range.filter _).map fun a b h => by simpa using h

theorem parts_nodup (ops : List Op) :
    (0 :: (theories ops ++ restartPolicy ops ++ plainOrder ops ++ combinedOrders ops)).Nodup := by
  have n1 : (theories ops).Nodup := by
    unfold theories
    split
    · exact List.nodup_nil
    · split
      · exact (positions_nodup _ _).filter _
      · exact List.nodup_singleton _
  have n2 : (restartPolicy ops).Nodup := by
    unfold restartPolicy
    cases lastOf (· = .setRestart) ops <;> simp
  have n3 : (plainOrder ops ++ combinedOrders ops).Nodup := by
    unfold plainOrder combinedOrders
    cases lastOf isSetOrder ops with
    | none => simp
    | some k =>
      simp only
      split
      · simpa using (positions_nodup _ _).filter _
      · simp
  have d1 : ∀ x ∈ theories ops, x ∉ restartPolicy ops := by
    intro x hx hy
    obtain ⟨-, -, op, e, h⟩ := theories_le hx
    rw [(restart_le hy).2.2] at e
    cases e
    rcases h with h | h <;> cases h
  have d2 : ∀ x, x ∈ plainOrder ops ∨ x ∈ combinedOrders ops → x ∉ theories ops := by
    intro x hx hy
    obtain ⟨-, -, op, e, h⟩ := theories_le hy
    obtain ⟨-, -, op', e', h'⟩ := orders_le hx
    rw [e] at e'
    cases e'
    rcases h with rfl | h
    · rcases h' with h' | h' <;> cases h'
    · rcases h' with rfl | h'
      · cases h
      · exact disj_to _ h h'
  have d3 : ∀ x, x ∈ plainOrder ops ∨ x ∈ combinedOrders ops → x ∉ restartPolicy ops := by
    intro x hx hy
    obtain ⟨-, -, op', e', h'⟩ := orders_le hx
    rw [(restart_le hy).2.2] at e'
    cases e'
    rcases h' with h' | h' <;> cases h'
  refine List.nodup_cons.mpr ⟨?_, ?_⟩
  · intro h
    simp only [List.mem_append] at h
    rcases h with ((h | h) | h) | h
    · exact absurd (theories_le h).1 (by omega)
    · exact absurd (restart_le h).1 (by omega)
    · exact absurd (orders_le (.inl h)).1 (by omega)
    · exact absurd (orders_le (.inr h)).1 (by omega)
  · rw [List.append_assoc]
    refine List.Nodup.append (List.Nodup.append n1 n2 d1) n3 fun x hx hy => ?_
    have hy := List.mem_append.mp hy
    rcases List.mem_append.mp hx with hx | hx
    · exact d2 x hy hx
    · exact d3 x hy hx

/-- C82. For every history of calls that build a solver, an event that it raises reaches the subsumption, the plugins,
the restart policy and the variable order, each of them once, the subsumption first, and nothing else: no object that
was replaced is called. Orders in a `Combined_order` get what that calls instead. -/
theorem C82_delivery (ops : List Op) (s s' : State) (e : Ev) (h : run ops = some s)
    (hs : step s (.raise e) = some s') :
    ∃ ds, s'.log = s.log ++ ds ∧ ds.head? = some (0, e) ∧ (ds.map Prod.fst).Nodup ∧
      (∀ l d, (l, d) ∈ ds ↔
        (l = 0 ∨ l ∈ theories ops ∨ l ∈ restartPolicy ops ∨ l ∈ plainOrder ops) ∧ d = e ∨
        l ∈ combinedOrders ops ∧ d = passedOn e) := by
  have hi := inv_run h
  have hd : s' = dispatch { s with clock := s.clock + 1 } e := by
    cases e <;> cases hs <;> rfl
  have hp := recv_perm hi e
  refine ⟨s.listeners.flatMap (recv s.theory s.order e), ?_, ?_, ?_, ?_⟩
  · rw [hd, dispatch_eq]
  · obtain ⟨tl, ht⟩ : ∃ tl, s.listeners = 0 :: tl := by
      have := hi.first
      cases hl : s.listeners with
      | nil => rw [hl] at this; cases this
      | cons a tl => rw [hl] at this; cases this; exact ⟨tl, rfl⟩
    have hr : recv s.theory s.order e 0 = [(0, e)] := by
      have h1 : ∀ i subs, s.theory = some (.comb i subs) → i ≠ 0 := fun i subs hh e0 => by
        have := nodeOf_id isSetTheory (.setTheory true) .addTheory ops
        rw [← hi.theory, hh] at this
        exact absurd (mem_lastOf this.symm).1 (by simp [Node.id]; omega)
      have h2 : ∀ i subs, s.order = some (.comb i subs) → i ≠ 0 := fun i subs hh e0 => by
        have := nodeOf_id isSetOrder (.setOrder true) .addOrder ops
        rw [← hi.order, hh] at this
        exact absurd (mem_lastOf this.symm).1 (by simp [Node.id]; omega)
      unfold recv recv.recvO
      generalize s.theory = a at h1
      generalize s.order = b at h2
      rcases a with _ | (_ | _) <;> rcases b with _ | (_ | _) <;> simp_all
    rw [ht, List.flatMap_cons, hr]
    rfl
  · refine (hp.map Prod.fst).nodup_iff.mpr ?_
    have := parts_nodup ops
    simpa [expected, Function.comp_def] using this
  · intro l d
    rw [hp.mem_iff]
    unfold expected
    have hc : e.combined = passedOn e := by cases e <;> rfl
    simp only [List.mem_cons, List.mem_append, List.mem_map, Prod.mk.injEq, hc]
    constructor
    · rintro (⟨rfl, rfl⟩ | ((⟨_, h, rfl, rfl⟩ | ⟨_, h, rfl, rfl⟩) | ⟨_, h, rfl, rfl⟩) | ⟨_, h, rfl, rfl⟩)
      · simp
      all_goals simp [h]
    · rintro (⟨rfl | h | h | h, rfl⟩ | ⟨h, rfl⟩)
      · simp
      · exact .inr (.inl (.inl (.inl ⟨_, h, rfl, rfl⟩)))
      · exact .inr (.inl (.inl (.inr ⟨_, h, rfl, rfl⟩)))
      · exact .inr (.inl (.inr ⟨_, h, rfl, rfl⟩))
      · exact .inr (.inr ⟨_, h, rfl, rfl⟩)

/-- C82. The order within the plugins is the order in which they were added. -/
theorem C82_order (ops : List Op) : (theories ops).Pairwise (· < ·) := by
  have hp : ∀ p, (positions p ops).Pairwise (· < ·) := fun p =>
    (List.pairwise_lt_range.filter _).map _ fun a b h => by simpa using h
  unfold theories
  split
  · exact .nil
  · split
    · exact (hp _).filter _
    · simp

/-- C82. Whenever a plugin was added, it was told how many variables there are now (a plugin that was told nothing has
none); so was the subsumption. -/
theorem C82_sizes (ops : List Op) (s : State) (h : run ops = some s) (ty : VType) :
    told s.log 0 ty = varCount ops ty ∧
    ∀ l ∈ theories ops, (told s.log l ty).getD 0 = (varCount ops ty).getD 0 := by
  have hi := inv_run h
  refine ⟨by rw [hi.zero, hi.models], fun l hl => by rw [hi.tells l hl, hi.models]⟩

/-- C82. After `init` all parts of the solver, also those that were set after the variables were created, know the number
of variables of every type. -/
theorem C82_init (ops : List Op) (s : State) (h : run (ops ++ [.init]) = some s) (ty : VType) (n : Nat)
    (hn : varCount ops ty = some n) (l : Nat) (hl : l = 0 ∨ l ∈ theories ops ∨ l ∈ restartPolicy ops ∨
      l ∈ plainOrder ops ∨ l ∈ combinedOrders ops) : told s.log l ty = some n := by
  unfold run at h
  rw [List.foldlM_append] at h
  cases hr : ops.foldlM step start with
  | none => rw [hr] at h; cases h
  | some t =>
    rw [hr] at h
    have h' : step t .init = some s := h
    have ht : Inv ops t := inv_run hr
    cases h'
    have hm : t.models ty = some n := by rw [ht.models, hn]
    -- the events for the two types, one after the other
    have key : ∀ (ms : List (VType × Nat)) (u : State) (opsu : List Op), Inv opsu u → theories opsu = theories ops →
        restartPolicy opsu = restartPolicy ops → plainOrder opsu = plainOrder ops →
        combinedOrders opsu = combinedOrders ops → (∀ m ∈ ms, u.models m.1 = some m.2) → u.models ty = some n →
        ((ty, n) ∈ ms ∨ told u.log l ty = some n) →
        told (ms.foldl (fun s m => dispatch s (.resize m.1 m.2)) u).log l ty = some n := by
      intro ms
      induction ms with
      | nil => intro u _ _ _ _ _ _ _ _ h; simpa using h
      | cons m ms ih =>
        intro u opsu hu e1 e2 e3 e4 hms hty hh
        rw [List.foldl_cons]
        have emod : (dispatch u (.resize m.1 m.2)).models = u.models := by rw [dispatch_eq]
        refine ih _ opsu (inv_again hu (hms m (by simp))) e1 e2 e3 e4
          (fun x hx => by rw [emod]; exact hms x (by simp [hx])) (by rw [emod]; exact hty) ?_
        rw [dispatch_eq]
        simp only
        rw [told_append, told_resize hu, e1, e2, e3, e4]
        by_cases he : m.1 = ty
        · have := hms m (by simp)
          rw [he, hty] at this
          rw [if_pos ⟨he.symm, hl⟩, ← Option.some.inj this]
          exact .inr rfl
        · rw [if_neg (fun hx => he hx.1.symm)]
          rcases hh with hh | hh
          · rcases List.mem_cons.mp hh with hh | hh
            · exact absurd (by rw [← hh]) he
            · exact .inl hh
          · exact .inr (by simpa using hh)
    have hi := inv_tick ht (op := .init) (.inl rfl)
    have q1 : nodeOf isSetTheory (.setTheory true) .addTheory (ops ++ [.init]) = _ := nodeOf_skip rfl (by simp)
    have q2 : nodeOf isSetOrder (.setOrder true) .addOrder (ops ++ [.init]) = _ := nodeOf_skip rfl (by simp)
    have hmods := inv_models (allModels t) hi (fun m hm => mem_allModels.mp hm)
    have := key (allModels t) _ _ hi (by rw [theories_eq, theories_eq, q1])
      (by unfold restartPolicy; rw [lastOf_snoc]; simp) (by rw [(orders_eq _).1, (orders_eq _).1, q2])
      (by rw [(orders_eq _).2, (orders_eq _).2, q2]) (fun m hm => mem_allModels.mp hm) hm
      (.inl (mem_allModels.mpr hm))
    rw [dispatch_eq]
    simp only
    rw [told_append, told_none fun k hk => ?_]
    · simpa using this
    · rcases (expected_mem ((recv_perm hmods.1 .init).subset hk)).2 with h | h <;> cases h

/-- The set-ups of the three logics: the plugins in their order (Boolean, linear arithmetic, functions), the restart policy and the
variable order. -/
theorem C82_setups :
    (theories propositional, restartPolicy propositional, plainOrder propositional) = ([2], [3], [4]) ∧
    (theories qfLra, restartPolicy qfLra, plainOrder qfLra) = ([4, 5], [6], [7]) ∧
    (theories qfUflra, restartPolicy qfUflra, plainOrder qfUflra) = ([4, 5, 6], [7], [8]) ∧
    (run propositional).isSome ∧ (run qfLra).isSome ∧ (run qfUflra).isSome := by
  decide

/-- `Combined_order` passes on a wrong event: an order in it is told that a clause was learned when a clause was
resolved in conflict analysis, for every history and every clause. -/
theorem C82_combined_wrong_event (ops : List Op) (s s' : State) (c : Clause) (h : run ops = some s)
    (hs : step s (.raise (.resolved c)) = some s') (l : Nat) (hl : l ∈ combinedOrders ops) :
    ∃ ds, s'.log = s.log ++ ds ∧ (l, .learned c) ∈ ds ∧ (l, .resolved c) ∉ ds := by
  obtain ⟨ds, h1, -, hnd, h3⟩ := C82_delivery ops s s' _ h hs
  have hm : (l, Ev.learned c) ∈ ds := (h3 _ _).mpr (.inr ⟨hl, rfl⟩)
  refine ⟨ds, h1, hm, fun hx => ?_⟩
  have hinj := List.inj_on_of_nodup_map hnd hm hx rfl
  simp at hinj

/-- C82. Missing: that all five are counted since the last `init`. Conflicts, decisions and restarts are counted since the last `init`; conflict clauses and learned clauses, against
the comment of `num_conflict_clauses` and `num_learned_clauses` (src/Solver.h:155-166), since the solver was created. -/
theorem C82_counters_partial (ts us : List Tick) (hu : Tick.init ∉ us) :
    Stats.run (ts ++ .init :: us) =
      ⟨us.count .conflict, (ts ++ us).count .conflictClause, (ts ++ us).count .learned, us.count .restart,
        us.count .decision⟩ := by
  have h1 : ∀ (ts : List Tick) (s : Stats), (ts.foldl Stats.tick s).conflictClauses =
        s.conflictClauses + ts.count .conflictClause ∧
      (ts.foldl Stats.tick s).learned = s.learned + ts.count .learned := by
    intro ts
    induction ts with
    | nil => simp
    | cons t ts ih =>
      intro s
      obtain ⟨a, b⟩ := ih (s.tick t)
      rw [List.foldl_cons, a, b]
      cases t <;> simp [Stats.tick] <;> omega
  have h2 : ∀ (us : List Tick) (s : Stats), Tick.init ∉ us →
      (us.foldl Stats.tick s).conflicts = s.conflicts + us.count .conflict ∧
      (us.foldl Stats.tick s).restarts = s.restarts + us.count .restart ∧
      (us.foldl Stats.tick s).decisions = s.decisions + us.count .decision := by
    intro us
    induction us with
    | nil => simp
    | cons t us ih =>
      intro s hn
      obtain ⟨a, b, c⟩ := ih (s.tick t) (fun h => hn (by simp [h]))
      rw [List.foldl_cons, a, b, c]
      cases t <;> simp [Stats.tick] at hn ⊢ <;> omega
  unfold Stats.run
  rw [List.foldl_append, List.foldl_cons]
  obtain ⟨a, b⟩ := h1 us ((ts.foldl Stats.tick {}).tick .init)
  obtain ⟨a', b'⟩ := h1 ts {}
  obtain ⟨c, d, e⟩ := h2 us ((ts.foldl Stats.tick {}).tick .init) hu
  have ext : ∀ x y : Stats, x.conflicts = y.conflicts → x.conflictClauses = y.conflictClauses → x.learned = y.learned →
      x.restarts = y.restarts → x.decisions = y.decisions → x = y := by
    rintro ⟨⟩ ⟨⟩ rfl rfl rfl rfl rfl; rfl
  refine ext _ _ ?_ ?_ ?_ ?_ ?_
  · rw [c]; simp [Stats.tick]
  · rw [a, List.count_append]; simp [Stats.tick, a']
  · rw [b, List.count_append]; simp [Stats.tick, b']
  · rw [d]; simp [Stats.tick]
  · rw [e]; simp [Stats.tick]

/-- A second check without conflict still reports the clause learned in the first one. -/
theorem C82_counters_not_reset :
    ∃ ts us : List Tick, Tick.init ∉ us ∧ us.count .learned = 0 ∧ (Stats.run (ts ++ .init :: us)).learned = 1 :=
  ⟨[.init, .conflict, .conflictClause, .learned], [.decision], by decide⟩

/-- The hypotheses hold for a solver for QF_LRA with variables, whose variable order is then replaced by a combination of two
orders, and to which a third plugin is added. -/
def exWiring : List Op :=
  qfLra ++ [.resize .boolean 3, .resize .rational 2, .setOrder true, .addOrder, .addOrder, .addTheory]

example : (run exWiring).isSome ∧ theories exWiring = [4, 5, 13] ∧ restartPolicy exWiring = [6] ∧
    plainOrder exWiring = [] ∧ combinedOrders exWiring = [11, 12] ∧ varCount exWiring .rational = some 2 ∧
    ((run exWiring).bind fun s => (step s (.raise (.resolved [Lit.pos 1]))).map fun s' => s'.log.drop s.log.length) =
      some [(0, .resolved [Lit.pos 1]), (4, .resolved [Lit.pos 1]), (5, .resolved [Lit.pos 1]),
        (13, .resolved [Lit.pos 1]), (6, .resolved [Lit.pos 1]), (11, .learned [Lit.pos 1]),
        (12, .learned [Lit.pos 1])] ∧
    ((run exWiring).map fun s => (told s.log 13 .boolean, told s.log 13 .rational, told s.log 11 .rational)) =
      some (some 3, some 2, none) ∧
    ((run (exWiring ++ [.init])).map fun s => told s.log 11 .rational) = some (some 2) := by
  decide

#print axioms C82_delivery
#print axioms C82_order
#print axioms C82_sizes
#print axioms C82_init
#print axioms C82_setups
#print axioms C82_combined_wrong_event
#print axioms C82_counters_partial
#print axioms C82_counters_not_reset

end Yaga
