/-
The plugin for uninterpreted functions: the function tables have one entry for each tuple of arguments.
-/
import Verif.Model.UfHistory
import Verif.Proofs.Std

set_option linter.unusedSimpArgs false

namespace Yaga.UF

variable {R : Type}

/-- Symbol and argument values of an entry. -/
def key (e : FApp) : Tm × List Val := (e.fn, e.args)

/-- At most one entry for each symbol and argument values. -/
def OneEntry (u : UF R) : Prop := (u.fns.map key).Nodup

theorem linear_fns {cfg : ICfg} {u u' : UF R} {ts : List (Nat × ℚ)} {p : Pred} {q : ℚ} {l : Lit}
    (h : linear cfg u ts p q = some (u', l)) : u'.fns = u.fns := by
  unfold linear at h
  split at h
  · cases h
  · simp only at h
    split at h
    · cases h
    · cases h; rfl

theorem assertEquality_fns {cfg : ICfg} {s : TermTable} {u : UF R} {t t' : Tm} {c : Clause} {b : Bool}
    {r : UF R × Clause} (h : assertEquality cfg s u t t' c b = some r) : r.1.fns = u.fns := by
  unfold assertEquality at h
  obtain ⟨_, _, h⟩ := Option.bind_eq_some_iff.mp h
  split at h
  · obtain ⟨p, _, h⟩ := Option.bind_eq_some_iff.mp h
    obtain ⟨p', _, h⟩ := Option.bind_eq_some_iff.mp h
    simp only at h
    split at h
    · obtain ⟨_, _, h⟩ := Option.bind_eq_some_iff.mp h
      cases h; rfl
    · obtain ⟨q, hq, h⟩ := Option.bind_eq_some_iff.mp h
      obtain ⟨_, _, h⟩ := Option.bind_eq_some_iff.mp h
      have hf : q.1.fns = u.fns := linear_fns (u' := q.1) (l := q.2) hq
      generalize (if b then q.2 else q.2.neg) = lit at h
      split at h
      · cases h; exact hf
      · obtain ⟨_, _, h⟩ := Option.bind_eq_some_iff.mp h
        obtain ⟨_, _, h⟩ := Option.bind_eq_some_iff.mp h
        obtain ⟨_, _, h⟩ := Option.bind_eq_some_iff.mp h
        cases h; exact hf
  · cases h; rfl

theorem assertArgs_fns {cfg : ICfg} {s : TermTable} : ∀ (as bs : List Tm) {u : UF R} {c : Clause} {r : UF R × Clause},
    assertArgs cfg s as bs u c = some r → r.1.fns = u.fns
  | [], _, u, c, r, h => by unfold assertArgs at h; cases h; rfl
  | _ :: _, [], u, c, r, h => by unfold assertArgs at h; cases h
  | a :: as, b :: bs, u, c, r, h => by
    unfold assertArgs at h
    obtain ⟨q, h1, h2⟩ := Option.bind_eq_some_iff.mp h
    rw [assertArgs_fns as bs h2, assertEquality_fns h1]

theorem lookup_none {fns : List FApp} {f : Tm} {args : List Val} (h : lookup fns f args = none) :
    (f, args) ∉ fns.map key := by
  intro hm
  obtain ⟨e, he, hk⟩ := List.mem_map.mp hm
  unfold lookup at h
  have := List.find?_eq_none.mp h e he
  unfold key at hk
  simp only [Prod.mk.injEq] at hk
  simp [hk.1, hk.2] at this

theorem addFunctionValue_one {cfg : ICfg} {s : TermTable} {u : UF R} {t : Tm} {r : UF R × List Clause}
    (h : addFunctionValue cfg s u t = some r) (h0 : OneEntry u) : OneEntry r.1 := by
  unfold addFunctionValue at h
  obtain ⟨a, _, h⟩ := Option.bind_eq_some_iff.mp h
  obtain ⟨e, _, h⟩ := Option.bind_eq_some_iff.mp h
  simp only at h
  cases hl : lookup u.fns (s.fncSymbol t) a.1 with
  | none =>
    rw [hl] at h
    cases h
    unfold OneEntry
    rw [List.map_append, List.nodup_append]
    refine ⟨h0, by simp, ?_⟩
    intro x hx y hy hxy
    simp only [List.map_cons, List.map_nil, List.mem_singleton] at hy
    subst hxy
    rw [hy] at hx
    exact lookup_none hl hx
  | some old =>
    rw [hl] at h
    simp only at h
    split at h
    · cases h; exact h0
    · obtain ⟨q, h1, h⟩ := Option.bind_eq_some_iff.mp h
      obtain ⟨q', h2, h⟩ := Option.bind_eq_some_iff.mp h
      cases h
      unfold OneEntry
      rw [assertEquality_fns h2, assertArgs_fns _ _ h1]
      exact h0

theorem propagateVar_one {cfg : ICfg} {s : TermTable} {v : Var} : ∀ (ws done : List WList) {u : UF R} {cs : List Clause}
    {r : UF R × List Clause}, propagateVar cfg s v done ws u cs = some r → OneEntry u → OneEntry r.1
  | [], done, u, cs, r, h, h0 => by unfold propagateVar at h; cases h; exact h0
  | w :: ws, done, u, cs, r, h, h0 => by
    unfold propagateVar at h
    split at h
    · simp only at h
      split at h
      · split at h
        · rename_i q hq
          exact propagateVar_one ws _ h (addFunctionValue_one hq h0)
        · cases h
      · exact propagateVar_one ws _ h h0
    · exact propagateVar_one ws _ h h0

theorem propagateVars_one {cfg : ICfg} {s : TermTable} : ∀ (as : List (Asg R)) {u : UF R} {cs : List Clause}
    {r : UF R × List Clause}, propagateVars cfg s as u cs = some r → OneEntry u → OneEntry r.1
  | [], u, cs, r, h, h0 => by unfold propagateVars at h; cases h; exact h0
  | a :: as, u, cs, r, h, h0 => by
    unfold propagateVars at h
    split at h
    · rename_i q hq
      exact propagateVars_one as h (propagateVar_one _ _ hq h0)
    · cases h

theorem reach_one {cfg : ICfg} {s : TermTable} {st : IState} {u : UF R} {d : Bool} (h : Reach cfg s st u d) : OneEntry u := by
  have filt : ∀ (u : UF R) lvl, OneEntry u → OneEntry (onBeforeBacktrack u lvl) := by
    intro u lvl h
    exact h.sublist (List.filter_sublist.map _)
  induction h with
  | start => exact List.nodup_nil
  | decide _ _ ih => exact ih
  | assign _ _ ih => exact ih
  | constraint _ _ h ih => unfold OneEntry; rw [linear_fns h]; exact ih
  | propagate _ h ih => exact propagateVars_one _ h ih
  | backtrack _ _ ih => exact filt _ _ ih
  | restart _ ih => exact filt _ _ ih

end Yaga.UF
