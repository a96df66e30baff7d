/-
C88: the traversal of the asserted terms.
-/
import Verif.Proofs.Visitor

namespace Yaga

open Spec TermTable

/-- C88. For every table that the term manager can build, any terms of it as roots and any set of terms processed before
that contains their arguments: no assertion fails. The configuration is called exactly for the subterms of the roots that
were not processed before, once for each, and after it was called for the arguments of the term. Afterwards the set of
processed terms contains exactly the old ones and the subterms of the roots, and contains the arguments of its terms. -/
theorem C88_traversal {H : TermHash} {s : TermTable} (hs : TReach H s) (ts : List Tm)
    (ht : ∀ t ∈ ts, t.index < s.terms.length) (done : List Nat) (hd : ArgsClosed s done) :
    ∃ v, VisitState.visitAll s ts ⟨done, []⟩ = some v ∧ InOrder s done v.visited ∧ (v.visited.map Tm.index).Nodup ∧
      (∀ i, i ∈ v.visited.map Tm.index ↔ i ∉ done ∧ ∃ t ∈ ts, Subterm s i t) ∧
      v.processed = done ++ v.visited.map Tm.index ∧ ArgsClosed s v.processed := by
  obtain ⟨out, o1, o2, o3, o4⟩ := VisitState.visitAll_spec hs.wf ts ht done []
  have hcl := o2.closed hd
  refine ⟨_, o1, by simpa using o2, by simpa using o2.nodup.1, fun i => ?_, by simp, by simpa using hcl⟩
  simp only [List.nil_append]
  constructor
  · intro hi
    obtain ⟨x, hx, rfl⟩ := List.mem_map.1 hi
    exact ⟨o2.nodup.2 x hx, o3 x hx⟩
  · rintro ⟨hn, t, ht, hsub⟩
    exact (List.mem_append.1 (hsub.mem hcl (o4 t ht))).resolve_left hn

/-- C88. The conversion to clauses and constraints calls `Internalizer_config::visit` for each subterm of the assertions that
was not converted before, once and after its arguments, and does nothing else. -/
theorem C88_conversion {H : TermHash} {s : TermTable} (hs : TReach H s) (cfg : ICfg) (ts : List Tm)
    (ht : ∀ t ∈ ts, t.index < s.terms.length) (st : IState) (hd : ArgsClosed s st.processed) :
    ∃ order : List Tm, InOrder s st.processed order ∧
      (∀ i, i ∈ order.map Tm.index ↔ i ∉ st.processed ∧ ∃ t ∈ ts, Subterm s i t) ∧
      Internalizer.roots cfg s ts st = order.foldlM (fun st t =>
        (Internalizer.visit cfg s st t).map fun st => { st with processed := st.processed ++ [t.index] }) st ∧
      ∀ st', Internalizer.roots cfg s ts st = some st' → ArgsClosed s st'.processed := by
  obtain ⟨v, h1, h2, h3, h4, h5, h6⟩ := C88_traversal hs ts ht st.processed hd
  obtain ⟨out, o1, o2, o3⟩ := Internalizer.roots_visitor (cfg := cfg) ts st [] h1
  rw [List.nil_append] at o1
  subst o1
  refine ⟨v.visited, h2, h4, o2, ?_⟩
  intro st' h'
  rw [o3 st' (by rw [← o2]; exact h')]
  exact h6

/-- The function for one root does not check whether the root was processed before: called a second time for the same term
it fails an assertion, whatever the bound for the number of iterations is. The function for several roots, which the solver
calls, checks this. -/
theorem C88_root_twice {s : TermTable} {t : Tm} {done : List Nat} (hd : ArgsClosed s done) (htd : t.index ∈ done)
    (V : List Tm) (fuel : Nat) : VisitState.loop s fuel [(t, 0)] ⟨done, V⟩ = none := by
  have key : ∀ (j k fuel : Nat), k + j = (s.args t).length → VisitState.loop s fuel [(t, k)] ⟨done, V⟩ = none := by
    intro j
    induction j with
    | zero =>
      intro k fuel hk
      cases fuel with
      | zero => rfl
      | succ fuel =>
        rw [VisitState.loop, List.getElem?_eq_none (by omega)]
        exact if_pos htd
    | succ j ih =>
      intro k fuel hk
      cases fuel with
      | zero => rfl
      | succ fuel =>
        rw [VisitState.loop, List.getElem?_eq_getElem (by omega)]
        simp only
        rw [if_pos (hd t htd _ (List.getElem_mem _))]
        exact ih _ _ (by omega)
  exact key (s.args t).length 0 _ (by omega)

/-! A table with shared subterms: the constants 6, 8, 10, the term 12 for `6 ∨ 8 ∨ ¬10` and the term 14 for `6 ∨ ¬12`. -/

private def h0 : TermHash := ⟨fun _ _ => 0, fun _ _ => 0, fun _ => 0⟩

private def build : List MgrOp → Option TermTable
  | [] => some (TermTable.init h0)
  | op :: ops => (build ops).bind fun s => (op.run h0 s).map (·.1)

private def ops : List MgrOp := [.or [⟨6⟩, ⟨13⟩], .or [⟨6⟩, ⟨8⟩, ⟨11⟩], .fresh .bool, .fresh .bool, .fresh .bool]

private def tb (n : Nat) : TermTable := (build (ops.drop n)).getD ⟨[], []⟩

private theorem build_step {op : MgrOp} {ops : List MgrOp} {s r : TermTable} (h : build ops = some s)
    (hr : TReach h0 s) (ht : op.Typed s) (h' : build (op :: ops) = some r) : TReach h0 r := by
  rw [build, h, Option.bind_some] at h'
  obtain ⟨p, hp, rfl⟩ := Option.map_eq_some_iff.mp h'
  exact TReach.step hr (r := p) ht hp

private theorem tb_reach : TReach h0 (tb 0) := by
  have h : ∀ n, n ≤ 5 → build (ops.drop n) = some (tb n) := by decide +kernel
  have r5 : TReach h0 (tb 5) := .init
  have r4 : TReach h0 (tb 4) := build_step (op := .fresh .bool) (ops := ops.drop 5) (h 5 (by omega)) r5
    (by unfold MgrOp.Typed; decide) (h 4 (by omega))
  have r3 : TReach h0 (tb 3) := build_step (op := .fresh .bool) (ops := ops.drop 4) (h 4 (by omega)) r4
    (by unfold MgrOp.Typed; decide) (h 3 (by omega))
  have r2 : TReach h0 (tb 2) := build_step (op := .fresh .bool) (ops := ops.drop 3) (h 3 (by omega)) r3
    (by unfold MgrOp.Typed; decide) (h 2 (by omega))
  have r1 : TReach h0 (tb 1) := build_step (op := .or [⟨6⟩, ⟨8⟩, ⟨11⟩]) (ops := ops.drop 2) (h 2 (by omega)) r2
    (by unfold MgrOp.Typed; decide +kernel) (h 1 (by omega))
  exact build_step (op := .or [⟨6⟩, ⟨13⟩]) (ops := ops.drop 1) (h 1 (by omega)) r1
    (by unfold MgrOp.Typed; decide +kernel) (h 0 (by omega))

example : TReach h0 (tb 0) ∧ (∀ t ∈ ([⟨14⟩, ⟨9⟩] : List Tm), t.index < (tb 0).terms.length) ∧ ArgsClosed (tb 0) [] ∧
    VisitState.visitAll (tb 0) [⟨14⟩, ⟨9⟩] ⟨[], []⟩ = some ⟨[3, 4, 5, 6, 7], [⟨6⟩, ⟨8⟩, ⟨11⟩, ⟨13⟩, ⟨14⟩]⟩ :=
  ⟨tb_reach, by decide +kernel, nofun, by decide +kernel⟩

/-- A second call goes on from the terms processed by the first. -/
example : VisitState.visitAll (tb 0) [⟨13⟩, ⟨14⟩] ⟨[3, 4], []⟩ = some ⟨[3, 4, 5, 6, 7], [⟨11⟩, ⟨13⟩, ⟨14⟩]⟩ ∧
    VisitState.visitTerm (tb 0) ⟨6⟩ ⟨[3, 4], []⟩ = none := by decide +kernel

#print axioms C88_traversal
#print axioms C88_conversion
#print axioms C88_root_twice

end Yaga
