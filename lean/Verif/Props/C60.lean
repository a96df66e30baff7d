/-
C60: handling a conflict in the solver for QF_LRA does not fail.
-/
import Verif.Proofs.QfSplit
import Verif.Props.C59

namespace Yaga
open Spec

namespace Qf
open BS Check

/-- What holds for a reachable state after propagation has found conflicts. -/
theorem at_conflict {O : Type} {hv : Nat → Nat} {hc : ℚ → Nat} {op : LaOpts} {W : QOrder O}
    {A : List Clause} {P : List QAtom} {c0 : QC O} (h : Start hv hc A P c0)
    (hW : ∀ c, Reach hv hc op W c0 c → PicksFree hv hc op W c) {c : QC O} (hr : Reach hv hc op W c0 c)
    {cs : List Clause} {q : QS} (hp : QProp hv hc op c.q cs q) (hne : cs ≠ []) :
    ∃ st, Core hv hc op c0.q.la.store A true st q ∧ DecOk q.s.t ∧ BoolOk A .conflict q.s ∧
      Confl (fun _ => True) A q cs := by
  obtain ⟨b, st, hs, hC, hB, -⟩ := all_reach h hW hr
  have hd := dec_reach h hW hr
  obtain ⟨st', h1, _, h2⟩ := core_prop hp hC hs
  have hB' := bool_prop hp hC hs hB
  rw [if_neg hne] at hB'
  exact ⟨st', h1, dec_prop hp hC hs hd, hB', h2⟩

end Qf

/-- C60. Whenever propagation reports conflicts, the analysis does not fail, and either it
finds the empty clause or there is a learned clause and the level to which the solver backtracks is below
the current level. -/
theorem C60_analysis {O : Type} (hv : Nat → Nat) (hc : ℚ → Nat) (op : LaOpts) (W : QOrder O)
    (A : List Clause) (P : List QAtom) (c0 : QC O) (h : Qf.Start hv hc A P c0)
    (hW : ∀ c, Qf.Reach hv hc op W c0 c → Qf.PicksFree hv hc op W c)
    (c : QC O) (hr : Qf.Reach hv hc op W c0 c) (cs : List Clause) (q : QS)
    (hp : Qf.QProp hv hc op c.q cs q) (hne : cs ≠ []) :
    ∃ learned lvl, analyzeConflicts q.s.clause q.s.t cs = some (learned, some lvl) ∧
      ([] ∈ learned ∨ learnSelect q.s.t learned ≠ [] ∧ ∃ L : Nat, lvl = L ∧ L < q.s.t.decisionLevel) := by
  obtain ⟨st, h1, hd, hB, h2⟩ := Qf.at_conflict h hW hr hp hne
  exact (Qf.handled h1 hd hB hne h2).1

/-- C60. The assertions of `backtrack_with` hold (src/Solver.cpp:97-148). The learned clauses are all
semantic splits or none is one. For semantic splits the literals from which the solver chooses have no
reason, they are declared and not assigned after backtracking, there is a level above the one to which the
solver backtracks, and its decision is the value of a rational variable. Otherwise the first literal of
every clause is not assigned after backtracking and the others are false, so it has to be propagated. -/
theorem C60_backtrack {O : Type} (hv : Nat → Nat) (hc : ℚ → Nat) (op : LaOpts) (W : QOrder O)
    (A : List Clause) (P : List QAtom) (c0 : QC O) (h : Qf.Start hv hc A P c0)
    (hW : ∀ c, Qf.Reach hv hc op W c0 c → Qf.PicksFree hv hc op W c)
    (c : QC O) (hr : Qf.Reach hv hc op W c0 c) (cs : List Clause) (q : QS)
    (hp : Qf.QProp hv hc op c.q cs q) (hne : cs ≠ [])
    (ls : List Clause) (L : Nat) (hl : Check.Learned q.s cs ls L) :
    L + 1 ≤ q.s.t.decisionLevel ∧
    ((∀ d ∈ ls, isSemanticSplit q.s.t d = true) ∧
        (∀ d ∈ ls, Qf.topLits q.s.t d ≠ [] ∧ ∀ x ∈ Qf.topLits q.s.t d, q.s.t.reason x.var = none ∧
          x.ord < q.s.t.bools.num ∧ (q.s.t.backtrack L).level x.var = none) ∧
        (∃ a, (q.s.t.assigned (L + 1)).head? = some a ∧ a.var.type ≠ .boolean) ∨
      (∀ d ∈ ls, isSemanticSplit q.s.t d = false) ∧
        ∀ d ∈ ls, ∃ x rest, d = x :: rest ∧ x.ord < q.s.t.bools.num ∧ (q.s.t.backtrack L).level x.var = none ∧
          ∀ y ∈ rest, evalLit (q.s.t.backtrack L).bools y = some false) := by
  obtain ⟨st, h1, hd, hB, h2⟩ := Qf.at_conflict h hW hr hp hne
  exact (Qf.handled h1 hd hB hne h2).2 ls L hl

/-- C60. So after a conflict the loop can always continue: an iteration exists, if the variable order can
handle its events. -/
theorem C60_continues {O : Type} (hv : Nat → Nat) (hc : ℚ → Nat) (op : LaOpts) (W : QOrder O)
    (A : List Clause) (P : List QAtom) (c0 : QC O) (h : Qf.Start hv hc A P c0)
    (hW : ∀ c, Qf.Reach hv hc op W c0 c → Qf.PicksFree hv hc op W c)
    (c : QC O) (hr : Qf.Reach hv hc op W c0 c) (hev : Qf.Handles hv hc op W c) (cs : List Clause) (q : QS)
    (hp : Qf.QProp hv hc op c.q cs q) (hne : cs ≠ []) : ∃ out, Qf.Iter hv hc op W c out := by
  by_cases h0 : q.s.t.decisionLevel = 0
  · exact ⟨_, .unsatZero hp hne h0⟩
  obtain ⟨learned, lvl, e1, e2⟩ := C60_analysis hv hc op W A P c0 h hW c hr cs q hp hne
  by_cases he : [] ∈ learned
  · exact ⟨_, .unsatEmpty hp hne h0 e1 he⟩
  rcases e2 with e2 | ⟨e2, L, rfl, -⟩
  · exact absurd e2 he
  have hl : Check.Learned q.s cs (learnSelect q.s.t learned) L := ⟨⟨learned, e1, he, rfl⟩⟩
  obtain ⟨o', ho⟩ := hev cs q (some L) hp hne
  obtain ⟨-, g⟩ := C60_backtrack hv hc op W A P c0 h hW c hr cs q hp hne _ L hl
  cases hs : learnSelect q.s.t learned with
  | nil => exact absurd hs e2
  | cons d ds =>
    rw [hs] at hl g
    rcases g with ⟨g1, g2, -⟩ | ⟨g1, -⟩
    · obtain ⟨k1, k2⟩ := g2 d (by simp)
      cases ht : Qf.topLits q.s.t d with
      | nil => exact absurd ht k1
      | cons x xs =>
        have hx : x ∈ Qf.topLits q.s.t d := by rw [ht]; simp
        exact ⟨_, .split hp hne h0 hl ho (by simp) (g1 d (by simp)) hx (k2 x hx).2.2⟩
    · exact ⟨_, .uip hp hne h0 hl ho (by simp [g1 d (by simp)])⟩

/-- `x₀ - x₁ ≤ 0`, `x₁ - x₀ ≤ 0`, `x₁ = 0`. -/
def Qf.exSplitBuild : List Qf.BAct :=
  [.vars .rational 2, .cons [(0, 1), (1, -1)] .leq 0, .cons [(1, 1), (0, -1)] .leq 0, .cons [(1, 1)] .eq 0]

def Qf.exSplit : List Clause := [[Lit.pos 0], [(Lit.pos 1).neg], [(Lit.pos 2).neg]]

/-- Whether propagation in the second iteration finds a conflict from which a semantic split is made. -/
def Qf.exSplitOk (c0 : QC Unit) : Bool :=
  match Qf.iterRun id (fun _ => 0) Qf.exOpts 100 c0 with
  | some (.run c) =>
    match Qf.propRun id (fun _ => 0) Qf.exOpts 100 c.q with
    | some (cs, q) => !cs.isEmpty &&
      match analyzeConflicts q.s.clause q.s.t cs with
      | some (learned, some (.ofNat _)) => !learned.contains [] && (learnSelect q.s.t learned).any (isSemanticSplit q.s.t)
      | _ => false
    | none => false
  | _ => false

theorem Qf.exSplit_run : ((Qf.startRun id (fun _ => 0) Qf.exSplitBuild Qf.exSplit).map fun r => Qf.exSplitOk r.1) =
    some true := by decide +kernel

/-- The hypotheses of the theorems hold: the solver decides `x₀ = 0`, the conflict clause has the literals
`x₀ < 0` and `x₀ > 0`, both false since the decision, and the solver decides one of them. -/
example : ∃ c0 P c cs q ls, ∃ L : Nat, Qf.Start id (fun _ => 0) Qf.exSplit P c0 ∧
    (∀ c, Qf.PicksFree id (fun _ => 0) Qf.exOpts Qf.anyOrder c) ∧
    Qf.Reach id (fun _ => 0) Qf.exOpts Qf.anyOrder c0 c ∧ Qf.QProp id (fun _ => 0) Qf.exOpts c.q cs q ∧ cs ≠ [] ∧
    Check.Learned q.s cs ls L ∧ ∃ d ∈ ls, isSemanticSplit q.s.t d = true := by
  have h := Qf.exSplit_run
  cases hs : Qf.startRun id (fun _ => 0) Qf.exSplitBuild Qf.exSplit with
  | none => rw [hs] at h; cases h
  | some r =>
    obtain ⟨c0, P⟩ := r
    rw [hs] at h
    simp only [Option.map_some, Option.some.injEq] at h
    unfold Qf.exSplitOk at h
    split at h
    · rename_i c hc
      split at h
      · rename_i cs q hq
        obtain ⟨h1, h⟩ := Bool.and_eq_true_iff.mp h
        split at h
        · rename_i learned L ha
          obtain ⟨h2, h⟩ := Bool.and_eq_true_iff.mp h
          refine ⟨c0, P, c, cs, q, learnSelect q.s.t learned, L, Qf.startRun_sound _ _ hs,
            fun c => (Qf.anyOrder_ok c).1, .step .refl (Qf.iterRun_sound _ _ hc), Qf.propRun_sound _ _ hq, ?_,
            ⟨⟨learned, ha, ?_, rfl⟩⟩, List.any_eq_true.mp h⟩
          · rintro rfl; simp at h1
          · simpa using h2
        · cases h
      · cases h
    · cases h

#print axioms C60_analysis
#print axioms C60_backtrack
#print axioms C60_continues

end Yaga
