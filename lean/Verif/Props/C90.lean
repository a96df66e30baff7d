/-
C90: no assertion fails while a conflict is handled.
-/
import Verif.Proofs.AnalysisExample
import Verif.Proofs.BacktrackChecked
import Verif.Props.C52
import Verif.Props.C60

namespace Yaga
open Spec

/-- C90, analysis: with a well-formed trail and clauses that are false, analysing conflicts, minimising the results and
removing subsumed ones fails no assertion, takes `value()` of no empty `optional`, and stays inside all vectors; the
result is that of the unchecked model (C04 to C06), and its clauses are false. -/
theorem C90_analysis {R : Type} (deref : R → Clause) (t : Trail R) (hi : t.Inv) (hr : ReasonsOk deref t)
    (cs : List Clause) (hf : ∀ c ∈ cs, ∀ l ∈ c, evalLit t.bools l = some false) :
    ∃ learned lvl, analyzeConflictsC (t.bools.num * 2) deref t cs = some (learned, lvl) ∧
      analyzeConflicts deref t cs = some (learned, lvl) ∧
      ∀ c ∈ learned, ∀ l ∈ c, evalLit t.bools l = some false := by
  obtain ⟨⟨learned, lvl⟩, h1, h2, h3⟩ := analyzeConflictsC_eq hi hr hf
  exact ⟨learned, lvl, h1, h2, h3⟩

/-- C90, learning: the levels of the first two literals that `learn` asks for exist, so `learn` keeps the clauses that
the unchecked model keeps. -/
theorem C90_learn {R : Type} (t : Trail R) (hi : t.Inv) (cs : List Clause)
    (hf : ∀ c ∈ cs, ∀ l ∈ c, evalLit t.bools l = some false) :
    learnSelectC t cs = some (learnSelect t cs) :=
  learnSelectC_eq fun c hc l hl => false_level hi (hf c hc l hl)

/-- C90, sorting: the comparison with which `finish` sorts the literals of a clause, on every trail, and the comparison
with which the clauses are sorted are strict weak orderings, as `std::sort` requires. -/
theorem C90_orderings {R : Type} (t : Trail R) : StrictWeak (CA.before t) ∧ StrictWeak clauseLt :=
  ⟨before_strictWeak t, clauseLt_strictWeak⟩

/-- C90, the solver for QF_LRA: in every reachable state, whenever propagation reports conflicts, the conflict branch
of `check` (analysis, learning, and `backtrack_with` with the assertions of the trail) does not fail, whatever
`is_before` answers. It answers unsat or the trail becomes one that the model of the loop describes. -/
theorem C90_conflict {O : Type} (hv : Nat → Nat) (hc : ℚ → Nat) (op : LaOpts) (W : QOrder O)
    (A : List Clause) (P : List QAtom) (c0 : QC O) (h : Qf.Start hv hc A P c0)
    (hW : ∀ c, Qf.Reach hv hc op W c0 c → Qf.PicksFree hv hc op W c)
    (c : QC O) (hr : Qf.Reach hv hc op W c0 c) (cs : List Clause) (q : QS)
    (hp : Qf.QProp hv hc op c.q cs q) (hne : cs ≠ []) (before : Var → Var → Bool) (r : Nat) :
    conflictC before (q.s.t.bools.num * 2) q.s cs r = some none ∨
      ∃ t ls, ∃ L : Nat, conflictC before (q.s.t.bools.num * 2) q.s cs r = some (some t) ∧
        Check.Learned q.s cs ls L ∧ AfterBacktrack q.s ls L r t := by
  obtain ⟨st, h1, hd, hB, h2⟩ := Qf.at_conflict h hW hr hp hne
  obtain ⟨w, hg⟩ := h1.reach.good
  have hG := h1.good _ hg.keep.base.inv (LinStore.Kept.refl _)
  obtain ⟨k1, k2⟩ := Qf.handled h1 hd hB hne h2
  exact conflictC_spec hG.base.inv hG.rok (fun c hc => (h2 c hc).1) k1 k2 before r

/-- C90, the propositional solver: the same for every reachable state of the solver that only has the Boolean plugin;
the clauses learned are not taken for semantic splits. -/
theorem C90_propositional {S : Type} [LinearOrder S] [ScoreOps S] {A : List Clause} {c0 c : CS (Evsids S)}
    (h : Check.PropStart A c0) (hr : Check.Reach (Check.propEnv S) c0 c) (cs : List Clause) (s : BS)
    (hp : Check.PropRun (Check.propEnv S) c.s cs s) (hne : cs ≠ []) (before : Var → Var → Bool) (r : Nat) :
    conflictC before (s.t.bools.num * 2) s cs r = some none ∨
      ∃ t ls, ∃ L : Nat, conflictC before (s.t.bools.num * 2) s cs r = some (some t) ∧
        Check.Learned s cs ls L ∧ t = (BS.propHeads L ls r (s.backtrackTo L)).t := by
  have hg := Check.pgood_reach h hr
  rcases Check.ps_propRun hg.1 hp with ⟨rfl, -⟩ | ⟨d, rfl, h1, h2⟩
  · exact absurd rfl hne
  have hi := h1.good.base.inv
  obtain ⟨c', lvl, e1, e2⟩ := Check.prop_asserting h1.good h1.tr h2
  have hac : analyzeConflicts s.clause s.t [d] = some ([c'], some lvl) := by
    rw [Check.analyzeConflicts_one, e1]; rfl
  have hu : ∀ ls (L : Nat), Check.Learned s [d] ls L → ls = [c'] ∧ c' ≠ [] ∧ lvl = L := by
    rintro ls L ⟨learned, g1, g2, rfl⟩
    rw [hac] at g1
    simp only [Option.some.injEq, Prod.mk.injEq] at g1
    obtain ⟨rfl, rfl⟩ := g1
    exact ⟨Check.learnSelect_one _ _, fun e => g2 (by simp [e]), rfl⟩
  have hs : ∀ L : Nat, BS.Asserting s L c' → isSemanticSplit s.t c' = false := by
    rintro L ⟨x, rest, rfl, ⟨k, g5, g6⟩, g7, -⟩
    cases rest with
    | nil => simp [isSemanticSplit]
    | cons z zs =>
      obtain ⟨-, k', hk', e⟩ := g7 z (by simp)
      simp [isSemanticSplit, g5, e]
      omega
  have hb := conflictC_spec (s := s) (cs := [d]) hi h1.good.rok (by simpa using h2) ⟨[c'], lvl, hac, by
      rcases e2 with rfl | ⟨L, rfl, e3, -⟩
      · exact Or.inl (by simp)
      · exact Or.inr ⟨by rw [Check.learnSelect_one]; simp, L, rfl, e3⟩⟩
    (fun ls L hl => by
      obtain ⟨rfl, g1, g2⟩ := hu ls L hl
      rcases e2 with e | ⟨L', rfl, e3, e4⟩
      · exact absurd e g1
      obtain rfl : L' = L := by exact_mod_cast g2
      refine ⟨e3, Or.inr ⟨by simpa using hs _ e4, ?_⟩⟩
      obtain ⟨x, rest, rfl, ⟨k, g5, g6⟩, g7, -⟩ := e4
      obtain ⟨-, b1, b2, b3, -⟩ := Trail.backtrack_spec hi L' (by omega)
      intro c hc
      obtain rfl := List.mem_singleton.1 hc
      refine ⟨x, rest, rfl, level_known hi g5, (b1 _ _ g5 g6).1, fun y hy => ?_⟩
      obtain ⟨f1, k', hk', f2⟩ := g7 y hy
      rw [evalLit_backtrack_low hi (by omega) f2 hk']; exact f1) before r
  rcases hb with hb | ⟨t, ls, L, hb, hl, ha⟩
  · exact Or.inl hb
  · refine Or.inr ⟨t, ls, L, hb, hl, ?_⟩
    obtain ⟨rfl, g1, g2⟩ := hu ls L hl
    rcases e2 with e | ⟨L', rfl, e3, e4⟩
    · exact absurd e g1
    rcases ha with ⟨c, hc, h3, -⟩ | ⟨-, ha⟩
    · simp only [List.head?_cons, Option.mem_def, Option.some.injEq] at hc
      rw [← hc, hs _ e4] at h3; cases h3
    · exact ha

/-! Not vacuous: the example of C05 for the trail; its conflict is above level 0 and needs resolution with the reasons
of both literals. -/
example : Example.t4.Inv ∧ ReasonsOk id Example.t4 ∧
    (∀ c ∈ [Example.conflict], ∀ l ∈ c, evalLit Example.t4.bools l = some false) ∧
    analyzeConflictsC (Example.t4.bools.num * 2) id Example.t4 [Example.conflict] =
      some ([[(Lit.pos 2).neg, (Lit.pos 0).neg]], some 1) :=
  ⟨Example.t4_inv, Example.t4_reasons, by simpa using Example.conflict_false, by decide +kernel⟩

/-- The assertions are there: a clause that is not false is refused by the analysis, and a bit vector of `Subsumption`
that is too small for the literals is noticed. -/
example : analyzeConflictsC (Example.t4.bools.num * 2) id Example.t4 [[.pos 3, .pos 2]] = none ∧
    analyzeConflictsC 3 id Example.t4 [Example.conflict, Example.conflict] = none := by decide +kernel

/-- So are those of `backtrack_with`: a learned clause that is handled as a split is refused above a Boolean decision,
and so is a level above the current one. -/
example : (backtrackWithC (fun _ _ => true) C15Ex.s3.t [[(Lit.pos 0).neg, (Lit.pos 1).neg]] 4 0).isNone = true ∧
    (backtrackWithC (fun _ _ => true) C15Ex.s3.t [[(Lit.pos 0).neg]] 4 2).isNone = true ∧
    (backtrackWithC (fun _ _ => true) C15Ex.s3.t [[(Lit.pos 0).neg]] 4 0).map
      (fun t => evalLit t.bools (Lit.pos 0).neg) = some (some true) := by decide +kernel

/-- The propositional solver: the run of C15 has a conflict above level 0. -/
example : Check.PropStart C15Ex.cls C15Ex.c0 ∧
    Check.Reach (Check.propEnv Int) C15Ex.c0 ⟨C15Ex.s2, 0, C15Ex.order⟩ ∧
    Check.PropRun (Check.propEnv Int) C15Ex.s2 [C15Ex.c3] C15Ex.s3 ∧ C15Ex.s3.t.decisionLevel = 1 ∧
    (conflictC (fun _ _ => true) (C15Ex.s3.t.bools.num * 2) C15Ex.s3 [C15Ex.c3] 4).map
      (Option.map fun t => evalLit t.bools (Lit.pos 0).neg) = some (some (some true)) :=
  ⟨C15Ex.c0_start, .step .refl (.decideBool (c := C15Ex.c0) (s := C15Ex.s1) (n := 0)
    (.done ⟨10, rfl⟩ (.refl _)) ⟨by decide, rfl⟩), .boolConflict ⟨10, rfl⟩, by decide, by decide +kernel⟩

/-- The solver for QF_LRA: the run of C60 reaches a conflict that it resolves with a semantic split; the branch makes
the decision. -/
def Qf.exSplitC (c0 : QC Unit) : Bool :=
  match Qf.iterRun id (fun _ => 0) Qf.exOpts 100 c0 with
  | some (.run c) =>
    match Qf.propRun id (fun _ => 0) Qf.exOpts 100 c.q with
    | some (cs, q) => !cs.isEmpty &&
      match conflictC (fun _ _ => false) (q.s.t.bools.num * 2) q.s cs 3 with
      | some (some t) => t.decisionLevel == 1 && (t.assigned 1).all fun a => a.var.type == .boolean && a.reason.isNone
      | _ => false
    | none => false
  | _ => false

example : ((Qf.startRun id (fun _ => 0) Qf.exSplitBuild Qf.exSplit).map fun r => Qf.exSplitC r.1) = some true := by
  decide +kernel

#print axioms C90_analysis
#print axioms C90_learn
#print axioms C90_orderings
#print axioms C90_conflict
#print axioms C90_propositional

end Yaga
