/-
A small database for the examples beside the theorems on unit propagation.
-/
import Verif.Proofs.BoolComplete

namespace Yaga.BS.Ex

/-- An empty trail with `n` boolean variables. -/
def trail (n : Nat) : Trail Nat := (Trail.init.resize .boolean n).clear

/-- A solver state with `n` variables and these clauses. -/
def state (n : Nat) (cs : List Clause) : BS := { BS.new with cls := cs, na := cs.length, t := trail n }

/-- Four variables; x0, ¬x0 ∨ x1, ¬x2 ∨ ¬x1 ∨ x3, ¬x2 ∨ ¬x3. -/
def cls : List Clause :=
  [[.pos 0], [(Lit.pos 0).neg, .pos 1], [(Lit.pos 2).neg, (Lit.pos 1).neg, .pos 3],
   [(Lit.pos 2).neg, (Lit.pos 3).neg]]

def s0 : BS := state 4 cls

theorem s0_start : AnyHist false s0 :=
  .start s0 rfl ⟨by decide, by decide⟩

theorem s0_hist : Hist .fresh s0 := .start s0 rfl ⟨by decide, by decide⟩

/-- The state after the first propagation. -/
def s1 : BS := ((propLoop 10 s0.initProp).getD (none, s0)).2

theorem s0_s1 : Propagates s0 none s1 := ⟨10, rfl⟩

/-- Decide x2. -/
def s2 : BS := s1.decideOther (.bool 2) (.b true)

theorem s1_hist : Hist .complete s1 := Hist.propFresh (c := none) s0_hist s0_s1

theorem s2_hist : Hist .ready s2 :=
  .decide s1_hist (by simp only [Trail.Pre]; decide)

theorem s2_any : AnyHist true s2 :=
  AnyHist.decide (v := .bool 2) (x := .b true) (.propagate s0_start s0_s1)
    (by simp only [Trail.Pre]; decide)

/-- The state after the second propagation. -/
def s3 : BS := ((propLoop 10 s2.initProp).getD (none, s0)).2

/-- The second propagation ends with a conflict. -/
theorem s2_s3 : Propagates s2 (some [(Lit.pos 2).neg, .pos 3, (Lit.pos 1).neg]) s3 := ⟨10, rfl⟩

end Yaga.BS.Ex
