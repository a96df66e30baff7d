/-
Histories of the plugin for uninterpreted functions within a check.
-/
import Verif.Model.Uf

namespace Yaga

namespace UF

/-- The state when `Solver::check` starts, src/Solver.cpp:188-190, for the first check of a script: the
internalizer has made the variables and registered the applications (`make_function_application`,
src/Yaga.cpp:101-107), nothing is assigned. The asserted clauses belong to the database, not to the plugin,
and are left out; so are the watch lists of the plugin for linear arithmetic, on which nothing in this plugin
depends. -/
def start (R : Type) (s : TermTable) (st : IState) : UF R where
  ist := { st with clauses := [] }
  trail := ((Trail.init : Trail R).resize .boolean st.numBool).resize .rational st.numRat
  watch := st.apps.map fun p => watchFor s st p.1 p.2
  fns := []
  lraWatch := fun _ => []

/-- States the plugin can be in. `settled` is true if the plugin has processed the current decision level
without a conflict. The rules are the events the solver loop produces (src/Solver.cpp:97-149, 153-157, 178-228,
src/Theory_combination.h): a decision is made after `propagate` of all plugins without conflicts, or after
backtracking to a lower level; only decisions assign rational variables
(src/lra/Linear_arithmetic.cpp:506-545); Boolean variables are propagated at any level; new constraints are
made by the LRA plugin. -/
inductive Reach {R : Type} (cfg : ICfg) (s : TermTable) (st : IState) : UF R → Bool → Prop where
  | start : Reach cfg s st (start R s st) true
  | decide {u : UF R} {v : Var} {x : Val} : Reach cfg s st u true → u.trail.Pre (.decide v x) →
      Reach cfg s st { u with trail := u.trail.step (.decide v x) } false
  | assign {u : UF R} {d : Bool} {k : Nat} {r : Option R} {lvl : Nat} {b : Bool} : Reach cfg s st u d →
      u.trail.Pre (.propagate (Var.bool k) r lvl (.b b)) →
      Reach cfg s st { u with trail := u.trail.step (.propagate (Var.bool k) r lvl (.b b)) } d
  | constraint {u u' : UF R} {d : Bool} {ts : List (Nat × ℚ)} {pred : Pred} {rhs : ℚ} {l : Lit} :
      Reach cfg s st u d → (ts.map (·.1)).Nodup → linear cfg u ts pred rhs = some (u', l) →
      Reach cfg s st u' d
  | propagate {u u' : UF R} {d : Bool} {cs : List Clause} : Reach cfg s st u d →
      propagate cfg s u = some (u', cs) → Reach cfg s st u' cs.isEmpty
  | backtrack {u : UF R} {d : Bool} {lvl : Nat} : Reach cfg s st u d → lvl ≤ u.trail.decisionLevel →
      Reach cfg s st { onBeforeBacktrack u lvl with trail := u.trail.backtrack lvl }
        (d || Decidable.decide (lvl < u.trail.decisionLevel))
  | restart {u : UF R} {d : Bool} : Reach cfg s st u d →
      Reach cfg s st { onBeforeBacktrack u 0 with trail := u.trail.clear } true

end UF

end Yaga
