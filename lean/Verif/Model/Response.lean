/-
The response to `get-model` after the first call of `check_sat`, with the names of the script.
-/
import Verif.Model.FirstCheck
import Verif.Model.PrintModel

namespace Yaga

/-- `get_term_name`, src/terms/Terms.cpp:217-225; `name_table` has the pairs of `set_term_name` in the other
direction (src/terms/Terms.cpp:211-215). A function symbol is not an application, so that the recursion ends after
one call. -/
def Names.termName (s : Names) (t : Tm) : Option (List Char) :=
  match s.names.find? fun p => decide (p.2 = t) with
  | some p => some p.1.toList
  | none =>
    if s.table.kind t = .app then
      (s.names.find? fun p => decide (p.2 = s.table.fncSymbol t)).map fun p => p.1.toList
    else none

variable (S : Type) [LinearOrder S] [ScoreOps S]

/-- The texts that can be printed for `get-model`, src/parser/Smt2_parser.cpp:323-328, after the first call of `check_sat` has
answered `sat` for QF_LRA. The solver has as many rational variables as the conversion has made. `none`: undefined behaviour
in `visit_fnc`. -/
def LraResponse (cfg : ICfg) (op : LaOpts) (pr : ℚ → LF) (s : Names) (as : List Tm) (text : Option (List Char)) : Prop :=
  ∃ (st : IState) (P : List QAtom) (c0 : QC (GVsids S)) (q : QS) (vs : List (Tm × Var)),
    Internalizer.check cfg s.table IState.init as = some (some st) ∧ Qf.Start cfg.hv cfg.hc st.clauses P c0 ∧
    c0.q.la.store = st.store ∧ c0.q.la.trail.rats.num = st.numRat ∧ Qf.OrderStart st.clauses c0 ∧
    Qf.Returns cfg.hv cfg.hc op (Qf.gvOrder S) c0 (.sat q) ∧ vs.Perm (PrintModel.varMap s.table st) ∧
    PrintModel.getModel pr s.termName s.table q.s.t vs [] = text

/-- The same for QF_UFLRA; `fs` are the keys of `functions`, src/uf/Uninterpreted_functions.cpp:368-378. -/
def UflResponse (cfg : ICfg) (op : LaOpts) (pr : ℚ → LF) (s : Names) (as : List Tm) (text : Option (List Char)) : Prop :=
  ∃ (st : IState) (P : List QAtom) (c0 : UC (GVsids S)) (x : US) (vs : List (Tm × Var)) (fs : List Tm),
    Internalizer.check cfg s.table IState.init as = some (some st) ∧ Ufl.Start ⟨cfg, s.table, st, op⟩ P c0 ∧
    Ufl.OrderStart ⟨cfg, s.table, st, op⟩ c0 ∧ Ufl.Returns ⟨cfg, s.table, st, op⟩ (Qf.gvOrder S) c0 (.sat x) ∧
    vs.Perm (PrintModel.varMap s.table st) ∧ (∀ e ∈ x.f.fns, e.fn ∈ fs) ∧
    (∀ f ∈ fs, ∃ p ∈ st.apps, s.table.fncSymbol p.2 = f) ∧
    PrintModel.getModel pr s.termName s.table x.q.la.trail vs (PrintModel.tables x.f.fns fs) = text

end Yaga
