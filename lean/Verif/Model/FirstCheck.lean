/-
The first call of `Parser_context::check_sat`, src/parser/Parser_context.cpp:60-63, with `Solver_wrapper::check`,
src/parser/Solver_wrapper.cpp:23-80: the conversion of the assertions followed by `Solver::check`.

The variable order is `Generalized_vsids`; the scores `S`, the answers of the restart policy, the options and the
hash functions are arbitrary.
-/
import Verif.Model.Internalizer
import Verif.Model.QfOrder
import Verif.Model.UfLraOrder
import Verif.Model.Commands

namespace Yaga

variable (S : Type) [LinearOrder S] [ScoreOps S]

/-- The answers of the first call for QF_LRA, src/parser/Solver_wrapper.cpp:25-80. The clauses, the constraints and
the variables with which the solver starts are those of the conversion. -/
inductive LraCheck (cfg : ICfg) (op : LaOpts) (s : TermTable) (as : List Tm) : SolverAnswer → Prop where
  | early (hc : Internalizer.check cfg s IState.init as = some none) : LraCheck cfg op s as .unsat
  | unsat {st : IState} {P : List QAtom} {c0 : QC (GVsids S)}
      (hc : Internalizer.check cfg s IState.init as = some (some st)) (h : Qf.Start cfg.hv cfg.hc st.clauses P c0)
      (hst : c0.q.la.store = st.store) (ho : Qf.OrderStart st.clauses c0)
      (hr : Qf.Returns cfg.hv cfg.hc op (Qf.gvOrder S) c0 .unsat) : LraCheck cfg op s as .unsat
  | sat {st : IState} {P : List QAtom} {c0 : QC (GVsids S)} {q : QS}
      (hc : Internalizer.check cfg s IState.init as = some (some st)) (h : Qf.Start cfg.hv cfg.hc st.clauses P c0)
      (hst : c0.q.la.store = st.store) (ho : Qf.OrderStart st.clauses c0)
      (hr : Qf.Returns cfg.hv cfg.hc op (Qf.gvOrder S) c0 (.sat q)) : LraCheck cfg op s as .sat

/-- The answers of the first call for QF_UFLRA, src/parser/Solver_wrapper.cpp:25-80. -/
inductive UflCheck (cfg : ICfg) (op : LaOpts) (s : TermTable) (as : List Tm) : SolverAnswer → Prop where
  | early (hc : Internalizer.check cfg s IState.init as = some none) : UflCheck cfg op s as .unsat
  | unsat {st : IState} {P : List QAtom} {c0 : UC (GVsids S)}
      (hc : Internalizer.check cfg s IState.init as = some (some st)) (h : Ufl.Start ⟨cfg, s, st, op⟩ P c0)
      (ho : Ufl.OrderStart ⟨cfg, s, st, op⟩ c0)
      (hr : Ufl.Returns ⟨cfg, s, st, op⟩ (Qf.gvOrder S) c0 .unsat) : UflCheck cfg op s as .unsat
  | sat {st : IState} {P : List QAtom} {c0 : UC (GVsids S)} {x : US}
      (hc : Internalizer.check cfg s IState.init as = some (some st)) (h : Ufl.Start ⟨cfg, s, st, op⟩ P c0)
      (ho : Ufl.OrderStart ⟨cfg, s, st, op⟩ c0)
      (hr : Ufl.Returns ⟨cfg, s, st, op⟩ (Qf.gvOrder S) c0 (.sat x)) : UflCheck cfg op s as .sat

/-- The loop of `Solver::check` (src/Solver.cpp:178-227) in the first call for QF_LRA can go on for ever. -/
def LraEndless (cfg : ICfg) (op : LaOpts) (s : TermTable) (as : List Tm) : Prop :=
  ∃ (st : IState) (P : List QAtom) (f : Nat → QC (GVsids S)),
    Internalizer.check cfg s IState.init as = some (some st) ∧ Qf.Start cfg.hv cfg.hc st.clauses P (f 0) ∧
    (f 0).q.la.store = st.store ∧ Qf.OrderStart st.clauses (f 0) ∧
    ∀ i, Qf.Iter cfg.hv cfg.hc op (Qf.gvOrder S) (f i) (.run (f (i + 1)))

/-- The same for QF_UFLRA. -/
def UflEndless (cfg : ICfg) (op : LaOpts) (s : TermTable) (as : List Tm) : Prop :=
  ∃ (st : IState) (P : List QAtom) (f : Nat → UC (GVsids S)),
    Internalizer.check cfg s IState.init as = some (some st) ∧ Ufl.Start ⟨cfg, s, st, op⟩ P (f 0) ∧
    Ufl.OrderStart ⟨cfg, s, st, op⟩ (f 0) ∧
    ∀ i, Ufl.Iter ⟨cfg, s, st, op⟩ (Qf.gvOrder S) (f i) (.run (f (i + 1)))

end Yaga
