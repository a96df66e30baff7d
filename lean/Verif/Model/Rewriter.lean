/-
Model of `src/terms/Term_rewriter.h` and of applying a defined function, `resolve` in
src/parser/Parser_context.cpp.
-/
import Verif.Model.TermManager

namespace Yaga

variable (H : TermHash)

/-- `mk_term(Kind, span)`, src/terms/Term_manager.cpp:126-160. `none`: an assertion or an exception. -/
def mkTermKind (s : TermTable) (k : Kind) (args : List Tm) : Option (TermTable × Tm) :=
  match k, args with
  | .arithGe, [t] => s.mkGeq H t Tm.zero
  | .arithEq, [t] => s.mkArithEq H t Tm.zero
  | .arithBinEq, [a, b] => s.mkArithEq H a b
  | .or, as => some (s.mkOr H as)
  | .product, as => s.mkTimes H as
  | .poly, as => s.mkPlus H as
  | .ite, [c, t, e] => s.mkIte H c t e
  | .app, a :: as => some (s.appTerm H (s.type a) (a :: as))
  | _, _ => none

/-- `std::unordered_map<term_t, term_t>` with `insert`, which keeps an existing entry. -/
def substFind (m : List (Tm × Tm)) (t : Tm) : Option Tm := (m.find? fun p => p.1 == t).map Prod.snd

/-- `VarSubstituteConfig::rewrite`, src/terms/Term_rewriter.h:91-101. -/
def varSubstitute (s : TermTable) (m : List (Tm × Tm)) (t : Tm) : Tm :=
  if t.isNeg = false ∧ s.kind t = .uninterpreted then (substFind m t).getD t else t

/-- The local variables of `Rewriter::rewrite`, src/terms/Term_rewriter.h:21-31; the back of `toProcess` is
the head of the list. -/
structure RwState where
  table : TermTable
  subst : List (Tm × Tm)
  processed : List Tm
  stack : List (Tm × Nat)

/-- The loop, src/terms/Term_rewriter.h:33-67. `cfg` is `cfg.rewrite`. The condition at line 44 is modelled
as it is: a child is visited if it is *already* processed. `none`: an assertion fails, or the fuel is
used up. -/
def rewriteLoop (cfg : TermTable → Tm → Tm) : Nat → RwState → Option RwState
  | 0, _ => none
  | fuel + 1, st =>
    match st.stack with
    | [] => some st
    | (t, next) :: rest =>
      if t ∈ st.processed then none
      else
        let children := st.table.args t
        if h : next < children.length then
          let child := children[next]
          if child ∈ st.processed then
            rewriteLoop cfg fuel { st with stack := (child, 0) :: (t, next + 1) :: rest }
          else rewriteLoop cfg fuel { st with stack := (t, next + 1) :: rest }
        else
          let needsChange := children.any fun c => (substFind st.subst c).isSome
          let auxArgs := children.map fun c => (substFind st.subst c).getD c
          (if needsChange then mkTermKind H st.table (st.table.kind t) auxArgs else some (st.table, t)).bind
            fun r =>
              let rewritten := cfg r.1 r.2
              if rewritten ≠ r.2 ∨ needsChange = true then
                if r.1.type t = r.1.type rewritten then
                  rewriteLoop cfg fuel ⟨r.1, st.subst ++ [(t, rewritten)], t :: st.processed, rest⟩
                else none
              else rewriteLoop cfg fuel ⟨r.1, st.subst, t :: st.processed, rest⟩

/-- `Rewriter::rewrite`, src/terms/Term_rewriter.h:20-71. -/
def rewriteTerm (cfg : TermTable → Tm → Tm) (fuel : Nat) (s : TermTable) (root : Tm) :
    Option (TermTable × Tm) :=
  (rewriteLoop H cfg fuel ⟨s, [], [], [(root, 0)]⟩).map fun st =>
    (st.table, (substFind st.subst root).getD root)

/-- `resolve`, src/parser/Parser_context.cpp:161-172, with `simultaneous_variable_substitution`,
src/terms/Term_rewriter.h:104-109. -/
def resolveApp (fuel : Nat) (s : TermTable) (params : List Tm) (body : Tm) (args : List Tm) :
    Option (TermTable × Tm) :=
  if params.length = args.length then
    rewriteTerm H (fun s t => varSubstitute s (params.zip args) t) fuel s body
  else none

end Yaga
