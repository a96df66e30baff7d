/-
Model of the Fourier-Motzkin elimination and the conflict analyses in
`src/lra/Lra_conflict_analysis.{h,cpp}`.
-/
import Verif.Model.Bounds
import Verif.Model.LinearPolynomial
import Verif.Model.Events

namespace Yaga

/-- `Fm_elimination`, src/lra/Lra_conflict_analysis.h:196-202: `poly` and `pred`, that is the
constraint `poly pred 0`. -/
structure Fm where
  poly : DPoly
  pred : Pred
  deriving DecidableEq

namespace Fm

/-- `init(cons, pred, mult)`, src/lra/Lra_conflict_analysis.cpp:29-44. -/
def initWith (s : LinStore) (c : LinCons) (p : Pred) (mult : ℚ) : Fm :=
  ⟨⟨(s.terms c).map fun t => (t.1, t.2 * mult), -c.rhs * mult⟩, p⟩

/-- The predicate after negation, src/lra/Lra_conflict_analysis.cpp:14-25. -/
def initPred (c : LinCons) : Pred :=
  if c.lit.isNeg then
    match c.pred with
    | .leq => .lt
    | .lt => .leq
    | .eq => .eq
  else c.pred

/-- `init(cons)`, src/lra/Lra_conflict_analysis.cpp:6-27. -/
def init (s : LinStore) (c : LinCons) : Fm :=
  initWith s c (initPred c) (if initPred c ≠ c.pred then -1 else 1)

/-- `combine`, src/lra/Lra_conflict_analysis.cpp:96-110. -/
def combine (a b : Pred) : Pred :=
  if a = .eq ∧ b = .eq then .eq
  else if a ≠ .lt ∧ b ≠ .lt then .leq
  else .lt

/-- Coefficient of the first term with the given variable (`std::find_if` and `->second`),
src/lra/Lra_conflict_analysis.cpp:58-66. Simplification: 0 if there is none (excluded by an assert). -/
def coefOf (p : DPoly) (x : Nat) : ℚ := ((p.terms.find? fun t => t.1 == x).map (·.2)).getD 0

/-- `resolve`, src/lra/Lra_conflict_analysis.cpp:52-94. -/
def resolve (f g : Fm) (x : Nat) : Fm :=
  let mult := -coefOf f.poly x / coefOf g.poly x
  let flip := decide (mult < 0) && g.pred != .eq
  let mult' := if flip then -mult else mult
  let ts := if flip then f.poly.terms.map fun t => (t.1, -t.2) else f.poly.terms
  let k := if flip then -f.poly.const else f.poly.const
  ⟨DPoly.normalize ⟨ts ++ g.poly.terms.map fun t => (t.1, t.2 * mult'), k + g.poly.const * mult'⟩,
    combine f.pred g.pred⟩

end Fm

namespace Bnd

mutual
/-- `Lra_conflict_analysis::eliminate`, src/lra/Lra_conflict_analysis.cpp:136-152: the derived
constraint and the literals pushed to the clause. -/
def eliminate (s : LinStore) (m : LModels) : Bnd → Fm × List Lit
  | mk _ _ c ds _ _ =>
    let r := eliminateDeps s m ds (Fm.init s c)
    (r.1, c.lit.neg :: r.2)
/-- The loop over `bound.bounds()`, src/lra/Lra_conflict_analysis.cpp:144-150. -/
def eliminateDeps (s : LinStore) (m : LModels) : List Bnd → Fm → Fm × List Lit
  | [], f => (f, [])
  | d :: ds, f =>
    if m.rats.defined d.var then eliminateDeps s m ds f
    else
      let r := eliminate s m d
      let r2 := eliminateDeps s m ds (f.resolve r.1 d.var)
      (r2.1, r.2 ++ r2.2)
end

end Bnd

namespace Lra

/-- The state the conflict analyses read and change. -/
structure St where
  store : LinStore
  models : LModels
  bnd : BState

/-- `watch(cons, model)`, src/lra/Linear_arithmetic.cpp:101-116: move up to two unassigned variables to
the front. `k` iterations are left, `i` is the index of `var_it` and `out` the index of `out_var_it`.
The watch lists (line 118) are not part of this model. -/
def watchLoop (m : PModel ℚ) (c : LinCons) : Nat → Nat → Nat → LinStore → LinStore
  | 0, _, _, s => s
  | k + 1, i, out, s =>
    if out = (if c.size = 1 then 1 else 2) then s
    else if m.defined ((s.varsOf c).getD i 0) then watchLoop m c k (i + 1) out s
    else watchLoop m c k (i + 1) (out + 1) (s.swapTerms c i out)

/-- `constraint(trail, vars, coef, pred, rhs)`, src/lra/Linear_arithmetic.h:103-126, with
`add_variable` and `on_variable_resize` (src/lra/Linear_arithmetic.cpp:388-394, 14-17). `occur` is not
part of this model. -/
def constraint (hv : Nat → Nat) (hc : ℚ → Nat) (s : LinStore) (m : LModels) (ts : List (Nat × ℚ))
    (pred : Pred) (rhs : ℚ) : LinStore × LModels × LinCons :=
  let r := s.make hv hc ts pred rhs
  let ord := r.2.lit.ord
  if ord ≥ m.bools.num then
    (watchLoop m.rats r.2 r.2.size 0 0 (r.1.resize (ord + 1)),
      { m with bools := m.bools.resize false (ord + 1) }, r.2)
  else (r.1, m, r.2)

/-- `propagate(trail, models, cons)`, src/lra/Linear_arithmetic.cpp:361-378, the effect on the model. -/
def propagate (s : LinStore) (m : LModels) (c : LinCons) : LModels :=
  { m with bools := m.bools.setValue c.lit.ord (xor c.lit.isNeg (s.eval m.rats c)) }

/-- `Fm_elimination::finish`, src/lra/Lra_conflict_analysis.cpp:112-134. `none` is the empty
constraint. `lvl` is `trail.decision_level` of a rational variable, `hv` and `hc` are the hash
functions of the repository. -/
def finish (hv : Nat → Nat) (hc : ℚ → Nat) (lvl : Nat → Nat) (s : LinStore) (m : LModels) (f : Fm) :
    LinStore × LModels × Option LinCons :=
  if f.poly.terms.isEmpty then (s, m, none)
  else
    let r := constraint hv hc s m (sortBy (fun a b => decide (lvl a.1 > lvl b.1)) f.poly.terms)
      f.pred (-f.poly.const)
    if r.2.1.bools.defined r.2.2.lit.ord then (r.1, r.2.1, some r.2.2)
    else (r.1, propagate r.1 r.2.1 r.2.2, some r.2.2)

/-- `Lra_conflict_analysis::finish`, src/lra/Lra_conflict_analysis.cpp:154-160. -/
def sortClause (c : Clause) : Clause := uniq (sortBy Lit.lt c)

/-- Append the literal of a derived constraint if there is one,
src/lra/Lra_conflict_analysis.cpp:187-192 and 235-240. -/
def pushDerived (c : Clause) (d : Option LinCons) : Clause := c ++ d.toList.map (·.lit)

/-- `Bound_conflict_analysis::analyze`, src/lra/Lra_conflict_analysis.cpp:162-197. -/
def boundConflict (hv : Nat → Nat) (hc : ℚ → Nat) (lvl : Nat → Nat) (st : St) (x : Nat) :
    St × Option Clause :=
  let l := st.bnd.lower st.store st.models x
  let u := l.1.upper st.store st.models x
  match l.2, u.2 with
  | some lb, some ub =>
    if lb.value < ub.value ∨ (lb.value = ub.value ∧ (lb.isStrict || ub.isStrict) = false) then
      ({ st with bnd := u.1 }, none)
    else
      let e1 := lb.eliminate st.store st.models
      let e2 := ub.eliminate st.store st.models
      let f := finish hv hc lvl st.store st.models (e1.1.resolve e2.1 ub.var)
      (⟨f.1, f.2.1, u.1⟩, some (pushDerived (sortClause (e1.2 ++ e2.2)) f.2.2))
  | _, _ => ({ st with bnd := u.1 }, none)

/-- `Inequality_conflict_analysis::analyze`, src/lra/Lra_conflict_analysis.cpp:199-246. The literals of
derived constraints and reasons are sorted at the end, so only their set matters; the model lists
them in the order in which they are pushed. -/
def ineqConflict (hv : Nat → Nat) (hc : ℚ → Nat) (lvl : Nat → Nat) (st : St) (x : Nat) :
    St × Option Clause :=
  let l := st.bnd.lower st.store st.models x
  let u := l.1.upper st.store st.models x
  match l.2, u.2 with
  | some lb, some ub =>
    if lb.value ≠ ub.value ∨ lb.reason.isStrict = true ∨ ub.reason.isStrict = true then
      ({ st with bnd := u.1 }, none)
    else
      let n := (u.1.vb x).inequality st.store st.models lb.value
      let b := u.1.put x n.1
      match n.2 with
      | none => ({ st with bnd := b }, none)
      | some neq =>
        let mult : ℚ :=
          if ((st.store.coefsOf neq.reason).head?.getD 0) > 0 then 1 else -1
        let e1 := lb.eliminate st.store st.models
        let f1 := finish hv hc lvl st.store st.models
          (e1.1.resolve (Fm.initWith st.store neq.reason .lt mult) neq.var)
        let e2 := ub.eliminate f1.1 f1.2.1
        let f2 := finish hv hc lvl f1.1 f1.2.1
          (e2.1.resolve (Fm.initWith f1.1 neq.reason .lt (-mult)) neq.var)
        (⟨f2.1, f2.2.1, b⟩, some (sortClause (pushDerived (pushDerived (neq.reason.lit.neg :: e1.2)
          f1.2.2 ++ e2.2) f2.2.2)))
  | _, _ => ({ st with bnd := u.1 }, none)

/-- `check_bounds`, src/lra/Linear_arithmetic.cpp:259-271. -/
def checkBounds (hv : Nat → Nat) (hc : ℚ → Nat) (lvl : Nat → Nat) (st : St) (x : Nat) :
    St × Option Clause :=
  let r := boundConflict hv hc lvl st x
  if r.2.isSome then r else ineqConflict hv hc lvl r.1 x

end Lra
end Yaga
