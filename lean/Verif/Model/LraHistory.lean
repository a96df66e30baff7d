/-
The operations through which the state of the arithmetic theory (constraint repository, models,
bounds) changes, with the preconditions under which the code uses them.
-/
import Verif.Model.Fm

namespace Yaga

/-- A constraint object of the repository or the negation of one. -/
def IsCons (s : LinStore) (c : LinCons) : Prop := ∃ e ∈ s.set, c = e ∨ c = e.neg

namespace Lra

/-- Before the first variable is created. -/
def St.init : St := ⟨LinStore.init, ⟨.empty false, .empty 0⟩, BState.init⟩

/-- An operation on the state. -/
inductive Op where
  /-- `on_variable_resize(boolean, n)` with the resized model, src/lra/Linear_arithmetic.cpp:14-17. -/
  | resizeBool (n : Nat)
  /-- `on_variable_resize(rational, n)`, src/lra/Linear_arithmetic.cpp:7-13. -/
  | resizeRat (n : Nat)
  /-- A boolean variable is decided or propagated. -/
  | setBool (ord : Nat) (v : Bool)
  /-- A boolean variable is unassigned by backtracking. -/
  | clearBool (ord : Nat)
  /-- A rational variable is decided, src/lra/Linear_arithmetic.cpp:506-545. -/
  | setRat (x : Nat) (q : ℚ)
  /-- A rational variable is unassigned by backtracking. -/
  | clearRat (x : Nat)
  /-- `constraint`, src/lra/Linear_arithmetic.h:103-126. -/
  | constraint (ts : List (Nat × ℚ)) (pred : Pred) (rhs : ℚ)
  /-- The exchanges in `replace_watch`, src/lra/Linear_arithmetic.cpp:145-146 and 162-163. -/
  | swap (ord i j : Nat)
  /-- `unit`, src/lra/Linear_arithmetic.cpp:273-276. -/
  | update (c : LinCons)
  /-- `deduce`, called at src/lra/Linear_arithmetic.cpp:294. -/
  | deduce (c : LinCons)
  /-- `bounds[x].upper_bound(models)`. -/
  | upper (x : Nat)
  /-- `bounds[x].lower_bound(models)`. -/
  | lower (x : Nat)
  /-- `bounds[x].inequality(models, q)`. -/
  | inequality (x : Nat) (q : ℚ)
  /-- `bounds[x].is_allowed(models, q)`. -/
  | allowed (x : Nat) (q : ℚ)
  /-- `is_implied`, called at src/lra/Linear_arithmetic.cpp:318. -/
  | implied (c : LinCons)
  /-- `changed`, called at src/lra/Linear_arithmetic.cpp:331. -/
  | changed

namespace Op

/-- Preconditions. `resize*`: the number of variables does not decrease. `set*`: the variable exists and
is not assigned; a rational variable only gets a value that its bounds allow
(src/lra/Linear_arithmetic.cpp:517-543). `constraint`: no variable occurs twice. `swap`: positions in
the constraint; the first position is only changed if its variable is assigned and some variable of
the constraint is not (src/lra/Linear_arithmetic.cpp:133-146). `update`: the constraint is on the
trail, the first variable is the only unassigned one. `deduce`: the literal is true
(src/lra/Bounds.cpp:180). -/
def Ok (st : St) : Op → Prop
  | .resizeBool n => st.models.bools.num ≤ n
  | .resizeRat n => st.models.rats.num ≤ n
  | .setBool ord _ => ord < st.models.bools.num ∧ st.models.bools.defined ord = false
  | .setRat x q => x < st.models.rats.num ∧ st.models.rats.defined x = false ∧
      ((st.bnd.vb x).isAllowed st.store st.models q).2 = true
  | .constraint ts _ _ => (ts.map (·.1)).Nodup
  | .swap ord i j => i < (st.store.get ord).size ∧ j < (st.store.get ord).size ∧
      (i = j ∨ (0 < i ∧ 0 < j) ∨
        ((∀ x ∈ (st.store.varsOf (st.store.get ord)).head?, st.models.rats.defined x = true) ∧
          ∃ y ∈ st.store.varsOf (st.store.get ord), st.models.rats.defined y = false))
  | .update c => IsCons st.store c ∧ st.models.bools.defined c.lit.ord = true ∧
      ∃ x vs, st.store.varsOf c = x :: vs ∧ st.models.rats.defined x = false ∧
        ∀ y ∈ vs, st.models.rats.defined y = true
  | .deduce c => IsCons st.store c ∧ evalLit st.models.bools c.lit = some true
  | _ => True

/-- Effect of an operation. -/
def run (hv : Nat → Nat) (hc : ℚ → Nat) (st : St) : Op → St
  | .resizeBool n => { st with store := st.store.resize n,
                               models := { st.models with bools := st.models.bools.resize false n } }
  | .resizeRat n => { st with models := { st.models with rats := st.models.rats.resize 0 n } }
  | .setBool ord v => { st with models := { st.models with bools := st.models.bools.setValue ord v } }
  | .clearBool ord => { st with models := { st.models with bools := st.models.bools.clear ord } }
  | .setRat x q => { st with models := { st.models with rats := st.models.rats.setValue x q },
                             bnd := st.bnd.put x ((st.bnd.vb x).isAllowed st.store st.models q).1 }
  | .clearRat x => { st with models := { st.models with rats := st.models.rats.clear x } }
  | .constraint ts p r =>
    let q := Lra.constraint hv hc st.store st.models ts p r
    { st with store := q.1, models := q.2.1 }
  | .swap ord i j => { st with store := st.store.swapTerms (st.store.get ord) i j }
  | .update c => { st with bnd := st.bnd.update st.store st.models c }
  | .deduce c => { st with bnd := st.bnd.deduce st.store st.models c }
  | .upper x => { st with bnd := (st.bnd.upper st.store st.models x).1 }
  | .lower x => { st with bnd := (st.bnd.lower st.store st.models x).1 }
  | .inequality x q =>
    { st with bnd := st.bnd.put x ((st.bnd.vb x).inequality st.store st.models q).1 }
  | .allowed x q =>
    { st with bnd := st.bnd.put x ((st.bnd.vb x).isAllowed st.store st.models q).1 }
  | .implied c => { st with bnd := (st.bnd.isImplied st.store st.models c).1 }
  | .changed => { st with bnd := st.bnd.changed.1 }

end Op

/-- `st'` is reached from `st` by operations whose preconditions hold. -/
inductive Steps (hv : Nat → Nat) (hc : ℚ → Nat) : St → St → Prop where
  | refl (st : St) : Steps hv hc st st
  | step {st t : St} (op : Op) (h : Steps hv hc st t) (ok : op.Ok t) :
      Steps hv hc st (op.run hv hc t)

/-- The states the theory can be in. -/
def Reach (hv : Nat → Nat) (hc : ℚ → Nat) (st : St) : Prop := Steps hv hc St.init st

end Lra
end Yaga
