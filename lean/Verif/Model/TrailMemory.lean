/-
Model of `src/Trail.h`, `src/Trail.cpp` and `src/Model.h` with their vectors: `none` means a failed `assert`, an access
outside a vector, or an access to a model that does not exist.
-/
import Verif.Model.TrailHistory

namespace Yaga

/-- `std::vector::resize(n, x)`. -/
def resizeL {α : Type} (l : List α) (n : Nat) (x : α) : List α := l.take n ++ List.replicate (n - l.length) x

/-- `Model<T>` with the members of `Model_base`, src/Model.h:57-61 and 109-112. Simplification: the values are tagged with
their type. -/
structure MMem where
  values : List Val
  defined : List Bool
  ts : List Int
  globalTs : Nat

/-- `Value{0}` in src/Model.h:85. -/
def VType.zero : VType → Val
  | .boolean => .b false
  | .rational => .q 0

/-- `resize`, src/Model.h:83-88. -/
def MMem.resize (m : MMem) (ty : VType) (n : Nat) : MMem :=
  ⟨resizeL m.values n ty.zero, resizeL m.defined n false, resizeL m.ts n (-1), m.globalTs⟩

/-- The members of `Trail`, src/Trail.h:279-287; `models` has `none` for a null pointer. -/
structure TMem (R : Type) where
  trail : List (List (Asg R))
  varReason : List (List (Option R))
  varLevel : List (List Int)
  models : List (Option MMem)

namespace TMem
variable {R : Type}

/-- Constructor, src/Trail.h:58. -/
def init : TMem R := ⟨[[]], [], [], []⟩

/-- `p[v.type()][v.ord()]`. -/
def cell {α : Type} (p : List (List α)) (v : Var) : Option α := (p[v.type.toNat]?).bind fun row => row[v.ord]?

/-- `p[v.type()][v.ord()] = x`. -/
def setCell {α : Type} (p : List (List α)) (v : Var) (x : α) : Option (List (List α)) :=
  match p[v.type.toNat]? with
  | none => none
  | some row => if Nat.blt v.ord row.length then some (p.set v.type.toNat (row.set v.ord x)) else none

/-- `decision_level(var)`, src/Trail.h:69-73. -/
def levelOf (m : TMem R) (v : Var) : Option (Option Int) :=
  (cell m.varLevel v).map fun k => if k < 0 then none else some k

/-- `model(type)`, src/Trail.h:130-147: the pointer is dereferenced. -/
def model (m : TMem R) (ty : VType) : Option MMem := (m.models[ty.toNat]?).join

/-- `resize`, src/Trail.cpp:6-18, without the notification in line 17. -/
def resize (m : TMem R) (ty : VType) (n : Nat) : Option (TMem R) :=
  match m.model ty with
  | none => none
  | some M =>
    let k := max m.varReason.length (ty.toNat + 1)
    let vr := resizeL m.varReason k (List.replicate n none)
    let vl := resizeL m.varLevel k (List.replicate n (-1))
    match vr[ty.toNat]?, vl[ty.toNat]? with
    | some r, some l =>
      some { m with
        models := m.models.set ty.toNat (some (M.resize ty n))
        varReason := vr.set ty.toNat (resizeL r n none)
        varLevel := vl.set ty.toNat (resizeL l n (-1)) }
    | _, _ => none

/-- `set_model`, src/Trail.h:107-122. -/
def setModel (m : TMem R) (ty : VType) (n : Nat) : Option (TMem R) :=
  let models := if m.models.length ≤ ty.toNat then resizeL m.models (ty.toNat + 1) none else m.models
  if Nat.blt ty.toNat models.length then
    resize { m with models := models.set ty.toNat (some ⟨[], [], [], 0⟩) } ty n
  else none

/-- The assertions of src/Trail.h:179-181 and 199-201. -/
def hasType (m : TMem R) (ty : VType) : Bool :=
  Nat.blt ty.toNat m.varLevel.length && Nat.blt ty.toNat m.varReason.length && Nat.blt ty.toNat m.models.length

/-- `decide`, src/Trail.h:177-186. -/
def decide (m : TMem R) (v : Var) : Option (TMem R) :=
  if m.hasType v.type then
    let tr := m.trail ++ [[⟨v, none⟩]]
    (setCell m.varLevel v ((tr.length : Int) - 1)).bind fun vl =>
    (setCell m.varReason v none).map fun vr => { m with trail := tr, varLevel := vl, varReason := vr }
  else none

/-- `propagate`, src/Trail.h:196-209. -/
def propagate (m : TMem R) (v : Var) (r : Option R) (lvl : Int) : Option (TMem R) :=
  if 0 ≤ lvl ∧ lvl ≤ (m.trail.length : Int) - 1 then
    if m.hasType v.type then
      (setCell m.varLevel v lvl).bind fun vl =>
      (setCell m.varReason v r).map fun vr =>
        { m with trail := Trail.pushFrom ⟨v, r⟩ lvl.toNat m.trail, varLevel := vl, varReason := vr }
    else none
  else none

/-- `model<T>(type).set_value(ord, val)`, src/Model.h:102-107; the `dynamic_cast` of src/Trail.h:132 throws for a value
of another type. -/
def setValue (m : TMem R) (v : Var) (x : Val) : Option (TMem R) :=
  match m.model v.type with
  | none => none
  | some M =>
    if x.hasType v.type && Nat.blt v.ord M.values.length && Nat.blt v.ord M.defined.length &&
        Nat.blt v.ord M.ts.length then
      some { m with models := m.models.set v.type.toNat (some ⟨M.values.set v.ord x, M.defined.set v.ord true,
        M.ts.set v.ord M.globalTs, M.globalTs + 1⟩) }
    else none

/-- `var_models[type]->clear(ord)`, src/Model.h:29. -/
def clearValue (m : TMem R) (v : Var) : Option (TMem R) :=
  match m.model v.type with
  | none => none
  | some M =>
    if Nat.blt v.ord M.defined.length then
      some { m with models := m.models.set v.type.toNat (some { M with defined := M.defined.set v.ord false }) }
    else none

/-- Body of the inner loop of `backtrack`, src/Trail.h:223-228. -/
def unassignAbove (lvl : Int) (m : TMem R) (a : Asg R) : Option (TMem R) :=
  match cell m.varLevel a.var with
  | none => none
  | some k =>
    if k > lvl then
      (setCell m.varLevel a.var (-1)).bind fun vl =>
      (setCell m.varReason a.var none).bind fun vr =>
      clearValue { m with varLevel := vl, varReason := vr } a.var
    else some m

/-- One iteration of the outer loop of `backtrack`, src/Trail.h:219-230. -/
def popLevel (lvl : Int) (m : TMem R) : Option (TMem R) :=
  match m.trail.getLast? with
  | none => none
  | some xs => (xs.foldlM (unassignAbove lvl) m).map fun m => { m with trail := m.trail.dropLast }

/-- The outer loop of `backtrack`; the first number bounds the iterations. -/
def popLevels (lvl : Int) : Nat → TMem R → Option (TMem R)
  | 0, _ => none
  | fuel + 1, m => if (m.trail.length : Int) - 1 > lvl then (popLevel lvl m).bind (popLevels lvl fuel) else some m

/-- `backtrack`, src/Trail.h:215-232, with the assertions in lines 217 and 231. -/
def backtrack (m : TMem R) (lvl : Int) : Option (TMem R) :=
  if 0 ≤ lvl then
    (popLevels lvl (m.trail.length + 1) m).bind fun m =>
      if lvl = (m.trail.length : Int) - 1 then some m else none
  else none

/-- `clear`, src/Trail.h:242-270, with src/Model.h:35. -/
def clear (m : TMem R) : TMem R :=
  { trail := [[]]
    varReason := m.varReason.map fun row => row.map fun _ => none
    varLevel := m.varLevel.map fun row => row.map fun _ => -1
    models := m.models.map fun M => M.map fun M => { M with defined := List.replicate M.defined.length false } }

end TMem

/-- Calls of the interface of the trail: those of `TOp`, and `set_model`. -/
inductive MOp (R : Type) where
  | setModel (ty : VType) (n : Nat)
  | op (o : TOp R)

namespace TMem
variable {R : Type}

/-- Effect of a call. -/
def step (m : TMem R) : MOp R → Option (TMem R)
  | .setModel ty n => m.setModel ty n
  | .op (.resize ty n) => m.resize ty n
  | .op (.decide v x) => (m.decide v).bind fun m => m.setValue v x
  | .op (.propagate v r lvl x) => (m.propagate v r lvl).bind fun m => m.setValue v x
  | .op (.backtrack lvl) => m.backtrack lvl
  | .op .clear => some m.clear

/-- A sequence of calls. -/
def run : List (MOp R) → TMem R → Option (TMem R)
  | [], m => some m
  | o :: os, m => (m.step o).bind (run os)

end TMem
end Yaga
