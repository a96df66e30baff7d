/-
Specification for C69: how a text in the format of SMT-LIB is read. Words, s-expressions, terms without free
symbols other than parameters, and the definitions in the response to `get-model`.
-/
import Verif.Spec.Term

namespace Yaga.Spec

/-- The lexical elements that matter here: parentheses and everything between them and white space. -/
inductive Word where
  | lp
  | rp
  | atom (w : List Char)
  deriving DecidableEq

/-- White space. -/
def isSpace (c : Char) : Bool := c == ' ' || c == '\n' || c == '\t' || c == '\r'

/-- Characters that end a word. -/
def isDelim (c : Char) : Bool := c == '(' || c == ')' || isSpace c

/-- The word read so far, if there is one. -/
def flush (w : List Char) : List Word := if w = [] then [] else [.atom w]

/-- The words of a text after the beginning `w` of a word. -/
def wordsFrom : List Char → List Char → List Word
  | w, [] => flush w
  | w, c :: cs =>
    if c = '(' then flush w ++ .lp :: wordsFrom [] cs
    else if c = ')' then flush w ++ .rp :: wordsFrom [] cs
    else if isSpace c then flush w ++ wordsFrom [] cs
    else wordsFrom (w ++ [c]) cs

/-- The words of a text. -/
def words (cs : List Char) : List Word := wordsFrom [] cs

/-- S-expressions. -/
inductive SExp where
  | atom (w : List Char)
  | list (l : List SExp)

/-- Reading a word; the state has the elements read so far of every open list, the innermost first, and in
reverse order. -/
def readWord : Option (List (List SExp)) → Word → Option (List (List SExp))
  | some (x :: st), .atom w => some ((.atom w :: x) :: st)
  | some st, .lp => some ([] :: st)
  | some (x :: y :: st), .rp => some ((.list x.reverse :: y) :: st)
  | _, _ => none

/-- The s-expressions of a text; `none` if the parentheses do not match. -/
def readText (cs : List Char) : Option (List SExp) :=
  match (words cs).foldl readWord (some [[]]) with
  | some [x] => some x.reverse
  | _ => none

/-- The value of a numeral; `none` if a character is not a digit. -/
def numeral : List Char → Option Nat
  | [] => none
  | cs => if cs.all Char.isDigit then some (cs.foldl (fun n c => 10 * n + (c.toNat - '0'.toNat)) 0) else none

/-- `v` is a truth value. -/
def Val.isBool : Val → Bool
  | .b _ => true
  | .q _ => false

/-- The value of the function symbol `f` of the theories for the arguments. -/
def applySym (f : List Char) (args : List Val) : Option Val :=
  if f = "-".toList then
    match args with
    | [.q x] => some (.q (-x))
    | _ => none
  else if f = "/".toList then
    match args with
    | [.q x, .q y] => if y = 0 then none else some (.q (x / y))
    | _ => none
  else if f = "=".toList then
    match args with
    | [.q x, .q y] => some (.b (decide (x = y)))
    | [.b x, .b y] => some (.b (decide (x = y)))
    | _ => none
  else if f = "and".toList then
    if args.all Val.isBool then some (.b (args.all Val.bool)) else none
  else if f = "ite".toList then
    match args with
    | [.b c, .q x, .q y] => some (.q (if c then x else y))
    | [.b c, .b x, .b y] => some (.b (if c then x else y))
    | _ => none
  else none

mutual
/-- The value of a term when the parameters have the values `env`. -/
def SExp.value (env : List (List Char × Val)) : SExp → Option Val
  | .atom w =>
    if w = "true".toList then some (.b true)
    else if w = "false".toList then some (.b false)
    else
      match env.find? (fun p => p.1 == w) with
      | some p => some p.2
      | none => (numeral w).map fun n => .q (n : ℚ)
  | .list (.atom f :: args) => (valuesOf env args).bind (applySym f)
  | .list _ => none
/-- The values of some terms. -/
def valuesOf (env : List (List Char × Val)) : List SExp → Option (List Val)
  | [] => some []
  | e :: es =>
    match e.value env, valuesOf env es with
    | some v, some vs => some (v :: vs)
    | _, _ => none
end

/-- Sorts. -/
inductive Sort' where
  | bool
  | real
  deriving DecidableEq

/-- `v` is a value of the sort. -/
def Val.has : Val → Sort' → Bool
  | .b _, .bool => true
  | .q _, .real => true
  | _, _ => false

/-- A definition `(define-fun name ((x S) ...) S body)`. -/
structure Def where
  name : List Char
  params : List (List Char × Sort')
  sort : Sort'
  body : SExp

/-- A sort. -/
def readSort : SExp → Option Sort'
  | .atom w => if w = "Bool".toList then some .bool else if w = "Real".toList then some .real else none
  | _ => none

/-- A parameter with its sort. -/
def readParam : SExp → Option (List Char × Sort')
  | .list [.atom x, s] => (readSort s).map fun t => (x, t)
  | _ => none

/-- A definition. -/
def readDef : SExp → Option Def
  | .list [.atom d, .atom n, .list ps, s, b] =>
    if d = "define-fun".toList then
      match ps.mapM readParam, readSort s with
      | some ps, some s => some ⟨n, ps, s, b⟩
      | _, _ => none
    else none
  | _ => none

/-- The response to `get-model`: a list of definitions. -/
def readModel (cs : List Char) : Option (List Def) :=
  match readText cs with
  | some [.list l] => l.mapM readDef
  | _ => none

/-- The definition gives the value `v` for the arguments. -/
def Def.Gives (d : Def) (args : List Val) (v : Val) : Prop :=
  args.length = d.params.length ∧ (∀ p ∈ args.zip d.params, p.1.has p.2.2 = true) ∧ v.has d.sort = true ∧
    d.body.value ((d.params.map (·.1)).zip args) = some v

end Yaga.Spec
