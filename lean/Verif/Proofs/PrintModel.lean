/-
The text that `get-model` produces: how it is read.
-/
import Verif.Spec.UfModel
import Verif.Proofs.Std
import Verif.Proofs.PrintNumber

namespace Yaga
namespace PrintModel

open Spec

variable {pr : ℚ → LF}

/-- The objects for numbers are canonical and have the right value. -/
def Numbers (pr : ℚ → LF) : Prop := ∀ q, Canonical (pr q) ∧ fval (pr q) = q

/-- The s-expression for a value. -/
def valExp (pr : ℚ → LF) : Val → SExp
  | .b x => .atom (if x then "true".toList else "false".toList)
  | .q x => ratExp (pr x)

/-- The sort of a value. -/
def sortOf : Val → Sort'
  | .b _ => .bool
  | .q _ => .real

theorem ofVal_has (v : Val) (s : Sort') : (ofVal v).has s = true ↔ sortOf v = s := by
  cases v <;> cases s <;> simp [ofVal, Val.has, sortOf]

theorem shows_value (hp : Numbers pr) (v : Val) : Shows (printVariable pr v) [valExp pr v] := by
  cases v with
  | b x =>
    cases x
    · exact shows_atom (w := "false".toList) (by decide) (by decide)
    · exact shows_atom (w := "true".toList) (by decide) (by decide)
  | q x => exact shows_print (hp x).1

theorem value_valExp (hp : Numbers pr) {env : List (List Char × Spec.Val)} (he : NoNumeral env) (v : Val) :
    (valExp pr v).value env = some (ofVal v) := by
  cases v with
  | b x =>
    cases x
    · show SExp.value env (.atom "false".toList) = _
      rw [SExp.value, if_neg (by decide), if_pos rfl]; rfl
    · show SExp.value env (.atom "true".toList) = _
      rw [SExp.value, if_pos rfl]; rfl
  | q x =>
    show (ratExp (pr x)).value env = _
    rw [value_ratExp he (hp x).1, (hp x).2]; rfl

theorem shows_type (v : Val) : Shows (printType (index v)) [.atom (printType (index v))] := by
  cases v
  · exact shows_atom (w := "Bool".toList) (by decide) (by decide)
  · exact shows_atom (w := "Real".toList) (by decide) (by decide)

theorem readSort_type (v : Val) : readSort (.atom (printType (index v))) = some (sortOf v) := by
  cases v <;> rfl

/-- A name that can be written without quotes: it has no white space and no parentheses. -/
def GoodName (n : List Char) : Prop := n ≠ [] ∧ ∀ c ∈ n, isDelim c = false

/-- The s-expression for the definition of a constant. -/
def constExp (pr : ℚ → LF) (n : List Char) (v : Val) : SExp :=
  .list [.atom "define-fun".toList, .atom n, .list [], .atom (printType (index v)), valExp pr v]

theorem text_define : "(define-fun ".toList = '(' :: ("define-fun".toList ++ [' ']) := by decide
theorem text_noParams : " () ".toList = [' ', '(', ')', ' '] := by decide
theorem text_space : " ".toList = [' '] := by decide
theorem text_end : ")\n".toList = [')', '\n'] := by decide

theorem visit_some (n : List Char) (v : Val) : visit pr (some n) v =
    "(define-fun ".toList ++ n ++ " () ".toList ++ printType (index v) ++ " ".toList ++ printVariable pr v ++
      ")\n".toList := by
  delta visit
  rfl

theorem shows_visit (hp : Numbers pr) {n : List Char} (hn : GoodName n) (v : Val) :
    Shows (visit pr (some n) v) [constExp pr n v] := by
  have h1 : Shows (' ' :: printVariable pr v) [valExp pr v] := shows_space (by decide) (shows_value hp v)
  have h2 := shows_space (c := ' ') (by decide) (shows_append (shows_type v) h1 (starts_cons (by decide)))
  have h3 := shows_space (c := ' ') (by decide) (shows_append (shows_list shows_nil) h2 (starts_cons (by decide)))
  have h4 := shows_space (c := ' ') (by decide) (shows_cons hn.1 hn.2 h3 (starts_cons (by decide)))
  have h5 := shows_list (shows_cons (w := "define-fun".toList) (by decide) (by decide) h4 (starts_cons (by decide)))
  have h6 := shows_append h5 (shows_space (c := '\n') (by decide) shows_nil) (starts_cons (by decide))
  have e : visit pr (some n) v = '(' :: ("define-fun".toList ++ ' ' :: (n ++ ' ' :: ('(' :: ([] ++ [')']) ++
      ' ' :: (printType (index v) ++ ' ' :: printVariable pr v))) ++ [')']) ++ ['\n'] := by
    rw [visit_some]
    simp only [text_define, text_noParams, text_space, text_end, List.append_assoc, List.cons_append,
      List.nil_append]
  rw [e]
  exact h6

/-- The definition of a constant. -/
def constDef (pr : ℚ → LF) (n : List Char) (v : Val) : Def := ⟨n, [], sortOf v, valExp pr v⟩

theorem readDef_const (n : List Char) (v : Val) : readDef (constExp pr n v) = some (constDef pr n v) := by
  simp [constExp, readDef, readSort_type, constDef]

theorem gives_const (hp : Numbers pr) (n : List Char) (v : Val) (w : Spec.Val) :
    (constDef pr n v).Gives [] w ↔ w = ofVal v := by
  have he : NoNumeral [] := by intro p hp; cases hp
  constructor
  · rintro ⟨_, _, _, h⟩
    have := (value_valExp hp he v).symm.trans h
    exact (Option.some.inj this).symm
  · rintro rfl
    exact ⟨rfl, by simp, (ofVal_has v _).mpr rfl, value_valExp hp he v⟩

/-! ### Functions -/

theorem argName_good (i : Nat) : GoodName (argName i) := by
  refine ⟨by simp [argName], ?_⟩
  intro c hc
  rcases List.mem_cons.mp hc with rfl | hc
  · decide
  · exact decimal_not_delim i c hc

theorem argName_inj {i j : Nat} (h : argName i = argName j) : i = j := by
  have h1 : decimal i = decimal j := (List.cons.inj h).2
  have := numeral_decimal i
  rw [h1, numeral_decimal] at this
  exact (Option.some.inj this).symm

theorem argName_no_numeral (i n : Nat) : argName i ≠ decimal n := by
  intro h
  have := decimal_digits n 'x' (by rw [← h]; simp [argName])
  revert this
  decide

/-- The parameters from the index `i` on. -/
def paramExps : Nat → List Val → List SExp
  | _, [] => []
  | i, v :: vs => .list [.atom (argName i), .atom (printType (index v))] :: paramExps (i + 1) vs

theorem starts_params (i : Nat) (vs : List Val) : Starts (params i vs) := by
  cases vs with
  | nil => exact starts_nil
  | cons v vs =>
    unfold params
    split <;> exact starts_cons (by decide)

theorem shows_params (i : Nat) (vs : List Val) : Shows (params i vs) (paramExps i vs) := by
  induction vs generalizing i with
  | nil => exact shows_nil
  | cons v vs ih =>
    have hg := argName_good i
    have h1 := shows_list (shows_cons hg.1 hg.2 (shows_space (c := ' ') (by decide) (shows_type v)) (starts_cons (by decide)))
    have h2 := shows_append h1 (ih (i + 1)) (starts_params _ _)
    unfold params
    by_cases hi : i > 0
    · rw [if_pos hi]
      have h3 := shows_space (c := ' ') (by decide) h2
      simpa [paramExps] using h3
    · rw [if_neg hi]
      simpa [paramExps] using h2

theorem mapM_params (i : Nat) (vs : List Val) : (paramExps i vs).mapM readParam =
    some (vs.zipIdx i |>.map fun p => (argName p.2, sortOf p.1)) := by
  induction vs generalizing i with
  | nil => rfl
  | cons v vs ih =>
    have h : readParam (.list [.atom (argName i), .atom (printType (index v))]) = some (argName i, sortOf v) := by
      simp [readParam, readSort_type]
    simp [paramExps, h, ih]

/-- The equations of an entry. -/
def eqExps (pr : ℚ → LF) (names : List (List Char)) (vs : List Val) : List SExp :=
  (names.zip vs).map fun p => .list [.atom ['='], .atom p.1, valExp pr p.2]

theorem shows_equations (hp : Numbers pr) : ∀ (names : List (List Char)) (vs : List Val), (∀ n ∈ names, GoodName n) →
    vs.length ≤ names.length → ∃ t, equations pr names vs = some t ∧ Starts t ∧ Shows t (eqExps pr names vs)
  | _, [], _, _ => ⟨[], by simp [equations], starts_nil, by simpa [eqExps] using shows_nil⟩
  | [], _ :: _, _, h => by simp at h
  | x :: xs, v :: vs, hn, h => by
    obtain ⟨t, h1, h2, h3⟩ := shows_equations hp xs vs (fun n h => hn n (by simp [h])) (by simpa using h)
    have hg := hn x (by simp)
    have g1 : Shows (' ' :: printVariable pr v) [valExp pr v] := shows_space (by decide) (shows_value hp v)
    have g2 := shows_space (c := ' ') (by decide) (shows_cons hg.1 hg.2 g1 (starts_cons (by decide)))
    have g3 := shows_list (shows_cons (w := ['=']) (by simp) (by decide) g2 (starts_cons (by decide)))
    have g4 := shows_space (c := ' ') (by decide) (shows_append g3 h3 h2)
    refine ⟨_, by rw [equations, h1]; rfl, ?_, ?_⟩
    · exact starts_cons (by decide)
    · simpa [eqExps] using g4

/-- The condition of an entry. -/
def condExp (pr : ℚ → LF) (names : List (List Char)) (vs : List Val) : List SExp :=
  if names.length > 1 then [.list (.atom "and".toList :: eqExps pr names vs)] else eqExps pr names vs

/-- The expression for the entries. -/
def chainExp (pr : ℚ → LF) (names : List (List Char)) (dflt : Val) : List (List Val × Val) → SExp
  | [] => valExp pr dflt
  | e :: es => .list (.atom "ite".toList :: (condExp pr names e.1 ++ [valExp pr e.2, chainExp pr names dflt es]))

theorem shows_chain (hp : Numbers pr) {names : List (List Char)} (hn : ∀ n ∈ names, GoodName n) (dflt : Val)
    (es : List (List Val × Val)) (he : ∀ e ∈ es, e.1.length ≤ names.length) :
    ∃ t, entries pr names es = some t ∧
      Starts (t ++ "       ".toList ++ printVariable pr dflt ++ " ".toList ++ List.replicate es.length ')') ∧
      Shows (t ++ "       ".toList ++ printVariable pr dflt ++ " ".toList ++ List.replicate es.length ')')
        [chainExp pr names dflt es] := by
  induction es with
  | nil =>
    refine ⟨[], rfl, starts_cons (by decide), ?_⟩
    have h1 := shows_append (shows_value hp dflt) (shows_space (c := ' ') (by decide) shows_nil) (starts_cons (by decide))
    have h2 := shows_space (c := ' ') (by decide) <| shows_space (c := ' ') (by decide) <|
      shows_space (c := ' ') (by decide) <| shows_space (c := ' ') (by decide) <| shows_space (c := ' ') (by decide) <|
      shows_space (c := ' ') (by decide) <| shows_space (c := ' ') (by decide) h1
    simpa [chainExp] using h2
  | cons e es ih =>
    obtain ⟨t, h1, h2, h3⟩ := ih fun x hx => he x (by simp [hx])
    obtain ⟨c, c1, c2, c3⟩ := shows_equations hp names e.1 hn (he e (by simp))
    have g1 := shows_append (shows_value hp e.2) (shows_space (c := '\n') (by decide) h3) (starts_cons (by decide))
    have g2 := shows_space (c := ' ') (by decide) g1
    have gc : ∃ d, (d = if names.length > 1 then " (and".toList ++ c ++ ")".toList else c) ∧ Starts d ∧
        Shows d (condExp pr names e.1) := by
      refine ⟨_, rfl, ?_, ?_⟩
      · split
        · exact starts_cons (by decide)
        · exact c2
      · unfold condExp
        split
        · have := shows_space (c := ' ') (by decide)
            (shows_list (shows_cons (w := "and".toList) (by decide) (by decide) c3 c2))
          simpa using this
        · exact c3
    obtain ⟨d, d1, d2, d3⟩ := gc
    have g3 := shows_append d3 g2 (starts_cons (by decide))
    have g4 := shows_list (shows_cons (w := "ite".toList) (by decide) (by decide) g3 (starts_append d2 (starts_cons (by decide))))
    have g5 := shows_space (c := ' ') (by decide) (shows_space (c := ' ') (by decide) g4)
    refine ⟨_, by simp [entries, entry, c1, h1]; rfl, starts_cons (c := ' ') (by decide), ?_⟩
    rw [d1] at g5
    rw [List.length_cons, List.replicate_succ']
    by_cases hl : names.length > 1
    · simp only [hl, if_true] at g5 ⊢
      simpa [chainExp, List.append_assoc] using g5
    · simp only [hl, if_false] at g5 ⊢
      simpa [chainExp, List.append_assoc] using g5

end PrintModel
end Yaga
