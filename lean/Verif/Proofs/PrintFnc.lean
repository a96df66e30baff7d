/-
The text that `visit_fnc` produces: how it is read.
-/
import Verif.Proofs.PrintModel

namespace Yaga
namespace PrintModel

open Spec

variable {pr : ℚ → LF}

/-- The s-expression for the definition of a function. -/
def fnExp (pr : ℚ → LF) (n : List Char) (args : List Val) (dflt : Val) (es : List (List Val × Val)) : SExp :=
  .list [.atom "define-fun".toList, .atom n, .list (paramExps 0 args), .atom (printType (index dflt)),
    chainExp pr ((List.range args.length).map argName) dflt es]

theorem visitFnc_cons (n : List Char) (args : List Val) (dflt : Val) (es : List (List Val × Val)) {t : List Char}
    (h : entries pr ((List.range args.length).map argName) es = some t) :
    visitFnc pr (some n) ((args, dflt) :: es) = some ("(define-fun ".toList ++ n ++ " (".toList ++ params 0 args ++
      ") ".toList ++ printType (index dflt) ++ "\n".toList ++ t ++ "       ".toList ++ printVariable pr dflt ++
      " ".toList ++ List.replicate ((args, dflt) :: es).length ')' ++ "\n".toList) := by
  delta visitFnc
  show Option.map _ (entries pr ((List.range args.length).map argName) es) = _
  rw [h]
  rfl

theorem text_open : " (".toList = [' ', '('] := by decide
theorem text_close : ") ".toList = [')', ' '] := by decide
theorem text_nl : "\n".toList = ['\n'] := by decide

theorem shows_visitFnc (hp : Numbers pr) {n : List Char} (hn : GoodName n) (args : List Val) (dflt : Val)
    (es : List (List Val × Val)) (he : ∀ e ∈ es, e.1.length ≤ args.length) :
    ∃ t, visitFnc pr (some n) ((args, dflt) :: es) = some t ∧ Starts t ∧ Shows t [fnExp pr n args dflt es] := by
  obtain ⟨t, h1, h2, h3⟩ := shows_chain hp (names := (List.range args.length).map argName)
    (by
      intro x hx
      obtain ⟨i, _, rfl⟩ := List.mem_map.mp hx
      exact argName_good i) dflt es (by simpa using he)
  refine ⟨_, visitFnc_cons n args dflt es h1, ?_, ?_⟩
  · rw [text_define]
    exact starts_cons (c := '(') (by decide)
  have g1 := shows_append (shows_type dflt) (shows_space (c := '\n') (by decide) h3) (starts_cons (by decide))
  have g2 := shows_append (shows_list (shows_params 0 args)) (shows_space (c := ' ') (by decide) g1) (starts_cons (by decide))
  have g3 := shows_cons hn.1 hn.2 (shows_space (c := ' ') (by decide) g2) (starts_cons (by decide))
  have g4 := shows_list (shows_cons (w := "define-fun".toList) (by decide) (by decide)
    (shows_space (c := ' ') (by decide) g3) (starts_cons (by decide)))
  have g5 := shows_append g4 (shows_space (c := '\n') (by decide) shows_nil) (starts_cons (by decide))
  rw [List.length_cons, List.replicate_succ']
  refine Eq.mp (congrArg₂ Shows ?_ rfl) g5
  simp only [text_define, text_open, text_close, text_nl, List.append_assoc, List.cons_append, List.nil_append]

/-- The definition of a function. -/
def fnDef (pr : ℚ → LF) (n : List Char) (args : List Val) (dflt : Val) (es : List (List Val × Val)) : Def :=
  ⟨n, (args.zipIdx 0).map fun p => (argName p.2, sortOf p.1), sortOf dflt,
    chainExp pr ((List.range args.length).map argName) dflt es⟩

theorem readDef_fn (n : List Char) (args : List Val) (dflt : Val) (es : List (List Val × Val)) :
    readDef (fnExp pr n args dflt es) = some (fnDef pr n args dflt es) := by
  simp [fnExp, readDef, mapM_params, readSort_type, fnDef]

/-! ### Values -/

theorem applySym_eq {a : Spec.Val} {v : Val} {so : Sort'} (ha : a.has so = true) (hv : sortOf v = so) :
    applySym ['='] [a, ofVal v] = some (.b (decide (a = ofVal v))) := by
  subst hv
  cases v with
  | b y =>
    cases a with
    | b x => simp [applySym, ofVal]
    | q x => simp [Val.has, sortOf] at ha
  | q y =>
    cases a with
    | b x => simp [Val.has, sortOf] at ha
    | q x => simp [applySym, ofVal]

theorem value_eq {env : List (List Char × Spec.Val)} (hp : Numbers pr) (he : NoNumeral env) {x : List Char} {a : Spec.Val}
    {v : Val} {so : Sort'} (hx : (SExp.atom x).value env = some a) (ha : a.has so = true) (hv : sortOf v = so) :
    (SExp.list [.atom ['='], .atom x, valExp pr v]).value env = some (.b (decide (a = ofVal v))) := by
  have h1 : valuesOf env [SExp.atom x, valExp pr v] = some [a, ofVal v] := by
    rw [valuesOf, hx, valuesOf, value_valExp hp he, valuesOf]
  rw [SExp.value, h1]
  exact applySym_eq ha hv

/-- The values of the equations. -/
theorem values_eqs {env : List (List Char × Spec.Val)} (hp : Numbers pr) (he : NoNumeral env) :
    ∀ (names : List (List Char)) (args : List Spec.Val) (vs : List Val) (sorts : List Sort'),
      names.length = args.length → vs.length = args.length → sorts.length = args.length →
      (∀ p ∈ names.zip args, (SExp.atom p.1).value env = some p.2) →
      (∀ p ∈ args.zip sorts, p.1.has p.2 = true) → vs.map sortOf = sorts →
      ∃ bs : List Bool, valuesOf env (eqExps pr names vs) = some (bs.map .b) ∧ bs.length = args.length ∧
        (bs.all id = true ↔ args = vs.map ofVal)
  | [], [], [], [], _, _, _, _, _, _ => ⟨[], by simp [eqExps, valuesOf], rfl, by simp⟩
  | x :: names, a :: args, v :: vs, so :: sorts, h1, h2, h3, hx, ha, hs => by
    obtain ⟨bs, g1, g2, g3⟩ := values_eqs hp he names args vs sorts (by simpa using h1) (by simpa using h2)
      (by simpa using h3) (fun p hp => hx p (by simp [hp])) (fun p hp => ha p (by simp [hp])) (List.cons.inj hs).2
    refine ⟨decide (a = ofVal v) :: bs, ?_, by simpa using g2, ?_⟩
    · have := value_eq hp he (hx (x, a) (by simp)) (ha (a, so) (by simp)) (List.cons.inj hs).1
      show valuesOf env (.list [.atom ['='], .atom x, valExp pr v] :: eqExps pr names vs) = _
      rw [valuesOf, this, g1]
      rfl
    · simp only [List.all_cons, id, Bool.and_eq_true, decide_eq_true_eq, List.map_cons, List.cons.injEq]
      rw [← g3]

theorem valuesOf_append (env : List (List Char × Spec.Val)) (as bs : List SExp) {xs ys : List Spec.Val}
    (ha : valuesOf env as = some xs) (hb : valuesOf env bs = some ys) : valuesOf env (as ++ bs) = some (xs ++ ys) := by
  induction as generalizing xs with
  | nil =>
    rw [valuesOf] at ha
    cases ha
    simpa using hb
  | cons e es ih =>
    rw [valuesOf] at ha
    cases he : e.value env with
    | none => rw [he] at ha; cases ha
    | some v =>
      cases hes : valuesOf env es with
      | none => rw [he, hes] at ha; cases ha
      | some vs =>
        rw [he, hes] at ha
        cases ha
        rw [List.cons_append, valuesOf, he, ih hes]
        rfl

theorem applySym_and (bs : List Bool) : applySym "and".toList (bs.map .b) = some (.b (bs.all id)) := by
  have h1 : (bs.map Spec.Val.b).all Val.isBool = true := by
    rw [List.all_map]
    exact List.all_eq_true.mpr fun _ _ => rfl
  have h2 : (bs.map Spec.Val.b).all Val.bool = bs.all id := by
    rw [List.all_map]
    rfl
  unfold applySym
  rw [if_neg (by decide), if_neg (by decide), if_neg (by decide), if_pos rfl, if_pos h1, h2]

/-- The value of the condition of an entry. -/
theorem value_cond {env : List (List Char × Spec.Val)} (hp : Numbers pr) (he : NoNumeral env) {names : List (List Char)}
    {args : List Spec.Val} {vs : List Val} {sorts : List Sort'} (h0 : names ≠ [])
    (h1 : names.length = args.length) (h2 : vs.length = args.length) (h3 : sorts.length = args.length)
    (hx : ∀ p ∈ names.zip args, (SExp.atom p.1).value env = some p.2) (ha : ∀ p ∈ args.zip sorts, p.1.has p.2 = true)
    (hs : vs.map sortOf = sorts) :
    valuesOf env (condExp pr names vs) = some [.b (decide (args = vs.map ofVal))] := by
  obtain ⟨bs, g1, g2, g3⟩ := values_eqs hp he names args vs sorts h1 h2 h3 hx ha hs
  have hb : decide (args = vs.map ofVal) = bs.all id := by
    rw [Bool.eq_iff_iff, decide_eq_true_eq, g3]
  rw [hb]
  unfold condExp
  by_cases hl : names.length > 1
  · rw [if_pos hl]
    have : (SExp.list (.atom "and".toList :: eqExps pr names vs)).value env = some (.b (bs.all id)) := by
      rw [SExp.value, g1, Option.bind_some, applySym_and]
    rw [valuesOf, this, valuesOf]
  · rw [if_neg hl, g1]
    have : bs.length = 1 := by
      have := List.length_pos_iff.mpr h0
      omega
    match bs, this with
    | [b], _ => simp

theorem applySym_ite (c : Bool) {v w : Val} (h : sortOf v = sortOf w) :
    applySym "ite".toList [.b c, ofVal v, ofVal w] = some (ofVal (if c then v else w)) := by
  unfold applySym
  rw [if_neg (by decide), if_neg (by decide), if_neg (by decide), if_neg (by decide), if_pos rfl]
  cases v <;> cases w <;> first | (simp [sortOf] at h; done) | (cases c <;> rfl)

/-- The value that a list of entries gives. -/
def pickEntry (es : List (List Val × Val)) (dflt : Val) (args : List Spec.Val) : Val :=
  match es with
  | [] => dflt
  | e :: es => if args = e.1.map ofVal then e.2 else pickEntry es dflt args

theorem pickEntry_sort {es : List (List Val × Val)} {dflt : Val} (h : ∀ e ∈ es, sortOf e.2 = sortOf dflt)
    (args : List Spec.Val) : sortOf (pickEntry es dflt args) = sortOf dflt := by
  induction es with
  | nil => rfl
  | cons e es ih =>
    unfold pickEntry
    split
    · exact h e (by simp)
    · exact ih fun x hx => h x (by simp [hx])

theorem value_chain {env : List (List Char × Spec.Val)} (hp : Numbers pr) (he : NoNumeral env) {names : List (List Char)}
    {args : List Spec.Val} {sorts : List Sort'} (h0 : names ≠ []) (h1 : names.length = args.length)
    (h3 : sorts.length = args.length) (hx : ∀ p ∈ names.zip args, (SExp.atom p.1).value env = some p.2)
    (ha : ∀ p ∈ args.zip sorts, p.1.has p.2 = true) (dflt : Val) (es : List (List Val × Val))
    (hs : ∀ e ∈ es, e.1.map sortOf = sorts) (hd : ∀ e ∈ es, sortOf e.2 = sortOf dflt) :
    (chainExp pr names dflt es).value env = some (ofVal (pickEntry es dflt args)) := by
  induction es with
  | nil => exact value_valExp hp he dflt
  | cons e es ih =>
    have ih := ih (fun x hx => hs x (by simp [hx])) fun x hx => hd x (by simp [hx])
    have hse := hs e (by simp)
    have hc := value_cond hp he h0 h1 (by rw [← h3, ← hse, List.length_map]) h3 hx ha hse
    have hv : valuesOf env [valExp pr e.2, chainExp pr names dflt es] =
        some [ofVal e.2, ofVal (pickEntry es dflt args)] := by
      rw [valuesOf, value_valExp hp he, valuesOf, ih, valuesOf]
    have := valuesOf_append env _ _ hc hv
    rw [chainExp, SExp.value, this, Option.bind_some]
    show applySym "ite".toList [.b _, ofVal e.2, ofVal _] = _
    rw [applySym_ite _ (by rw [hd e (by simp), pickEntry_sort fun x hx => hd x (by simp [hx])])]
    show _ = some (ofVal (if args = e.1.map ofVal then e.2 else pickEntry es dflt args))
    simp only [decide_eq_true_eq]

end PrintModel
end Yaga
