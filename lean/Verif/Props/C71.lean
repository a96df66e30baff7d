/-
C71: the terms made for the assertions of a script mean what the script says.
-/
import Verif.Proofs.ScriptMeaning

namespace Yaga

open Spec TermTable

variable {H : TermHash}

/-- C71: let a well-formed script of declarations (constants and functions), definitions of constants and
assertions be accepted. Then every interpretation of the term table is a structure for the symbols of the
script - of the right sorts, with the defined constants equal to their definitions - in which the terms made
for the assertions have the values that the asserted terms have in SMT-LIB; and they are as many, in the same
order. -/
theorem C71_structure_partial (uf : Bool) {is : List Item} (hw : wellFormed [] is) {c : FE}
    (hc : (FE.init H).items H uf is = some c) (I : Interp) :
    ∃ M : Struct, M.For is ∧
      List.Forall₂ (fun t e => den I c.st.table t = e.value M []) c.assertions (asserted is) := by
  have h : SRel H is c := (srel_init H).items hw hc
  obtain ⟨M, h1, h2⟩ := h.toStruct I
  exact ⟨M, h1, h.vals I M h2⟩

/-- C71: conversely every structure for the symbols of the script is an interpretation of the term table in
which the terms have the values of the asserted terms. -/
theorem C71_interpretation_partial (uf : Bool) {is : List Item} (hw : wellFormed [] is) {c : FE}
    (hc : (FE.init H).items H uf is = some c) {M : Struct} (hM : M.For is) :
    ∃ I : Interp,
      List.Forall₂ (fun t e => den I c.st.table t = e.value M []) c.assertions (asserted is) := by
  have h : SRel H is c := (srel_init H).items hw hc
  obtain ⟨I, hI⟩ := h.toInterp hM
  exact ⟨I, h.vals I M hI⟩

theorem forall₂_true {s : TermTable} {I : Interp} {M : Struct} {ts : List Tm} {es : List Expr}
    (h : List.Forall₂ (fun t e => den I s t = e.value M []) ts es) :
    (∀ t ∈ ts, den I s t = .b true) ↔ ∀ e ∈ es, e.value M [] = .b true := by
  induction h with
  | nil => simp
  | cons h0 _ ih => simp only [List.forall_mem_cons, h0, ih]

/-- C71: the script is satisfiable if and only if the terms are. -/
theorem C71_satisfiable_partial (uf : Bool) {is : List Item} (hw : wellFormed [] is) {c : FE}
    (hc : (FE.init H).items H uf is = some c) :
    Satisfiable is ↔ ∃ I : Interp, ∀ t ∈ c.assertions, den I c.st.table t = .b true := by
  constructor
  · rintro ⟨M, hM, h⟩
    obtain ⟨I, hI⟩ := C71_interpretation_partial uf hw hc hM
    exact ⟨I, (forall₂_true hI).mpr h⟩
  · rintro ⟨I, h⟩
    obtain ⟨M, hM, hI⟩ := C71_structure_partial uf hw hc I
    exact ⟨M, hM, (forall₂_true hI).mp h⟩

namespace C71Example

/-- A hash function with only collisions. -/
def h0 : TermHash := ⟨fun _ _ => 0, fun _ _ => 0, fun _ => 0⟩

/-- Applications with one, two and three arguments. -/
def ap1 (f : String) (a : Expr) : Expr := .app f (.cons a .nil)
def ap2 (f : String) (a b : Expr) : Expr := .app f (.cons a (.cons b .nil))
def ap3 (f : String) (a b c : Expr) : Expr := .app f (.cons a (.cons b (.cons c .nil)))

/-- `(declare-const x Real) (declare-const p Bool) (declare-fun f (Real Bool) Real)
(define-fun d () Real (+ x 1)) (assert (let ((y (f x p))) (or (< y d) (= y 2.5)))) (assert (not p))`. -/
def script : List Item :=
  [.declare "x" [] .real, .declare "p" [] .bool, .declare "f" [.real, .bool] .real,
    .define "d" .real (ap2 "+" (.sym "x") (.num "1")),
    .assert (.letE (.cons "y" (ap2 "f" (.sym "x") (.sym "p")) .nil)
      (ap2 "or" (ap2 "<" (.sym "y") (.sym "d")) (ap2 "=" (.sym "y") (.dec "2.5")))),
    .assert (ap1 "not" (.sym "p"))]

end C71Example

open C71Example in
/-- The script of the example is well-formed and accepted, and two terms are made. -/
example : wellFormed [] script ∧
    ((FE.init h0).items h0 true script).map (fun c => c.assertions.length) = some 2 := by
  refine ⟨?_, by decide +kernel⟩
  simp only [script, wellFormed, Item.Ok, Item.sig, Sig.fresh]
  decide +kernel

/-! ### Where the parser departs from SMT-LIB -/

namespace C71Example

/-- `(assert (let ((true false)) true))`. -/
def shadowed : List Item := [.assert (.letE (.cons "true" (.sym "false") .nil) (.sym "true"))]

/-- The state after `(declare-const y Real)` and the tokens of `(define-fun f ((x Real)) Real (+ x 1))`,
`(assert (= (f y) 0))` and `(assert (= y 5))`. -/
def params : Option FE :=
  (((FE.init h0).declareCmd false "y" [] .real).bind fun c =>
    (c.defineCmd h0 "f" [("x", .real)] .real ((ap2 "+" (.sym "x") (.num "1")).toks ++ [.rp])).bind fun c =>
      (c.1.assertCmd h0 ((ap2 "=" (ap1 "f" (.sym "y")) (.num "0")).toks ++ [.rp])).bind fun c =>
        (c.1.assertCmd h0 ((ap2 "=" (.sym "y") (.num "5")).toks ++ [.rp])).map Prod.fst)

/-- `y` (index 3) is 5, `x` (index 4) is -1. -/
def paramsInterp : Interp :=
  ⟨fun _ => false, fun i => if i = 3 then 5 else -1, fun _ _ => false, fun _ _ => 0⟩

end C71Example

open C71Example in
/-- The hypothesis that no variable is called `true` is necessary: the assertion `(let ((true false)) true)`,
which is false in SMT-LIB, is read as true. -/
theorem C71_shadowed_true : ∃ c, (FE.init h0).items h0 true shadowed = some c ∧ c.assertions = [Tm.tt] ∧
    ∀ M : Struct, ∀ e ∈ asserted shadowed, e.value M [] = .b false := by
  have h : ((FE.init h0).items h0 true shadowed).map (fun c => c.assertions) = some [Tm.tt] := by
    decide +kernel
  obtain ⟨c, h1, h2⟩ := map_some h
  refine ⟨c, h1, h2, ?_⟩
  intro M e he
  simp only [shadowed, asserted, List.mem_singleton] at he
  subst he
  simp [Expr.value, Binds.values, innermost]

open C71Example in
/-- Functions with parameters are not covered, and must not be: after `(define-fun f ((x Real)) Real (+ x 1))`
the assertions `(= (f y) 0)` and `(= y 5)`, which contradict each other, are read as terms that have a common
model (the parameter `x` is not replaced by `y`, C42). -/
theorem C71_parameters : ∃ c, params = some c ∧ c.assertions.length = 2 ∧
    (∀ t ∈ c.assertions, den paramsInterp c.st.table t = .b true) ∧
    ¬ ∃ y : ℚ, y + 1 = 0 ∧ y = 5 := by
  have h : params.map (fun c => (c.assertions.length, c.assertions.all fun t =>
      decide (den paramsInterp c.st.table t = .b true))) = some (2, true) := by decide +kernel
  obtain ⟨c, h1, h2⟩ := map_some h
  have h3 := Prod.mk.inj h2
  refine ⟨c, h1, h3.1, fun t ht => of_decide_eq_true (List.all_eq_true.mp h3.2 t ht), ?_⟩
  rintro ⟨y, h4, rfl⟩
  norm_num at h4

open C71Example in
/-- Well-formed scripts that are not accepted (the full property would read them): chains of `=`, `<`, `-`
and `=>` with three arguments, products of three factors, and the product of two variables. -/
theorem C71_rejected :
    ∀ e ∈ [ap3 "=" (.sym "x") (.sym "y") (.num "1"), ap3 "<" (.sym "x") (.sym "y") (.num "1"),
        ap2 "<" (.sym "x") (ap3 "-" (.sym "x") (.sym "y") (.num "1")),
        ap3 "=>" (.sym "true") (.sym "true") (.sym "false"),
        ap2 "<" (.sym "x") (ap3 "*" (.num "2") (.num "3") (.sym "x")),
        ap2 "<" (.sym "x") (ap2 "*" (.sym "x") (.sym "y"))],
      wellFormed [] [.declare "x" [] .real, .declare "y" [] .real, .assert e] ∧
      (FE.init h0).items h0 true [.declare "x" [] .real, .declare "y" [] .real, .assert e] = none := by
  simp only [List.forall_mem_cons, List.not_mem_nil, false_imp_iff, implies_true, and_true]
  have key : ∀ e : Expr, ((FE.init h0).items h0 true [.declare "x" [] .real, .declare "y" [] .real,
      .assert e]).isNone = true → (FE.init h0).items h0 true [.declare "x" [] .real, .declare "y" [] .real,
      .assert e] = none := fun e h => Option.isNone_iff_eq_none.mp h
  refine ⟨⟨?_, key _ (by decide +kernel)⟩, ⟨?_, key _ (by decide +kernel)⟩, ⟨?_, key _ (by decide +kernel)⟩,
    ⟨?_, key _ (by decide +kernel)⟩, ⟨?_, key _ (by decide +kernel)⟩, ⟨?_, key _ (by decide +kernel)⟩⟩ <;>
  · simp only [wellFormed, Item.Ok, Item.sig, Sig.fresh]
    decide +kernel

#print axioms C71_structure_partial
#print axioms C71_interpretation_partial
#print axioms C71_satisfiable_partial
#print axioms C71_shadowed_true
#print axioms C71_parameters
#print axioms C71_rejected

end Yaga
