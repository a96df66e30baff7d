/-
C73: well-formed linear scripts are accepted, and their answer is printed.
-/
import Verif.Proofs.Accept
import Verif.Props.C72

namespace Yaga

open Spec Shell

variable {H : TermHash} {E : Oracle} {S : Type} [LinearOrder S] [ScoreOps S]

theorem accept_items {uf : Bool} {is js : List Item} {c : FE} (h : SRel H is c) {Λ : List (String × Lin)}
    (hL : LRel (Spec.sigOf is) c.st Λ) (hw : wellFormed (Spec.sigOf is) js) (hl : linear Λ js = true)
    (huf : uf = true ∨ ∀ n as r, Item.declare n as r ∈ js → as = []) :
    ∃ c', c.items H uf js = some c' := by
  induction js generalizing is c Λ with
  | nil => exact ⟨c, rfl⟩
  | cons i js ih =>
    unfold linear at hl
    cases hi : i.lin Λ with
    | none => rw [hi] at hl; exact absurd hl nofun
    | some Λ' =>
      rw [hi] at hl
      obtain ⟨c1, h1, h2⟩ := accept_item (uf := uf) h hL hw.1
        (huf.imp_right fun h n as r e => h n as r (e ▸ List.mem_cons_self)) hi
      obtain ⟨c', h3⟩ := ih (h.item hw.1 h1) h2 (by rw [sigOf_snoc]; exact hw.2) hl
        (huf.imp_right fun h n as r hm => h n as r (List.mem_cons_of_mem _ hm))
      exact ⟨c', by unfold FE.items; rw [h1]; exact h3⟩

/-- C73: every well-formed script in the linear fragment is accepted: no declaration, definition or assertion
fails. Every assertion has made a term. In a logic without functions (`uf = false`) all declared symbols have to be
constants. -/
theorem C73_accepted {uf : Bool} {is : List Item} (hw : wellFormed [] is) (hl : linear [] is = true)
    (huf : uf = true ∨ ∀ n as r, Item.declare n as r ∈ is → as = []) :
    ∃ c, (FE.init H).items H uf is = some c ∧ c.assertions.length = (asserted is).length := by
  obtain ⟨c, hc⟩ := accept_items (uf := uf) (srel_init H) (Λ := [])
    (fun _ _ _ h => absurd h (by simp [Spec.sigOf, innermost])) hw hl huf
  obtain ⟨M, _, h⟩ := C71_structure_partial uf hw hc default
  exact ⟨c, hc, h.length_eq⟩

/-- C73: if such a script begins with `set-logic`, followed by its declarations, definitions and assertions,
information and options, followed by `check-sat`, terms are made for the assertions, and the first line printed
is the answer of the solver for these terms. -/
theorem C73_printed {text : List Char} {xs : List Lexeme} (hx : Layout xs text)
    (hd : .symbol "define-const".toList ∉ xs) {L : String} (hL : L = "QF_LRA" ∨ L = "QF_UFLRA")
    {pre post : List Cmd} (hp : ∀ x ∈ pre, x.quiet = true)
    (hw : Written (.setLogic L :: pre ++ .checkSat :: post) xs) (hf : wellFormed [] (problem pre))
    (hl : linear [] (problem pre) = true)
    (hn : L = "QF_LRA" → ∀ n as r, Item.declare n as r ∈ problem pre → as = []) :
    ∃ c, (FE.init H).items H true (problem pre) = some c ∧
      c.assertions.length = (asserted (problem pre)).length ∧
      ∀ a, E.solve 0 (decide (L = "QF_UFLRA")) c.st.table c.assertions = some a →
        (Shell.run H E text).lines.head? = some (answerLine a) := by
  obtain ⟨c, hc, hlen⟩ := C73_accepted (H := H) (uf := true) hf hl (Or.inl rfl)
  exact ⟨c, hc, hlen, fun a ha => C72_printed_partial hx hd hL hp hw hc hn ha⟩

/-- C73, QF_LRA: if the solver returns for the terms of the script, the first line printed is `sat` and the
assertions have a model, or it is `unsat` and they have none. -/
theorem C73_lra {text : List Char} {xs : List Lexeme} (hx : Layout xs text)
    (hd : .symbol "define-const".toList ∉ xs) {pre post : List Cmd} (hp : ∀ x ∈ pre, x.quiet = true)
    (hw : Written (.setLogic "QF_LRA" :: pre ++ .checkSat :: post) xs) (hf : wellFormed [] (problem pre))
    (hl : linear [] (problem pre) = true) (hn : ∀ n as r, Item.declare n as r ∈ problem pre → as = [])
    {cfg : ICfg} {op : LaOpts} (hE : ∀ s as a, E.solve 0 false s as = some a → LraCheck S cfg op s as a) :
    ∃ c, (FE.init H).items H true (problem pre) = some c ∧
      (E.solve 0 false c.st.table c.assertions ≠ none →
        ((Shell.run H E text).lines.head? = some "sat" ∧ Satisfiable (problem pre)) ∨
        ((Shell.run H E text).lines.head? = some "unsat" ∧ ¬ Satisfiable (problem pre))) := by
  obtain ⟨c, hc, _, h⟩ := C73_printed (H := H) (E := E) hx hd (Or.inl rfl) hp hw hf hl fun _ => hn
  refine ⟨c, hc, fun hne => ?_⟩
  cases ha : E.solve 0 false c.st.table c.assertions with
  | none => exact absurd ha hne
  | some a =>
    have h1 := h a (by rw [← ha]; rfl)
    have h2 := hE _ _ _ ha
    have h3 := lra_right hf hc hn h2
    cases h2 with
    | early | unsat => exact Or.inr ⟨h1, h3.2 rfl⟩
    | sat => exact Or.inl ⟨h1, h3.1 rfl⟩

namespace C73Example

open C71Example

/-- `(declare-const x Real) (declare-const p Bool) (declare-fun f (Real Bool) Real)
(define-fun d () Real (* (/ 1 3) x)) (assert (let ((y (f x p)) (c (- 2))) (or (< y (* c d)) (= y (+ d 2.5))
(distinct x y d)))) (assert (=> p (= (ite p x d) (/ x (* c 4)))))`, with `c` bound to `(- 2)`. -/
def linearScript : List Item :=
  [.declare "x" [] .real, .declare "p" [] .bool, .declare "f" [.real, .bool] .real,
    .define "d" .real (ap2 "*" (ap2 "/" (.num "1") (.num "3")) (.sym "x")),
    .assert (.letE (.cons "y" (ap2 "f" (.sym "x") (.sym "p")) (.cons "c" (ap1 "-" (.num "2")) .nil))
      (ap3 "or" (ap2 "<" (.sym "y") (ap2 "*" (.sym "c") (.sym "d")))
        (ap2 "=" (.sym "y") (ap2 "+" (.sym "d") (.dec "2.5")))
        (ap3 "distinct" (.sym "x") (.sym "y") (.sym "d")))),
    .assert (.letE (.cons "c" (ap1 "-" (.num "2")) .nil)
      (ap2 "=>" (.sym "p") (ap2 "=" (ap3 "ite" (.sym "p") (.sym "x") (.sym "d"))
        (ap2 "/" (.sym "x") (ap2 "*" (.sym "c") (.num "4"))))))]

/-- `(declare-const x Real) (assert (= x (* 0.5 (* 2 x))))`. -/
def multiples : List Item :=
  [.declare "x" [] .real, .assert (ap2 "=" (.sym "x") (ap2 "*" (.dec "0.5") (ap2 "*" (.num "2") (.sym "x"))))]

end C73Example

open C73Example C71Example in
/-- The script of the example is well-formed and linear. -/
example : wellFormed [] linearScript ∧ linear [] linearScript = true := by
  refine ⟨?_, by decide +kernel⟩
  simp only [linearScript, wellFormed, Item.Ok, Item.sig, Sig.fresh]
  decide +kernel

open C73Example C71Example in
/-- The restriction of `=` is necessary: `(= x (* 0.5 (* 2 x)))` is well-formed and every product has a constant
factor, but it is rejected. -/
theorem C73_multiple_of_multiple : wellFormed [] multiples ∧ (FE.init h0).items h0 true multiples = none := by
  refine ⟨?_, ?_⟩
  · simp only [multiples, wellFormed, Item.Ok, Item.sig, Sig.fresh]
    decide +kernel
  · have : ((FE.init h0).items h0 true multiples).isSome = false := by decide +kernel
    simpa using this

open C72Example in
/-- The hypotheses of `C73_printed` and `C73_lra` hold for the scripts of C72. -/
example : Layout (lexemes ++ lexemes2 ++ lexemes3) (spaced (lexemes ++ lexemes2 ++ lexemes3)) ∧
    Written (.setLogic "QF_LRA" :: (pre ++ [last]) ++ [.checkSat]) (lexemes ++ lexemes2 ++ lexemes3) ∧
    wellFormed [] (problem (pre ++ [last])) ∧ linear [] (problem (pre ++ [last])) = true ∧
    ∃ c, (FE.init C71Example.h0).items C71Example.h0 true (problem (pre ++ [last])) = some c ∧
      (solver cfg opts).solve 0 false c.st.table c.assertions ≠ none := by
  refine ⟨layout_spaced (all_valid (by decide +kernel)), written_append (written_append written1 written2) written3,
    wf2, by decide +kernel, _, accepted (by decide +kernel), ?_⟩
  have hE := answer_sound answer_unsat
  simp only [solver, if_true, Bool.false_eq_true, if_false]
  rw [if_pos hE]
  split <;> nofun

#print axioms C73_accepted
#print axioms C73_printed
#print axioms C73_lra
#print axioms C73_multiple_of_multiple

end Yaga
