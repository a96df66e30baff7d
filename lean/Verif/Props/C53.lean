/-
C53: the term parser reads syntax trees.
-/
import Verif.Proofs.TermParser

namespace Yaga

open Spec

variable {σ τ : Type}

/-- C53: whatever let bindings were made before (`before`, leaving the scopes `sc`), on the tokens of any
term followed by anything the parser makes the term the syntax tree stands for in that scope, stops exactly
after the term, and leaves all bindings as they were. -/
theorem C53_reads (B : Backend σ τ) (e : Expr) (rest : List Tok) (before : List (LetOp τ)) {sc : Scopes τ}
    {r : LetRecords τ} (hs : (Scopes.mk [] [] : Scopes τ).after before = some sc)
    (hr : (LetRecords.init : LetRecords τ).after before = some r) (s : σ) {s' : σ} {t : τ}
    (he : e.eval B sc.all s = some (s', t)) :
    ∃ r', parseTerm B r s (e.toks ++ rest) = some (t, rest, r', s') ∧
      ∀ later n, (r'.after later).map (fun x => x.get n) = (r.after later).map (fun x => x.get n) := by
  have h0 := rep_init.after (τ := τ) before
  rw [hs] at h0
  obtain ⟨r0, h1, h2⟩ := h0
  rw [hr] at h1
  cases h1
  obtain ⟨k, r', hk, hr', h3⟩ := parse_expr B e [] [] r sc s s' t rest h2 he
  refine ⟨r', ?_, ?_⟩
  · have := h3 ((e.toks ++ rest).length - k)
    rw [Nat.sub_add_cancel (by rw [List.length_append]; omega), cont_nil] at this
    exact this
  · intro later n
    have a1 := hr'.after later
    have a2 := h2.after later
    cases hl : sc.after later with
    | none => rw [hl] at a1 a2; rw [a1, a2]
    | some s' =>
      rw [hl] at a1 a2
      obtain ⟨x, x1, x2⟩ := a1
      obtain ⟨y, y1, y2⟩ := a2
      rw [x1, y1]
      simp only [Option.map_some]
      rw [x2.get, y2.get]

/-- C53: if the syntax tree stands for no term (an unknown symbol, a wrong argument), the parser reports
an error. -/
theorem C53_rejects (B : Backend σ τ) (e : Expr) (rest : List Tok) (before : List (LetOp τ)) {sc : Scopes τ}
    {r : LetRecords τ} (hs : (Scopes.mk [] [] : Scopes τ).after before = some sc)
    (hr : (LetRecords.init : LetRecords τ).after before = some r) (s : σ)
    (he : e.eval B sc.all s = none) : parseTerm B r s (e.toks ++ rest) = none := by
  have h0 := rep_init.after (τ := τ) before
  rw [hs] at h0
  obtain ⟨r0, h1, h2⟩ := h0
  rw [hr] at h1
  cases h1
  exact parse_expr_none B e [] [] r sc s rest h2 he _

/-- A backend that makes strings and counts the terms made. -/
def showBackend : Backend Nat String where
  tt := "T"
  ff := "F"
  global _ n := if n = "q" then none else some n
  num s n := some (s + 1, n)
  dec s n := some (s + 1, n)
  app s f args := some (s + 1, f ++ "[" ++ String.join (args.map (· ++ ";")) ++ "]")

/-- `(let ((x 1) (y x)) (f (let ((x y)) x) x true))` with `x` bound outside: the binding of `y` uses the outer `x`. -/
def letExample : Expr :=
  .letE (.cons "x" (.num "1") (.cons "y" (.sym "x") .nil))
    (.app "f" (.cons (.letE (.cons "x" (.sym "y") .nil) (.sym "x")) (.cons (.sym "x") (.cons (.sym "true") .nil))))

example : (letExample.eval showBackend [("x", "outer")] 0) = some (2, "f[outer;1;T;]") := by decide

example : ((parseTerm showBackend (LetRecords.init.addBinding "x" "outer") 0
    (letExample.toks ++ [.rp, .sym "z"])).map fun r => (r.1, r.2.1, r.2.2.2)) =
      some ("f[outer;1;T;]", [.rp, .sym "z"], 2) := by decide

/-- An unknown symbol inside a binding. -/
example : (Expr.letE (.cons "x" (.sym "q") .nil) (.sym "x")).eval showBackend [] 0 = none := by decide

#print axioms C53_reads
#print axioms C53_rejects

end Yaga
