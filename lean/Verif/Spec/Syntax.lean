/-
Specification for C53: syntax trees of terms, their tokens and their evaluation.
-/
import Verif.Model.TermParser
import Verif.Spec.Let

namespace Yaga.Spec

mutual
/-- Terms of SMT-LIB (without quantifiers, `match`, annotations and indexed symbols, which the parser
rejects). -/
inductive Expr where
  | sym (s : String)
  | num (s : String)
  | dec (s : String)
  | app (f : String) (args : Exprs)
  | letE (bs : Binds) (body : Expr)
/-- Lists of terms. -/
inductive Exprs where
  | nil
  | cons (e : Expr) (es : Exprs)
/-- Bindings of a `let`. -/
inductive Binds where
  | nil
  | cons (n : String) (e : Expr) (bs : Binds)
end

mutual
/-- The tokens of a term. -/
def Expr.toks : Expr → List Tok
  | .sym s => [.sym s]
  | .num s => [.num s]
  | .dec s => [.dec s]
  | .app f args => .lp :: .sym f :: (args.toks ++ [.rp])
  | .letE bs body => .lp :: .letTok :: .lp :: (bs.toks ++ .rp :: (body.toks ++ [.rp]))
def Exprs.toks : Exprs → List Tok
  | .nil => []
  | .cons e es => e.toks ++ es.toks
def Binds.toks : Binds → List Tok
  | .nil => []
  | .cons n e bs => .lp :: .sym n :: (e.toks ++ .rp :: bs.toks)
end

variable {σ τ : Type}

mutual
/-- The term made for a syntax tree when the bindings in scope are `env` (innermost first). Arguments are
made from left to right; the bindings of a `let` are evaluated outside it (parallel `let`). -/
def Expr.eval (B : Backend σ τ) (env : List (String × τ)) (s : σ) : Expr → Option (σ × τ)
  | .sym n =>
    if n = "true" then some (s, B.tt)
    else if n = "false" then some (s, B.ff)
    else ((innermost env n).or (B.global s n)).map fun t => (s, t)
  | .num n => B.num s n
  | .dec n => B.dec s n
  | .app f args => (args.eval B env s).bind fun r => B.app r.1 f r.2
  | .letE bs body => (bs.eval B env s).bind fun r => body.eval B (r.2.reverse ++ env) r.1
def Exprs.eval (B : Backend σ τ) (env : List (String × τ)) (s : σ) : Exprs → Option (σ × List τ)
  | .nil => some (s, [])
  | .cons e es => (e.eval B env s).bind fun r => (es.eval B env r.1).map fun q => (q.1, r.2 :: q.2)
def Binds.eval (B : Backend σ τ) (env : List (String × τ)) (s : σ) : Binds → Option (σ × List (String × τ))
  | .nil => some (s, [])
  | .cons n e bs => (e.eval B env s).bind fun r => (bs.eval B env r.1).map fun q => (q.1, (n, r.2) :: q.2)
end

end Yaga.Spec
