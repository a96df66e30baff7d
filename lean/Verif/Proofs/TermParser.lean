/-
The term parser reads the tokens of a syntax tree as the tree.
-/
import Verif.Spec.Syntax
import Verif.Proofs.Let

namespace Yaga

open Spec

variable {σ τ : Type}

/-- The rest of an iteration after a term has been read. -/
def cont (B : Backend σ τ) (fuel : Nat) (p : PState σ τ) (ret : Option τ) (needs : Bool) (ts : List Tok) :
    Option (τ × List Tok × LetRecords τ × σ) :=
  (settle p.st p.stack p.binders p.recs ret needs ts).bind fun q =>
    match q.1.stack with
    | [] => q.2.1.map fun t => (t, q.2.2, q.1.recs, q.1.st)
    | _ => parseLoop B fuel q.1 q.2.2

theorem parseLoop_succ (B : Backend σ τ) (fuel : Nat) (p : PState σ τ) (ts : List Tok) :
    parseLoop B (fuel + 1) p ts =
      (readTok B p ts).bind fun r => cont B fuel r.1 r.2.1 r.2.2.1 r.2.2.2 := rfl

theorem cont_none (B : Backend σ τ) (fuel : Nat) (c : Ctx τ) (cs : List (Ctx τ))
    (b : List (List (String × τ))) (r : LetRecords τ) (s : σ) (ts : List Tok) :
    cont B fuel ⟨c :: cs, b, r, s⟩ none false ts = parseLoop B fuel ⟨c :: cs, b, r, s⟩ ts := by
  unfold cont
  simp only [settle]
  rfl

theorem cont_nextArg (B : Backend σ τ) (fuel : Nat) (f : String) (args : List τ) (cs : List (Ctx τ))
    (b : List (List (String × τ))) (r : LetRecords τ) (s : σ) (t : τ) (ts : List Tok) :
    cont B fuel ⟨.nextArg f args :: cs, b, r, s⟩ (some t) false ts =
      parseLoop B fuel ⟨.nextArg f (args ++ [t]) :: cs, b, r, s⟩ ts := by
  unfold cont
  simp only [settle]
  rfl

theorem cont_letBody (B : Backend σ τ) (fuel : Nat) (cs : List (Ctx τ))
    (b : List (List (String × τ))) (r r' : LetRecords τ) (s : σ) (t : τ) (ts : List Tok)
    (hr : r.popFrame = some r') :
    cont B fuel ⟨.letBody :: cs, b, r, s⟩ (some t) false (.rp :: ts) =
      cont B fuel ⟨cs, b, r', s⟩ (some t) false ts := by
  unfold cont
  simp only [settle, hr, Option.bind_some]
  rfl

/-- The parser after looking for another binding. -/
def afterNext (B : Backend σ τ) (fuel : Nat) (q : Option (PState σ τ × Option τ × List Tok)) :
    Option (τ × List Tok × LetRecords τ × σ) :=
  q.bind fun q =>
    match q.1.stack with
    | [] => q.2.1.map fun t => (t, q.2.2, q.1.recs, q.1.st)
    | _ => parseLoop B fuel q.1 q.2.2

theorem cont_letOpen (B : Backend σ τ) (fuel : Nat) (n : String) (cs : List (Ctx τ))
    (b : List (List (String × τ))) (r : LetRecords τ) (s : σ) (ts : List Tok) :
    cont B fuel ⟨.letBind n :: cs, b, r, s⟩ none true (.lp :: ts) =
      afterNext B fuel (nextBinding cs b r s ts) := by
  unfold cont afterNext
  simp only [settle, letStep]
  rfl

theorem cont_letBind (B : Backend σ τ) (fuel : Nat) (n : String) (cs : List (Ctx τ))
    (acc : List (String × τ)) (b : List (List (String × τ))) (r : LetRecords τ) (s : σ) (t : τ)
    (ts : List Tok) :
    cont B fuel ⟨.letBind n :: cs, acc :: b, r, s⟩ (some t) false (.rp :: ts) =
      afterNext B fuel (nextBinding cs ((acc ++ [(n, t)]) :: b) r s ts) := by
  unfold cont afterNext
  simp only [settle, letStep]
  rfl

theorem Rep.addLet {r : LetRecords τ} {s : Scopes τ} (h : Rep r s) (names : List (String × τ)) :
    Rep (r.addLetBindings names) ⟨names.reverse :: s.frames, s.top⟩ := by
  have e : ∀ (bs : List (String × τ)) (x : LetRecords τ),
      x.after (bs.map fun b => .add b.1 b.2) = some (bs.foldl (fun r b => r.addBinding b.1 b.2) x) := by
    intro bs
    induction bs with
    | nil => intro x; rfl
    | cons b bs ih => intro x; exact ih _
  have ha : (r.pushFrame).after (names.map fun b => .add b.1 b.2) = some (r.addLetBindings names) :=
    e names _
  have hp : Rep r.pushFrame ⟨[] :: s.frames, s.top⟩ := by
    obtain ⟨r', g1, g2⟩ := h.step .push
    cases g1
    exact g2
  have hq := hp.after (names.map fun b => .add b.1 b.2)
  rw [after_adds] at hq
  obtain ⟨r', g1, g2⟩ := hq
  rw [ha] at g1
  cases g1
  rw [List.append_nil] at g2
  exact g2

theorem symbolTerm_eq (B : Backend σ τ) {r : LetRecords τ} {sc : Scopes τ} (h : Rep r sc) (s : σ)
    (n : String) : (symbolTerm B r s n).map (fun t => (s, t)) = (Expr.sym n).eval B sc.all s := by
  unfold symbolTerm Expr.eval
  split
  · rfl
  · split
    · rfl
    · rw [h.get]
      cases innermost sc.all n <;> rfl

mutual

/-- Reading a term. -/
theorem parse_expr (B : Backend σ τ) : ∀ (e : Expr) (cs : List (Ctx τ)) (b : List (List (String × τ)))
    (r : LetRecords τ) (sc : Scopes τ) (s s' : σ) (t : τ) (rest : List Tok), Rep r sc →
    e.eval B sc.all s = some (s', t) →
    ∃ k r', k ≤ e.toks.length ∧ Rep r' sc ∧ ∀ fuel,
      parseLoop B (fuel + k) ⟨cs, b, r, s⟩ (e.toks ++ rest) = cont B fuel ⟨cs, b, r', s'⟩ (some t) false rest
  | .sym n, cs, b, r, sc, s, s', t, rest, hr, he => by
    refine ⟨1, r, by simp [Expr.toks], hr, fun fuel => ?_⟩
    rw [parseLoop_succ]
    rw [← symbolTerm_eq B hr] at he
    obtain ⟨t', h1, h2⟩ := Option.map_eq_some_iff.mp he
    cases h2
    simp only [Expr.toks, List.cons_append, List.nil_append, readTok, h1, Option.map_some, Option.bind_some]
  | .num n, cs, b, r, sc, s, s', t, rest, hr, he => by
    refine ⟨1, r, by simp [Expr.toks], hr, fun fuel => ?_⟩
    rw [parseLoop_succ]
    have he : B.num s n = some (s', t) := by rw [Expr.eval] at he; exact he
    simp only [Expr.toks, List.cons_append, List.nil_append, readTok, he, Option.map_some, Option.bind_some]
  | .dec n, cs, b, r, sc, s, s', t, rest, hr, he => by
    refine ⟨1, r, by simp [Expr.toks], hr, fun fuel => ?_⟩
    rw [parseLoop_succ]
    have he : B.dec s n = some (s', t) := by rw [Expr.eval] at he; exact he
    simp only [Expr.toks, List.cons_append, List.nil_append, readTok, he, Option.map_some, Option.bind_some]
  | .app f args, cs, b, r, sc, s, s', t, rest, hr, he => by
    rw [Expr.eval] at he
    obtain ⟨⟨s1, ts⟩, h1, h2⟩ := Option.bind_eq_some_iff.mp he
    simp only at h2
    obtain ⟨k, r', hk, hr', h3⟩ := parse_args B args f [] cs b r sc s s1 ts (.rp :: rest) hr h1
    refine ⟨1 + k + 1, r', ?_, hr', fun fuel => ?_⟩
    · simp only [Expr.toks, List.length_cons, List.length_append]; simp; omega
    rw [show fuel + (1 + k + 1) = ((fuel + 1) + k) + 1 by omega, parseLoop_succ]
    simp only [Expr.toks, List.cons_append, readTok, Option.bind_some]
    rw [cont_none, List.append_assoc, List.cons_append, List.nil_append, h3, parseLoop_succ]
    simp only [readTok, List.nil_append, h2, Option.map_some, Option.bind_some]
  | .letE bs body, cs, b, r, sc, s, s', t, rest, hr, he => by
    rw [Expr.eval] at he
    obtain ⟨⟨s1, vs⟩, h1, h2⟩ := Option.bind_eq_some_iff.mp he
    simp only at h2
    obtain ⟨k, r1, hk, hr1, h3⟩ := parse_binds B bs [] cs b r sc s s1 vs (body.toks ++ (.rp :: rest)) hr h1
    have hr2 := hr1.addLet vs
    have henv : (Scopes.mk (vs.reverse :: sc.frames) sc.top).all = vs.reverse ++ sc.all := by
      simp [Scopes.all]
    rw [← henv] at h2
    obtain ⟨k2, r2, hk2, hr3, h4⟩ := parse_expr B body (.letBody :: cs) b _ _ s1 s' t (.rp :: rest) hr2 h2
    obtain ⟨r3, h5, hr4⟩ := hr3.step .pop
    refine ⟨k2 + k + 1, r3, ?_, hr4, fun fuel => ?_⟩
    · simp only [Expr.toks, List.length_cons, List.length_append]; simp; omega
    rw [show fuel + (k2 + k + 1) = ((fuel + k2) + k) + 1 by omega, parseLoop_succ]
    simp only [Expr.toks, List.cons_append, List.append_assoc, List.nil_append, readTok, Option.bind_some]
    rw [cont_letOpen]
    have := h3 (fuel + k2)
    rw [List.nil_append] at this
    rw [this, h4, cont_letBody B fuel cs b r2 r3 s' t rest h5]

/-- Reading arguments. -/
theorem parse_args (B : Backend σ τ) : ∀ (es : Exprs) (f : String) (acc : List τ) (cs : List (Ctx τ))
    (b : List (List (String × τ))) (r : LetRecords τ) (sc : Scopes τ) (s s' : σ) (ts : List τ)
    (rest : List Tok), Rep r sc → es.eval B sc.all s = some (s', ts) →
    ∃ k r', k ≤ es.toks.length ∧ Rep r' sc ∧ ∀ fuel,
      parseLoop B (fuel + k) ⟨.nextArg f acc :: cs, b, r, s⟩ (es.toks ++ rest) =
        parseLoop B fuel ⟨.nextArg f (acc ++ ts) :: cs, b, r', s'⟩ rest
  | .nil, f, acc, cs, b, r, sc, s, s', ts, rest, hr, he => by
    rw [Exprs.eval] at he
    cases he
    exact ⟨0, r, Nat.zero_le _, hr, fun fuel => by simp [Exprs.toks]⟩
  | .cons e es, f, acc, cs, b, r, sc, s, s', ts, rest, hr, he => by
    rw [Exprs.eval] at he
    obtain ⟨⟨s1, t⟩, h1, h2⟩ := Option.bind_eq_some_iff.mp he
    obtain ⟨⟨s2, ts'⟩, h3, h4⟩ := Option.map_eq_some_iff.mp h2
    cases h4
    simp only at h3
    obtain ⟨k, r1, hk, hr1, g1⟩ := parse_expr B e (.nextArg f acc :: cs) b r sc s s1 t (es.toks ++ rest) hr h1
    obtain ⟨k2, r2, hk2, hr2, g2⟩ := parse_args B es f (acc ++ [t]) cs b r1 sc s1 s2 ts' rest hr1 h3
    refine ⟨k2 + k, r2, ?_, hr2, fun fuel => ?_⟩
    · simp only [Exprs.toks, List.length_append]; omega
    rw [← Nat.add_assoc, Exprs.toks, List.append_assoc, g1, cont_nextArg, g2, List.append_assoc]
    rfl

/-- Reading bindings. -/
theorem parse_binds (B : Backend σ τ) : ∀ (bs : Binds) (acc : List (String × τ)) (cs : List (Ctx τ))
    (b : List (List (String × τ))) (r : LetRecords τ) (sc : Scopes τ) (s s' : σ) (vs : List (String × τ))
    (rest : List Tok), Rep r sc → bs.eval B sc.all s = some (s', vs) →
    ∃ k r', k ≤ bs.toks.length ∧ Rep r' sc ∧ ∀ fuel,
      afterNext B (fuel + k) (nextBinding cs (acc :: b) r s (bs.toks ++ .rp :: rest)) =
        parseLoop B fuel ⟨.letBody :: cs, b, r'.addLetBindings (acc ++ vs), s'⟩ rest
  | .nil, acc, cs, b, r, sc, s, s', vs, rest, hr, he => by
    rw [Binds.eval] at he
    cases he
    refine ⟨0, r, Nat.zero_le _, hr, fun fuel => ?_⟩
    simp only [Binds.toks, List.nil_append, List.append_nil, Nat.add_zero, nextBinding, afterNext,
      Option.bind_some]
  | .cons n e bs, acc, cs, b, r, sc, s, s', vs, rest, hr, he => by
    rw [Binds.eval] at he
    obtain ⟨⟨s1, t⟩, h1, h2⟩ := Option.bind_eq_some_iff.mp he
    obtain ⟨⟨s2, vs'⟩, h3, h4⟩ := Option.map_eq_some_iff.mp h2
    cases h4
    simp only at h3
    obtain ⟨k, r1, hk, hr1, g1⟩ := parse_expr B e (.letBind n :: cs) (acc :: b) r sc s s1 t
      (.rp :: (bs.toks ++ .rp :: rest)) hr h1
    obtain ⟨k2, r2, hk2, hr2, g2⟩ := parse_binds B bs (acc ++ [(n, t)]) cs b r1 sc s1 s2 vs' rest hr1 h3
    refine ⟨k2 + k, r2, ?_, hr2, fun fuel => ?_⟩
    · simp only [Binds.toks, List.length_append, List.length_cons]; omega
    have : afterNext B (fuel + (k2 + k)) (nextBinding cs (acc :: b) r s ((Binds.cons n e bs).toks ++ .rp :: rest)) =
        parseLoop B (fuel + k2 + k) ⟨.letBind n :: cs, acc :: b, r, s⟩
          (e.toks ++ .rp :: (bs.toks ++ .rp :: rest)) := by
      simp only [Binds.toks, List.cons_append, List.append_assoc, nextBinding, afterNext, Option.bind_some,
        Nat.add_assoc]
    rw [this, g1, cont_letBind, g2, List.append_assoc]
    rfl

end

theorem parseLoop_mono (B : Backend σ τ) : ∀ (n : Nat) (p : PState σ τ) (ts : List Tok) {x},
    parseLoop B n p ts = some x → parseLoop B (n + 1) p ts = some x
  | 0, p, ts, x, h => by cases h
  | n + 1, p, ts, x, h => by
    rw [parseLoop] at h ⊢
    obtain ⟨r, h1, h2⟩ := Option.bind_eq_some_iff.mp h
    obtain ⟨q, h3, h4⟩ := Option.bind_eq_some_iff.mp h2
    rw [h1, Option.bind_some, h3, Option.bind_some]
    cases hs : q.1.stack with
    | nil => rw [hs] at h4; exact h4
    | cons c cs => rw [hs] at h4; exact parseLoop_mono B n _ _ h4

theorem parseLoop_none (B : Backend σ τ) (n k : Nat) (p : PState σ τ) (ts : List Tok)
    (h : parseLoop B (n + k) p ts = none) : parseLoop B n p ts = none := by
  induction k with
  | zero => exact h
  | succ k ih =>
    apply ih
    cases hx : parseLoop B (n + k) p ts with
    | none => rfl
    | some x => rw [← Nat.add_assoc, parseLoop_mono B _ p ts hx] at h; cases h

mutual

/-- A term that cannot be made. -/
theorem parse_expr_none (B : Backend σ τ) : ∀ (e : Expr) (cs : List (Ctx τ)) (b : List (List (String × τ)))
    (r : LetRecords τ) (sc : Scopes τ) (s : σ) (rest : List Tok), Rep r sc →
    e.eval B sc.all s = none → ∀ fuel, parseLoop B fuel ⟨cs, b, r, s⟩ (e.toks ++ rest) = none
  | .sym n, cs, b, r, sc, s, rest, hr, he, fuel => by
    apply parseLoop_none B fuel 1
    rw [parseLoop_succ]
    rw [← symbolTerm_eq B hr, Option.map_eq_none_iff] at he
    simp only [Expr.toks, List.cons_append, List.nil_append, readTok, he, Option.map_none, Option.bind_none]
  | .num n, cs, b, r, sc, s, rest, hr, he, fuel => by
    apply parseLoop_none B fuel 1
    rw [parseLoop_succ]
    have he : B.num s n = none := by rw [Expr.eval] at he; exact he
    simp only [Expr.toks, List.cons_append, List.nil_append, readTok, he, Option.map_none, Option.bind_none]
  | .dec n, cs, b, r, sc, s, rest, hr, he, fuel => by
    apply parseLoop_none B fuel 1
    rw [parseLoop_succ]
    have he : B.dec s n = none := by rw [Expr.eval] at he; exact he
    simp only [Expr.toks, List.cons_append, List.nil_append, readTok, he, Option.map_none, Option.bind_none]
  | .app f args, cs, b, r, sc, s, rest, hr, he, fuel => by
    rw [Expr.eval] at he
    cases h1 : args.eval B sc.all s with
    | none =>
      have h2 := parse_args_none B args f [] cs b r sc s (.rp :: rest) hr h1
      apply parseLoop_none B fuel 1
      rw [parseLoop_succ]
      simp only [Expr.toks, List.cons_append, readTok, Option.bind_some]
      rw [cont_none, List.append_assoc, List.cons_append, List.nil_append, h2]
    | some x =>
      obtain ⟨s1, ts⟩ := x
      rw [h1, Option.bind_some] at he
      obtain ⟨k, r', hk, hr', h3⟩ := parse_args B args f [] cs b r sc s s1 ts (.rp :: rest) hr h1
      apply parseLoop_none B fuel (1 + k + 1)
      rw [show fuel + (1 + k + 1) = ((fuel + 1) + k) + 1 by omega, parseLoop_succ]
      simp only [Expr.toks, List.cons_append, readTok, Option.bind_some]
      rw [cont_none, List.append_assoc, List.cons_append, List.nil_append, h3, parseLoop_succ]
      simp only [readTok, List.nil_append, he, Option.map_none, Option.bind_none]
  | .letE bs body, cs, b, r, sc, s, rest, hr, he, fuel => by
    rw [Expr.eval] at he
    cases h1 : bs.eval B sc.all s with
    | none =>
      have h2 := parse_binds_none B bs [] cs b r sc s (body.toks ++ (.rp :: rest)) hr h1
      apply parseLoop_none B fuel 1
      rw [parseLoop_succ]
      simp only [Expr.toks, List.cons_append, List.append_assoc, List.nil_append, readTok, Option.bind_some]
      rw [cont_letOpen, h2]
    | some x =>
      obtain ⟨s1, vs⟩ := x
      rw [h1, Option.bind_some] at he
      simp only at he
      obtain ⟨k, r1, hk, hr1, h3⟩ := parse_binds B bs [] cs b r sc s s1 vs (body.toks ++ (.rp :: rest)) hr h1
      have hr2 := hr1.addLet vs
      have henv : (Scopes.mk (vs.reverse :: sc.frames) sc.top).all = vs.reverse ++ sc.all := by
        simp [Scopes.all]
      rw [← henv] at he
      have h4 := parse_expr_none B body (.letBody :: cs) b _ _ s1 (.rp :: rest) hr2 he
      apply parseLoop_none B fuel (k + 1)
      rw [← Nat.add_assoc, parseLoop_succ]
      simp only [Expr.toks, List.cons_append, List.append_assoc, List.nil_append, readTok, Option.bind_some]
      rw [cont_letOpen]
      have := h3 fuel
      rw [List.nil_append] at this
      rw [this, h4]

theorem parse_args_none (B : Backend σ τ) : ∀ (es : Exprs) (f : String) (acc : List τ) (cs : List (Ctx τ))
    (b : List (List (String × τ))) (r : LetRecords τ) (sc : Scopes τ) (s : σ)
    (rest : List Tok), Rep r sc → es.eval B sc.all s = none → ∀ fuel,
      parseLoop B fuel ⟨.nextArg f acc :: cs, b, r, s⟩ (es.toks ++ rest) = none
  | .nil, f, acc, cs, b, r, sc, s, rest, hr, he, fuel => by
    rw [Exprs.eval] at he
    cases he
  | .cons e es, f, acc, cs, b, r, sc, s, rest, hr, he, fuel => by
    rw [Exprs.eval] at he
    cases h1 : e.eval B sc.all s with
    | none =>
      rw [Exprs.toks, List.append_assoc]
      exact parse_expr_none B e _ b r sc s _ hr h1 fuel
    | some x =>
      obtain ⟨s1, t⟩ := x
      rw [h1, Option.bind_some, Option.map_eq_none_iff] at he
      obtain ⟨k, r1, hk, hr1, g1⟩ := parse_expr B e (.nextArg f acc :: cs) b r sc s s1 t (es.toks ++ rest) hr h1
      apply parseLoop_none B fuel k
      rw [Exprs.toks, List.append_assoc, g1, cont_nextArg]
      exact parse_args_none B es f (acc ++ [t]) cs b r1 sc s1 rest hr1 he fuel

theorem parse_binds_none (B : Backend σ τ) : ∀ (bs : Binds) (acc : List (String × τ)) (cs : List (Ctx τ))
    (b : List (List (String × τ))) (r : LetRecords τ) (sc : Scopes τ) (s : σ)
    (rest : List Tok), Rep r sc → bs.eval B sc.all s = none → ∀ fuel,
      afterNext B fuel (nextBinding cs (acc :: b) r s (bs.toks ++ .rp :: rest)) = none
  | .nil, acc, cs, b, r, sc, s, rest, hr, he, fuel => by
    rw [Binds.eval] at he
    cases he
  | .cons n e bs, acc, cs, b, r, sc, s, rest, hr, he, fuel => by
    rw [Binds.eval] at he
    have : afterNext B fuel (nextBinding cs (acc :: b) r s ((Binds.cons n e bs).toks ++ .rp :: rest)) =
        parseLoop B fuel ⟨.letBind n :: cs, acc :: b, r, s⟩
          (e.toks ++ .rp :: (bs.toks ++ .rp :: rest)) := by
      simp only [Binds.toks, List.cons_append, List.append_assoc, nextBinding, afterNext, Option.bind_some]
    rw [this]
    cases h1 : e.eval B sc.all s with
    | none => exact parse_expr_none B e _ _ r sc s _ hr h1 fuel
    | some x =>
      obtain ⟨s1, t⟩ := x
      rw [h1, Option.bind_some, Option.map_eq_none_iff] at he
      obtain ⟨k, r1, hk, hr1, g1⟩ := parse_expr B e (.letBind n :: cs) (acc :: b) r sc s s1 t
        (.rp :: (bs.toks ++ .rp :: rest)) hr h1
      apply parseLoop_none B fuel k
      rw [g1, cont_letBind]
      exact parse_binds_none B bs (acc ++ [(n, t)]) cs b r1 sc s1 rest hr1 he fuel

end

theorem cont_nil (B : Backend σ τ) (fuel : Nat) (b : List (List (String × τ))) (r : LetRecords τ) (s : σ)
    (t : τ) (ts : List Tok) : cont B fuel ⟨[], b, r, s⟩ (some t) false ts = some (t, ts, r, s) := rfl

end Yaga
