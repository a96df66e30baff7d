/-
The command loop reads the commands of a script.
-/
import Verif.Model.Commands
import Verif.Spec.Commands
import Verif.Spec.LexToken
import Verif.Proofs.NoApp

namespace Yaga

open Spec

variable {H : TermHash}

/-! ### Terms -/

/-- Reading a term and evaluating its syntax tree, in both directions. -/
theorem parse_of_eval {σ τ : Type} {B : Backend σ τ} {e : Expr} (rest : List Tok) {r : LetRecords τ}
    {sc : Scopes τ} (hr : Rep r sc) {s s' : σ} {t : τ} (h : e.eval B sc.all s = some (s', t)) :
    ∃ r', parseTerm B r s (e.toks ++ rest) = some (t, rest, r', s') ∧ Rep r' sc := by
  obtain ⟨k, r', hk, hr', h3⟩ := parse_expr B e [] [] r sc s s' t rest hr h
  have := h3 ((e.toks ++ rest).length - k)
  rw [Nat.sub_add_cancel (by rw [List.length_append]; omega), cont_nil] at this
  exact ⟨r', this, hr'⟩

theorem parse_of_none {σ τ : Type} {B : Backend σ τ} {e : Expr} (rest : List Tok) {r : LetRecords τ}
    {sc : Scopes τ} (hr : Rep r sc) {s : σ} (h : e.eval B sc.all s = none) :
    parseTerm B r s (e.toks ++ rest) = none := by
  unfold parseTerm
  exact parse_expr_none B e [] [] r sc s rest hr h _

/-- States that differ in the representation of the bindings only; no binding is in scope. -/
structure Same (a b : FE) : Prop where
  st : a.st = b.st
  assertions : a.assertions = b.assertions
  left : Rep a.recs ⟨[], []⟩
  right : Rep b.recs ⟨[], []⟩

theorem same_assert {a b : FE} (h : Same a b) (e : Expr) (r1 r2 : List Tok) :
    (a.assertCmd H (e.toks ++ r1) = none ∧ b.assertCmd H (e.toks ++ r2) = none) ∨
    ∃ a' b', a.assertCmd H (e.toks ++ r1) = some (a', r1) ∧ b.assertCmd H (e.toks ++ r2) = some (b', r2) ∧
      Same a' b' := by
  unfold FE.assertCmd
  cases he : e.eval (Names.backend H) (Scopes.mk [] [] : Scopes Tm).all a.st with
  | none =>
    left
    rw [parse_of_none r1 h.left he, parse_of_none r2 h.right (h.st ▸ he)]
    exact ⟨rfl, rfl⟩
  | some q =>
    right
    obtain ⟨s', t⟩ := q
    obtain ⟨ra, h1, h2⟩ := parse_of_eval r1 h.left he
    obtain ⟨rb, h3, h4⟩ := parse_of_eval r2 h.right (h.st ▸ he)
    rw [h1, h3]
    exact ⟨_, _, rfl, rfl, rfl, by rw [h.assertions], h2, h4⟩

theorem rep_push {r : LetRecords Tm} (h : Rep r ⟨[], []⟩) : Rep r.pushFrame ⟨[[]], []⟩ := by
  obtain ⟨r', hr1, hr2⟩ := h.step .push
  obtain rfl := Option.some.inj hr1
  exact hr2

theorem rep_pop {r : LetRecords Tm} (h : Rep r ⟨[[]], []⟩) : ∃ r', r.popFrame = some r' ∧ Rep r' ⟨[], []⟩ := by
  obtain ⟨r', hr1, hr2⟩ := h.step .pop
  exact ⟨r', hr1, hr2⟩

theorem same_define {a b : FE} (h : Same a b) (n : String) (ty : Ty) (e : Expr) (r1 r2 : List Tok) :
    (a.defineCmd H n [] ty (e.toks ++ r1) = none ∧ b.defineCmd H n [] ty (e.toks ++ r2) = none) ∨
    ∃ a' b', a.defineCmd H n [] ty (e.toks ++ r1) = some (a', r1) ∧
      b.defineCmd H n [] ty (e.toks ++ r2) = some (b', r2) ∧ Same a' b' := by
  unfold FE.defineCmd Names.defineFun Names.bindVars
  dsimp only
  cases he : e.eval (Names.backend H) (Scopes.mk [[]] [] : Scopes Tm).all a.st with
  | none =>
    left
    rw [parse_of_none r1 (rep_push h.left) he, parse_of_none r2 (rep_push h.right) (h.st ▸ he)]
    exact ⟨rfl, rfl⟩
  | some q =>
    obtain ⟨s', t⟩ := q
    obtain ⟨ra, h1, h2⟩ := parse_of_eval r1 (rep_push h.left) he
    obtain ⟨rb, h3, h4⟩ := parse_of_eval r2 (rep_push h.right) (h.st ▸ he)
    obtain ⟨ra', h5, h6⟩ := rep_pop h2
    obtain ⟨rb', h7, h8⟩ := rep_pop h4
    rw [h1, h3]
    simp only [Option.bind_some, h5, h7]
    cases hs : s'.storeDefined n t [] ty with
    | none => left; exact ⟨rfl, rfl⟩
    | some s'' =>
      right
      exact ⟨_, _, rfl, rfl, rfl, h.assertions, h6, h8⟩

/-! ### Tokens -/

namespace Shell

open Lexer

theorem termTok_token {x : Lexeme} {a : Tok} (h : x.tok = some a) : termTok x.token = some a := by
  cases x with
  | reserved s =>
    unfold Lexeme.tok at h
    by_cases hs : s = "let"
    · subst hs
      obtain rfl : Tok.letTok = a := Option.some.inj ((if_pos rfl).symm.trans h)
      decide +kernel
    · exact absurd ((if_neg hs).symm.trans h) (by simp)
  | quoted s =>
    rw [← h]
    show some (Tok.sym (String.ofList ((('|' :: s ++ ['|']).drop 1).dropLast))) = _
    simp [Lexeme.tok]
  | keyword | hex | binary | string => cases h
  | _ => exact h

theorem termToks_written {ys : List Lexeme} {ts : List Tok} (h : ys.map Lexeme.tok = ts.map some)
    (T : List Token) : termToks (ys.map Lexeme.token ++ T) = ts ++ termToks T := by
  induction ys generalizing ts with
  | nil =>
    cases ts with
    | nil => rfl
    | cons => cases h
  | cons y ys ih =>
    cases ts with
    | nil => cases h
    | cons t ts =>
      rw [List.map_cons, List.map_cons, List.cons.injEq] at h
      rw [List.map_cons, List.cons_append, termToks, termTok_token h.1, ih h.2]
      rfl

theorem after_written {ys : List Lexeme} {ts : List Tok} (h : ys.map Lexeme.tok = ts.map some)
    (T : List Token) : after (ys.map Lexeme.token ++ T) (termToks T) = T := by
  have hl : ys.length = ts.length := by simpa using congrArg List.length h
  unfold after
  rw [termToks_written h, List.length_append, Nat.add_sub_cancel, ← hl,
    show ys.length = (ys.map Lexeme.token).length from (List.length_map _).symm, List.drop_left]

theorem symbolOf_name {n : String} {x : Lexeme} (h : IsName n x) : symbolOf x.token = some n := by
  rcases h with rfl | rfl
  · show some (String.ofList n.toList) = _
    rw [String.ofList_toList]
  · show some (String.ofList ((('|' :: n.toList ++ ['|']).drop 1).dropLast)) = _
    simp

theorem sortOf_lexeme (r : Srt) : sortOf r.lexeme.token = some r.ty := by
  cases r <;> decide +kernel

theorem sortList_written (as : List Srt) (T : List Token) :
    sortList (as.map (fun r => r.lexeme.token) ++ Lexeme.rparen.token :: T) = some (as.map Srt.ty, T) := by
  induction as with
  | nil => rfl
  | cons a as ih =>
    rw [List.map_cons, List.cons_append, sortList, if_neg (by cases a <;> decide), sortOf_lexeme, Option.bind_some, ih]
    rfl

theorem kind_assert : (Lexeme.reserved "assert").token.1 = .assertTok := by decide +kernel
theorem kind_check : (Lexeme.reserved "check-sat").token.1 = .checkSatTok := by decide +kernel
theorem kind_const : (Lexeme.reserved "declare-const").token.1 = .declareConstTok := by decide +kernel
theorem kind_fun : (Lexeme.reserved "declare-fun").token.1 = .declareFunTok := by decide +kernel
theorem kind_define : (Lexeme.reserved "define-fun").token.1 = .defineFunTok := by decide +kernel
theorem kind_exit : (Lexeme.reserved "exit").token.1 = .exitTok := by decide +kernel
theorem kind_model : (Lexeme.reserved "get-model").token.1 = .getModelTok := by decide +kernel
theorem kind_info : (Lexeme.reserved "set-info").token.1 = .setInfoTok := by decide +kernel
theorem kind_option : (Lexeme.reserved "set-option").token.1 = .setOptionTok := by decide +kernel
theorem kind_logic : (Lexeme.reserved "set-logic").token.1 = .setLogicTok := by decide +kernel

variable {E : Oracle} {c : Cli} {T : List Token}

theorem close_rparen (lines : List String) : close c lines (Lexeme.rparen.token :: T) = .next c lines T := rfl

theorem command_assert (ys : List Lexeme) :
    command H E c ((Lexeme.reserved "assert" :: ys).map Lexeme.token ++ T) =
      assertCase H c (ys.map Lexeme.token ++ T) := by
  rw [List.map_cons, List.cons_append, command, kind_assert]; rfl

theorem command_check : command H E c ([Lexeme.reserved "check-sat"].map Lexeme.token ++ T) = checkCase E c T := by
  rw [List.map_cons, List.cons_append, command, kind_check]; rfl

theorem command_const {n : String} {x : Lexeme} (h : IsName n x) (r : Srt) :
    command H E c ([Lexeme.reserved "declare-const", x, r.lexeme].map Lexeme.token ++ T) =
      declareCase c n [] r.ty T := by
  rw [List.map_cons, List.cons_append, command, kind_const]
  show (match symbolOf x.token, sortOf r.lexeme.token with
    | some n, some s => declareCase c n [] s T
    | _, _ => .throw []) = _
  rw [symbolOf_name h, sortOf_lexeme]

theorem command_fun {n : String} {x : Lexeme} (h : IsName n x) (as : List Srt) (r : Srt) :
    command H E c ((Lexeme.reserved "declare-fun" :: x :: .lparen :: as.map Srt.lexeme ++ [.rparen, r.lexeme]).map
      Lexeme.token ++ T) = declareCase c n (as.map Srt.ty) r.ty T := by
  rw [List.cons_append, List.cons_append, List.cons_append, List.map_cons, List.cons_append, command, kind_fun]
  have hl : (as.map Srt.lexeme ++ [.rparen, r.lexeme]).map Lexeme.token ++ T =
      as.map (fun r => r.lexeme.token) ++ Lexeme.rparen.token :: r.lexeme.token :: T := by
    simp [Function.comp_def]
  show (match symbolOf x.token, sortList ((as.map Srt.lexeme ++ [.rparen, r.lexeme]).map Lexeme.token ++ T) with
    | some n, some (args, s :: ts) =>
      match sortOf s with
      | some s => declareCase c n args s ts
      | none => .throw []
    | _, _ => .throw []) = _
  rw [symbolOf_name h, hl, sortList_written]
  dsimp only
  rw [sortOf_lexeme]

theorem command_define {n : String} {x : Lexeme} (h : IsName n x) (r : Srt) (ys : List Lexeme) :
    command H E c ((Lexeme.reserved "define-fun" :: x :: .lparen :: .rparen :: r.lexeme :: ys).map
      Lexeme.token ++ T) = defineCase H c n [] r.ty (ys.map Lexeme.token ++ T) := by
  rw [List.map_cons, List.cons_append, command, kind_define]
  show (match symbolOf x.token, sortedVars (Lexeme.rparen.token :: r.lexeme.token :: (ys.map Lexeme.token ++ T)) with
    | some n, some (vars, s :: ts) =>
      match sortOf s with
      | some s => defineCase H c n vars s ts
      | none => .throw []
    | _, _ => .throw []) = _
  rw [symbolOf_name h, show sortedVars (Lexeme.rparen.token :: r.lexeme.token :: (ys.map Lexeme.token ++ T)) =
    some ([], r.lexeme.token :: (ys.map Lexeme.token ++ T)) from rfl]
  dsimp only
  rw [sortOf_lexeme]

theorem command_exit : command H E c ([Lexeme.reserved "exit"].map Lexeme.token ++ T) = .stop [] := by
  rw [List.map_cons, List.cons_append, command, kind_exit]; rfl

theorem command_model : command H E c ([Lexeme.reserved "get-model"].map Lexeme.token ++ T) = modelCase E c T := by
  rw [List.map_cons, List.cons_append, command, kind_model]; rfl

theorem command_info (k : List Char) (x : Lexeme) :
    command H E c ([Lexeme.reserved "set-info", .keyword k, x].map Lexeme.token ++ T) = close c [] T := by
  rw [List.map_cons, List.cons_append, command, kind_info]; rfl

theorem command_option (k : List Char) (x : Lexeme) :
    command H E c ([Lexeme.reserved "set-option", .keyword k, x].map Lexeme.token ++ T) = close c [] T := by
  rw [List.map_cons, List.cons_append, command, kind_option]; rfl

theorem command_logic {n : String} {x : Lexeme} (h : IsName n x) :
    command H E c ([Lexeme.reserved "set-logic", x].map Lexeme.token ++ T) = logicCase c n T := by
  rw [List.map_cons, List.cons_append, command, kind_logic]
  show (match symbolOf x.token with
    | some n => logicCase c n T
    | none => .throw []) = _
  rw [symbolOf_name h]

/-! ### Scripts -/

/-- What a declaration, a definition or an assertion does. -/
theorem command_item {i : Item} {ys : List Lexeme} (h : Cmd.Written (.item i) ys) {fe : FE}
    (hs : Same c.fe fe) (T : List Token) :
    (fe.item H true i = none ∧ ∃ ls, command H E c (ys.map Lexeme.token ++ Lexeme.rparen.token :: T) = .throw ls ∧
      (ls = [] ∨ ls = [errorLine])) ∨
    ((∃ n as r, i = .declare n as r ∧ as ≠ [] ∧ c.logic ≠ some true) ∧
      (command H E c (ys.map Lexeme.token ++ Lexeme.rparen.token :: T) = .throw [] ∨
        command H E c (ys.map Lexeme.token ++ Lexeme.rparen.token :: T) = .next c [errorLine] T)) ∨
    ∃ c' fe1, command H E c (ys.map Lexeme.token ++ Lexeme.rparen.token :: T) = .next { c with fe := c' } [] T ∧
      fe.item H true i = some fe1 ∧ Same c' fe1 ∧ ∀ n as r, i = .declare n as r → as = [] ∨ c.logic = some true := by
  have declare : ∀ (n : String) (as : List Srt) (r : Srt) (k : List Token),
      command H E c k = declareCase c n (as.map Srt.ty) r.ty (Lexeme.rparen.token :: T) →
      (fe.item H true (.declare n as r) = none ∧ ∃ ls, command H E c k = .throw ls ∧
        (ls = [] ∨ ls = [errorLine])) ∨
      ((∃ n' as' r', Item.declare n as r = .declare n' as' r' ∧ as' ≠ [] ∧ c.logic ≠ some true) ∧
        (command H E c k = .throw [] ∨ command H E c k = .next c [errorLine] T)) ∨
      ∃ c' fe1, command H E c k = .next { c with fe := c' } [] T ∧
        fe.item H true (.declare n as r) = some fe1 ∧ Same c' fe1 ∧
        ∀ n' as' r', Item.declare n as r = .declare n' as' r' → as' = [] ∨ c.logic = some true := by
    intro n as r k hk
    rw [hk]
    unfold declareCase
    have he : as.map Srt.ty ≠ [] ↔ as ≠ [] := by simp
    by_cases h1 : as ≠ [] ∧ c.logic ≠ some true
    · refine Or.inr (Or.inl ⟨⟨n, as, r, rfl, h1⟩, ?_⟩)
      cases hl : c.logic with
      | none =>
        left
        rw [if_pos ⟨he.mpr h1.1, rfl⟩]
      | some b =>
        cases b with
        | true => exact absurd hl h1.2
        | false =>
          right
          rw [if_neg (fun h => nomatch h.2), if_pos ⟨he.mpr h1.1, rfl⟩]
          rfl
    · have h2 : as = [] ∨ c.logic = some true := by
        by_cases h3 : as = []
        · exact Or.inl h3
        · by_cases h4 : c.logic = some true
          · exact Or.inr h4
          · exact absurd ⟨h3, h4⟩ h1
      rw [if_neg (fun h => h1 ⟨he.mp h.1, by rw [h.2]; simp⟩), if_neg (fun h => h1 ⟨he.mp h.1, by rw [h.2]; simp⟩)]
      unfold FE.item FE.declareCmd
      rw [hs.st]
      cases hd : fe.st.declare true n (as.map Srt.ty) r.ty with
      | none => exact Or.inl ⟨by dsimp only; rw [hd]; rfl, [], rfl, Or.inl rfl⟩
      | some s =>
        refine Or.inr (Or.inr ⟨{ c.fe with st := s }, { fe with st := s }, rfl, by dsimp only; rw [hd]; rfl, ⟨rfl, hs.assertions, hs.left, hs.right⟩, ?_⟩)
        intro n' as' r' hi
        cases hi
        exact h2
  cases h with
  | declareConst hn => exact declare _ [] _ _ (command_const hn _)
  | declareFun hn => exact declare _ _ _ _ (command_fun hn _ _)
  | @define n x r e ys hn he =>
    rw [command_define hn, defineCase, termToks_written he]
    rcases same_define (H := H) hs n r.ty e (termToks (Lexeme.rparen.token :: T)) [.rp] with ⟨h1, h2⟩ | ⟨a', b', h1, h2, h3⟩
    · rw [h1]
      refine Or.inl ⟨?_, [], rfl, Or.inl rfl⟩
      rw [FE.item, h2]; rfl
    · rw [h1]
      dsimp only
      rw [after_written he]
      refine Or.inr (Or.inr ⟨a', b', rfl, ?_, h3, nofun⟩)
      rw [FE.item, h2]; rfl
  | @assert e ys he =>
    rw [command_assert, assertCase, termToks_written he]
    rcases same_assert (H := H) hs e (termToks (Lexeme.rparen.token :: T)) [.rp] with ⟨h1, h2⟩ | ⟨a', b', h1, h2, h3⟩
    · rw [h1]
      refine Or.inl ⟨?_, [errorLine], rfl, Or.inr rfl⟩
      rw [FE.item, h2]; rfl
    · rw [h1]
      dsimp only
      rw [after_written he]
      refine Or.inr (Or.inr ⟨a', b', rfl, ?_, h3, nofun⟩)
      rw [FE.item, h2]; rfl

/-- The logic after some `set-logic` commands. -/
def lastLogic (l : Option Bool) (ns : List String) : Option Bool :=
  ns.foldl (fun _ n => some (decide (n = "QF_UFLRA"))) l

/-- The first line printed is an error or the answer of the solver about the terms made for the script. -/
theorem trace {cmds : List Cmd} {xs : List Lexeme} (h : Written cmds xs) (bad : Bool) (fuel : Nat) {c : Cli}
    {fe : FE} (hs : Same c.fe fe) (hk : c.checks = 0) (ha : c.answer = none) {l : String}
    (hl : (exec H E bad fuel c (xs.map Lexeme.token)).lines.head? = some l) :
    (l ≠ "sat" ∧ l ≠ "unsat") ∨
    ∃ fe' a uf, fe.items H true (problem cmds) = some fe' ∧ lastLogic c.logic (logics cmds) = some uf ∧
      E.solve 0 uf fe'.st.table fe'.assertions = some a ∧ l = answerLine a ∧
      (c.logic ≠ some true → "QF_UFLRA" ∉ logics cmds → ∀ n as r, Item.declare n as r ∈ problem cmds → as = []) := by
  induction h generalizing fuel c fe with
  | nil => cases fuel <;> cases hl
  | @cons cmd cs ys xs hy hx ih =>
    cases fuel with
    | zero => cases hl
    | succ fuel =>
      have ht : (Lexeme.lparen :: ys ++ Lexeme.rparen :: xs).map Lexeme.token = Lexeme.lparen.token ::
          (ys.map Lexeme.token ++ Lexeme.rparen.token :: xs.map Lexeme.token) := by
        simp
      rw [ht] at hl
      unfold exec at hl
      rw [if_pos (by rfl)] at hl
      have err : errorLine ≠ "sat" ∧ errorLine ≠ "unsat" := by decide
      cases cmd with
      | item i =>
        rcases command_item (E := E) hy hs (xs.map Lexeme.token) with ⟨_, ls, h1, h2⟩ | ⟨_, h1 | h1⟩ |
          ⟨c', fe1, h1, h2, h3, h4⟩
        · rw [h1] at hl
          rcases h2 with rfl | rfl
          · cases hl
          · cases hl; exact Or.inl err
        · rw [h1] at hl; cases hl
        · rw [h1] at hl; cases hl; exact Or.inl err
        · rw [h1] at hl
          rcases ih fuel (c := { c with fe := c' }) h3 hk ha hl with h5 | ⟨fe', a, uf, h5, h6, h7, h8, h9⟩
          · exact Or.inl h5
          · refine Or.inr ⟨fe', a, uf, ?_, h6, h7, h8, ?_⟩
            · rw [problem, FE.items, h2]; exact h5
            · intro hc hq n as r hm
              rcases List.mem_cons.mp hm with h10 | h10
              · exact (h4 n as r h10.symm).resolve_right hc
              · exact h9 hc hq n as r h10
      | setLogic n =>
        cases hy with
        | setLogic hn =>
          rw [command_logic hn, logicCase] at hl
          have key : ∀ b, b = decide (n = "QF_UFLRA") →
              (exec H E bad fuel { c with logic := some b } (xs.map Lexeme.token)).lines.head? = some l →
              (l ≠ "sat" ∧ l ≠ "unsat") ∨
              ∃ fe' a uf, fe.items H true (problem (.setLogic n :: cs)) = some fe' ∧
                lastLogic c.logic (logics (.setLogic n :: cs)) = some uf ∧
                E.solve 0 uf fe'.st.table fe'.assertions = some a ∧ l = answerLine a ∧
                (c.logic ≠ some true → "QF_UFLRA" ∉ logics (.setLogic n :: cs) →
                  ∀ n' as r, Item.declare n' as r ∈ problem (.setLogic n :: cs) → as = []) := by
            intro b hb hl
            rcases ih fuel (c := { c with logic := some b }) hs hk ha hl with
              h5 | ⟨fe', a, uf, h5, h6, h7, h8, h9⟩
            · exact Or.inl h5
            · refine Or.inr ⟨fe', a, uf, h5, ?_, h7, h8, ?_⟩
              · rw [← h6, hb]; rfl
              · intro _ hq
                refine h9 ?_ (fun hm => hq (List.mem_cons_of_mem _ hm))
                intro hc
                rw [hb] at hc
                exact hq (of_decide_eq_true (Option.some.inj hc) ▸ List.mem_cons_self)
          by_cases h1 : n = "QF_UFLRA"
          · rw [if_pos h1] at hl
            exact key true (by simp [h1]) hl
          · rw [if_neg h1] at hl
            by_cases h2 : n = "QF_LRA"
            · rw [if_pos h2] at hl
              exact key false (by simp [h1]) hl
            · rw [if_neg h2] at hl; cases hl
      | setInfo =>
        cases hy with
        | setInfo =>
          rw [command_info] at hl
          exact ih fuel hs hk ha hl
      | setOption =>
        cases hy with
        | setOption =>
          rw [command_option] at hl
          exact ih fuel hs hk ha hl
      | checkSat =>
        cases hy
        rw [command_check, checkCase, hk, hs.st, hs.assertions] at hl
        cases hg : c.logic with
        | none => rw [hg] at hl; cases hl
        | some uf =>
          rw [hg] at hl
          dsimp only at hl
          cases he : E.solve 0 uf fe.st.table fe.assertions with
          | none => rw [he] at hl; cases hl
          | some a =>
            rw [he] at hl
            cases hl
            exact Or.inr ⟨fe, a, uf, rfl, rfl, he, rfl, fun _ _ n as r hm => by cases hm⟩
      | getModel =>
        cases hy
        rw [command_model, modelCase, ha] at hl
        cases hl
        left
        decide
      | exit =>
        cases hy
        rw [command_exit] at hl
        cases hl

theorem exec_cons (bad : Bool) (fuel : Nat) (c : Cli) (ts : List Token) :
    exec H E bad (fuel + 1) c (Lexeme.lparen.token :: ts) =
      match command H E c ts with
      | .next c lines rest => ⟨lines ++ (exec H E bad fuel c rest).lines, (exec H E bad fuel c rest).ok⟩
      | .stop lines => ⟨lines, true⟩
      | .throw lines => ⟨lines, false⟩ := rfl

/-- The answer is printed. -/
theorem trace_lines {pre post : List Cmd} (hp : ∀ x ∈ pre, x.quiet = true) {xs : List Lexeme}
    (h : Written (pre ++ .checkSat :: post) xs) (bad : Bool) {fuel : Nat} (hf : pre.length < fuel) {c : Cli} {fe : FE}
    (hs : Same c.fe fe) (hk : c.checks = 0) {uf : Bool} (hu : c.logic = some uf) {fe' : FE}
    (hi : fe.items H true (problem pre) = some fe')
    (hd : uf = true ∨ ∀ n as r, Item.declare n as r ∈ problem pre → as = []) {a : SolverAnswer}
    (hE : E.solve 0 uf fe'.st.table fe'.assertions = some a) :
    ∃ (c' : Cli) (ys : List Lexeme) (fuel' : Nat), Written post ys ∧ fuel ≤ fuel' + pre.length + 1 ∧ Same c'.fe fe' ∧
      c'.checks = 1 ∧ c'.answer = some a ∧ c'.logic = some uf ∧
      (exec H E bad fuel c (xs.map Lexeme.token)).lines =
        answerLine a :: (exec H E bad fuel' c' (ys.map Lexeme.token)).lines := by
  induction pre generalizing xs fuel c fe with
  | nil =>
    cases h with
    | @cons _ _ ys xs hy hx =>
    cases hy
    obtain rfl := Option.some.inj hi
    cases fuel with
    | zero => simp at hf
    | succ fuel =>
      have ht : (Lexeme.lparen :: [Lexeme.reserved "check-sat"] ++ Lexeme.rparen :: xs).map Lexeme.token =
          Lexeme.lparen.token ::
          ([Lexeme.reserved "check-sat"].map Lexeme.token ++ Lexeme.rparen.token :: xs.map Lexeme.token) := by
        simp
      rw [ht, exec_cons, command_check, checkCase, hk, hs.st, hs.assertions, hu]
      dsimp only
      rw [hE]
      exact ⟨⟨c.fe, some uf, some a, 0 + 1⟩, xs, fuel, hx, by simp, hs, rfl, rfl, rfl, rfl⟩
  | cons cmd pre ih =>
    cases h with
    | @cons _ _ ys xs hy hx =>
    cases fuel with
    | zero => simp at hf
    | succ fuel =>
      have hf' : pre.length < fuel := by simpa using hf
      have ht : (Lexeme.lparen :: ys ++ Lexeme.rparen :: xs).map Lexeme.token = Lexeme.lparen.token ::
          (ys.map Lexeme.token ++ Lexeme.rparen.token :: xs.map Lexeme.token) := by
        simp
      rw [ht, exec_cons]
      have hp' : ∀ x ∈ pre, x.quiet = true := fun x hx => hp x (List.mem_cons_of_mem _ hx)
      cases cmd with
      | item i =>
        obtain ⟨fe1, hi1, hi2⟩ := bind_some hi
        rcases command_item (E := E) hy hs (xs.map Lexeme.token) with ⟨h1, _⟩ | ⟨⟨n, as, r, rfl, h1, h2⟩, _⟩ |
          ⟨c', fe2, h1, h2, h3, h4⟩
        · rw [h1] at hi1; cases hi1
        · rcases hd with rfl | hd
          · exact absurd hu h2
          · exact absurd (hd n as r List.mem_cons_self) h1
        · obtain rfl : fe2 = fe1 := Option.some.inj (h2.symm.trans hi1)
          rw [h1]
          obtain ⟨c1, zs, k, g1, g2, g⟩ := ih hp' hx hf' (c := { c with fe := c' }) h3 hk hu hi2
            (hd.imp id fun hd n as r hm => hd n as r (List.mem_cons_of_mem _ hm))
          exact ⟨c1, zs, k, g1, by simp only [List.length_cons]; omega, g⟩
      | setInfo =>
        cases hy with
        | setInfo =>
          rw [command_info]
          obtain ⟨c1, zs, k, g1, g2, g⟩ := ih hp' hx hf' hs hk hu hi hd
          exact ⟨c1, zs, k, g1, by simp only [List.length_cons]; omega, g⟩
      | setOption =>
        cases hy with
        | setOption =>
          rw [command_option]
          obtain ⟨c1, zs, k, g1, g2, g⟩ := ih hp' hx hf' hs hk hu hi hd
          exact ⟨c1, zs, k, g1, by simp only [List.length_cons]; omega, g⟩
      | setLogic | checkSat | getModel | exit => exact absurd (hp _ List.mem_cons_self) nofun

theorem trace_printed {pre post : List Cmd} (hp : ∀ x ∈ pre, x.quiet = true) {xs : List Lexeme}
    (h : Written (pre ++ .checkSat :: post) xs) (bad : Bool) {fuel : Nat} (hf : pre.length < fuel) {c : Cli} {fe : FE}
    (hs : Same c.fe fe) (hk : c.checks = 0) {uf : Bool} (hu : c.logic = some uf) {fe' : FE}
    (hi : fe.items H true (problem pre) = some fe')
    (hd : uf = true ∨ ∀ n as r, Item.declare n as r ∈ problem pre → as = []) {a : SolverAnswer}
    (hE : E.solve 0 uf fe'.st.table fe'.assertions = some a) :
    (exec H E bad fuel c (xs.map Lexeme.token)).lines.head? = some (answerLine a) := by
  obtain ⟨_, _, _, _, _, _, _, _, _, h⟩ := trace_lines hp h bad hf hs hk hu hi hd hE
  rw [h]
  rfl

/-- `get-model` after the answer `sat`. -/
theorem exec_model {post : List Cmd} {xs : List Lexeme} (h : Written (.getModel :: post) xs) (bad : Bool) {fuel : Nat}
    (hf : 0 < fuel) {c : Cli} {fe : FE} (hs : Same c.fe fe) (hk : c.checks = 1) (ha : c.answer = some .sat) {uf : Bool}
    (hu : c.logic = some uf) {text : List Char} (hE : E.model 1 uf fe.st fe.assertions = some text) :
    (exec H E bad fuel c (xs.map Lexeme.token)).lines.head? = some (String.ofList text) := by
  cases h with
  | @cons _ _ ys xs hy hx =>
  cases hy
  cases fuel with
  | zero => simp at hf
  | succ fuel =>
    have ht : (Lexeme.lparen :: [Lexeme.reserved "get-model"] ++ Lexeme.rparen :: xs).map Lexeme.token =
        Lexeme.lparen.token ::
        ([Lexeme.reserved "get-model"].map Lexeme.token ++ Lexeme.rparen.token :: xs.map Lexeme.token) := by
      simp
    rw [ht, exec_cons, command_model, modelCase, ha, hk, hs.st, hs.assertions, hu]
    dsimp only [Option.getD]
    rw [hE]
    rfl

end Shell
end Yaga
