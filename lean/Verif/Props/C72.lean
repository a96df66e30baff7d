/-
C72: the answer printed for a script is the truth about the script.
-/
import Verif.Props.C70
import Verif.Proofs.FirstCheck
import Verif.Proofs.UfLraOrderRun
import Verif.Proofs.UfLraExample
import Verif.Proofs.QfOrderRun

namespace Yaga

open Spec Shell

variable {H : TermHash} {E : Oracle} {S : Type} [LinearOrder S] [ScoreOps S]

theorem same_init : Same (Cli.init H).fe (FE.init H) :=
  ⟨rfl, rfl, (srel_init H).recs, (srel_init H).recs⟩

/-- C72: the first line printed for a script, if it is `sat` or `unsat`, is the answer of the solver for the terms
made for the declarations, definitions and assertions before the first `check-sat`, in the logic set last. If that
logic has no functions, no function with arguments has been declared. -/
theorem C72_answer_partial {text : List Char} {xs : List Lexeme} (hx : Layout xs text)
    (hd : .symbol "define-const".toList ∉ xs) {cmds : List Cmd} (hw : Written cmds xs) {l : String}
    (hl : (Shell.run H E text).lines.head? = some l) (hs : l = "sat" ∨ l = "unsat") :
    ∃ (c : FE) (uf : Bool), (FE.init H).items H true (problem cmds) = some c ∧
      (logics cmds).getLast?.map (fun n => decide (n = "QF_UFLRA")) = some uf ∧
      ("QF_UFLRA" ∉ logics cmds → ∀ n as r, Item.declare n as r ∈ problem cmds → as = []) ∧
      ((l = "sat" ∧ E.solve 0 uf c.st.table c.assertions = some .sat) ∨
        (l = "unsat" ∧ E.solve 0 uf c.st.table c.assertions = some .unsat)) := by
  unfold Shell.run at hl
  rw [C70_reads_partial hx hd] at hl
  rcases trace hw _ _ same_init rfl rfl hl with ⟨h1, h2⟩ | ⟨c, a, uf, h1, h2, h3, h4, h5⟩
  · rcases hs with rfl | rfl
    · exact absurd rfl h1
    · exact absurd rfl h2
  · refine ⟨c, uf, h1, ?_, h5 nofun, ?_⟩
    · rw [← h2]
      have key : ∀ (ns : List String) (o : Option Bool), lastLogic o ns =
          ((ns.getLast?.map fun n => decide (n = "QF_UFLRA")).or o) := by
        intro ns
        induction ns with
        | nil => intro o; rfl
        | cons n ns ih =>
          intro o
          rw [show lastLogic o (n :: ns) = lastLogic (some (decide (n = "QF_UFLRA"))) ns from rfl, ih]
          cases ns with
          | nil => rfl
          | cons m ns =>
            rw [List.getLast?_cons_cons]
            cases hg : (m :: ns).getLast? with
            | none => simp at hg
            | some x => rfl
      rw [key, show (Cli.init H).logic = none from rfl, Option.or_none]
    · rcases hs with rfl | rfl
      · left
        refine ⟨rfl, ?_⟩
        cases a with
        | sat => exact h3
        | unsat | unknown | error => exact absurd h4 (by decide)
      · right
        refine ⟨rfl, ?_⟩
        cases a with
        | unsat => exact h3
        | sat | unknown | error => exact absurd h4 (by decide)

/-- C72, QF_LRA: let the logic of a script be QF_LRA. If the first line printed for it is `sat`, the assertions
before the first `check-sat` have a model; if it is `unsat`, they have none. -/
theorem C72_lra_partial {text : List Char} {xs : List Lexeme} (hx : Layout xs text)
    (hd : .symbol "define-const".toList ∉ xs) {cmds : List Cmd} (hw : Written cmds xs)
    (hq : logics cmds = ["QF_LRA"]) (hf : wellFormed [] (problem cmds)) {cfg : ICfg} {op : LaOpts}
    (hE : ∀ s as a, E.solve 0 false s as = some a → LraCheck S cfg op s as a) :
    ((Shell.run H E text).lines.head? = some "sat" → Satisfiable (problem cmds)) ∧
    ((Shell.run H E text).lines.head? = some "unsat" → ¬ Satisfiable (problem cmds)) := by
  constructor
  · intro hl
    obtain ⟨c, uf, h1, h2, h3, h4⟩ := C72_answer_partial hx hd hw hl (Or.inl rfl)
    rw [hq] at h2 h3
    obtain rfl : false = uf := Option.some.inj h2
    rcases h4 with ⟨_, h4⟩ | ⟨h4, _⟩
    · exact (lra_right hf h1 (h3 (by decide)) (hE _ _ _ h4)).1 rfl
    · exact absurd h4 (by decide)
  · intro hl
    obtain ⟨c, uf, h1, h2, h3, h4⟩ := C72_answer_partial hx hd hw hl (Or.inr rfl)
    rw [hq] at h2 h3
    obtain rfl : false = uf := Option.some.inj h2
    rcases h4 with ⟨h4, _⟩ | ⟨_, h4⟩
    · exact absurd h4 (by decide)
    · exact (lra_right hf h1 (h3 (by decide)) (hE _ _ _ h4)).2 rfl

/-- C72, QF_UFLRA: the same, if the terms made for the script are supported (C44), the functions have real
arguments and results, and every argument has at most one variable (C67). -/
theorem C72_uflra_partial {text : List Char} {xs : List Lexeme} (hx : Layout xs text)
    (hd : .symbol "define-const".toList ∉ xs) {cmds : List Cmd} (hw : Written cmds xs)
    (hq : logics cmds = ["QF_UFLRA"]) (hf : wellFormed [] (problem cmds)) {cfg : ICfg} {op : LaOpts}
    (hE : ∀ s as a, E.solve 0 true s as = some a → UflCheck S cfg op s as a)
    (hT : ∀ c, (FE.init H).items H true (problem cmds) = some c →
      Supported cfg c.st.table ∧ RealFns c.st.table ∧ OneVar c.st.table) :
    ((Shell.run H E text).lines.head? = some "sat" → Satisfiable (problem cmds)) ∧
    ((Shell.run H E text).lines.head? = some "unsat" → ¬ Satisfiable (problem cmds)) := by
  constructor
  · intro hl
    obtain ⟨c, uf, h1, h2, _, h4⟩ := C72_answer_partial hx hd hw hl (Or.inl rfl)
    rw [hq] at h2
    obtain rfl : true = uf := Option.some.inj h2
    obtain ⟨hS, hF, hO⟩ := hT c h1
    rcases h4 with ⟨_, h4⟩ | ⟨h4, _⟩
    · exact (ufl_right hf h1 hS hF hO (hE _ _ _ h4)).1 rfl
    · exact absurd h4 (by decide)
  · intro hl
    obtain ⟨c, uf, h1, h2, _, h4⟩ := C72_answer_partial hx hd hw hl (Or.inr rfl)
    rw [hq] at h2
    obtain rfl : true = uf := Option.some.inj h2
    obtain ⟨hS, hF, hO⟩ := hT c h1
    rcases h4 with ⟨h4, _⟩ | ⟨_, h4⟩
    · exact absurd h4 (by decide)
    · exact (ufl_right hf h1 hS hF hO (hE _ _ _ h4)).2 rfl

theorem problem_pre {pre post : List Cmd} (hp : ∀ x ∈ pre, x.quiet = true) :
    problem (pre ++ .checkSat :: post) = problem pre := by
  induction pre with
  | nil => rfl
  | cons x pre ih =>
    have ih := ih fun y hy => hp y (List.mem_cons_of_mem _ hy)
    cases x with
    | item i => exact congrArg (i :: ·) ih
    | setInfo | setOption => exact ih
    | setLogic | checkSat | getModel | exit => exact absurd (hp _ List.mem_cons_self) nofun

theorem written_length {cmds : List Cmd} {xs : List Lexeme} (h : Written cmds xs) : cmds.length ≤ xs.length := by
  induction h with
  | nil => exact Nat.le_refl _
  | cons _ _ ih => simp only [List.length_cons, List.length_append]; omega

/-- The lines after the first answer are those of the rest of the script. -/
theorem printed_lines {text : List Char} {xs : List Lexeme} (hx : Layout xs text)
    (hd : .symbol "define-const".toList ∉ xs) {L : String} (hL : L = "QF_LRA" ∨ L = "QF_UFLRA")
    {pre post : List Cmd} (hp : ∀ x ∈ pre, x.quiet = true)
    (hw : Written (.setLogic L :: pre ++ .checkSat :: post) xs) {c : FE}
    (hc : (FE.init H).items H true (problem pre) = some c)
    (hn : L = "QF_LRA" → ∀ n as r, Item.declare n as r ∈ problem pre → as = []) {a : SolverAnswer}
    (hE : E.solve 0 (decide (L = "QF_UFLRA")) c.st.table c.assertions = some a) :
    ∃ (c' : Cli) (ys : List Lexeme) (fuel : Nat) (bad : Bool), Written post ys ∧ 0 < fuel ∧ Same c'.fe c ∧
      c'.checks = 1 ∧ c'.answer = some a ∧ c'.logic = some (decide (L = "QF_UFLRA")) ∧
      (Shell.run H E text).lines = answerLine a :: (exec H E bad fuel c' (ys.map Lexeme.token)).lines := by
  have hlen := written_length hw
  unfold Shell.run
  rw [C70_reads_partial hx hd]
  cases hw with
  | @cons _ _ ys xs hy hx' =>
  cases hy with
  | @setLogic _ x hN =>
  have hb : ∃ b : Bool, b = decide (L = "QF_UFLRA") ∧ ∀ c T, logicCase c L (Lexeme.rparen.token :: T) =
      .next { c with logic := some b } [] T := by
    rcases hL with rfl | rfl
    · exact ⟨false, by decide, fun c T => rfl⟩
    · exact ⟨true, by decide, fun c T => rfl⟩
  obtain ⟨b, hb1, hb2⟩ := hb
  have ht : (Lexeme.lparen :: [Lexeme.reserved "set-logic", x] ++ Lexeme.rparen :: xs).map Lexeme.token =
      Lexeme.lparen.token :: ([Lexeme.reserved "set-logic", x].map Lexeme.token ++
        Lexeme.rparen.token :: xs.map Lexeme.token) := by
    simp
  dsimp only
  rw [ht, exec_cons, command_logic hN, hb2]
  dsimp only [List.nil_append]
  rw [← hb1] at hE ⊢
  have hfu : pre.length < (Lexeme.lparen.token :: ([Lexeme.reserved "set-logic", x].map Lexeme.token ++
      Lexeme.rparen.token :: xs.map Lexeme.token)).length := by
    simp at hlen ⊢; omega
  have hun : b = true ∨ ∀ n as r, Item.declare n as r ∈ problem pre → as = [] := by
    rcases hL with rfl | rfl
    · exact Or.inr (hn rfl)
    · exact Or.inl (by rw [hb1]; decide)
  obtain ⟨c', ys, fuel, g1, g2, g3, g4, g5, g6, g7⟩ := trace_lines hp hx' false hfu
    (c := { Cli.init H with logic := some b }) same_init rfl rfl hc hun hE
  refine ⟨c', ys, fuel, _, g1, ?_, g3, g4, g5, g6, g7⟩
  simp at hlen g2; omega

/-- C72: the answer is printed. Let a script begin with `set-logic`, followed by declarations, definitions,
assertions, information and options, followed by `check-sat`. If the terms of the assertions can be made, and the
functions belong to the logic, the first line printed is the answer of the solver. -/
theorem C72_printed_partial {text : List Char} {xs : List Lexeme} (hx : Layout xs text)
    (hd : .symbol "define-const".toList ∉ xs) {L : String} (hL : L = "QF_LRA" ∨ L = "QF_UFLRA")
    {pre post : List Cmd} (hp : ∀ x ∈ pre, x.quiet = true)
    (hw : Written (.setLogic L :: pre ++ .checkSat :: post) xs) {c : FE}
    (hc : (FE.init H).items H true (problem pre) = some c)
    (hn : L = "QF_LRA" → ∀ n as r, Item.declare n as r ∈ problem pre → as = []) {a : SolverAnswer}
    (hE : E.solve 0 (decide (L = "QF_UFLRA")) c.st.table c.assertions = some a) :
    (Shell.run H E text).lines.head? = some (answerLine a) := by
  obtain ⟨_, _, _, _, _, _, _, _, _, _, h⟩ := printed_lines hx hd hL hp hw hc hn hE
  rw [h]
  rfl

/-! ### Examples -/

namespace C72Example

open C71Example

deriving instance DecidableEq for Lexeme

/-- A solver that gives every answer of `LraCheck` and `UflCheck`. -/
noncomputable def solver (cfg : ICfg) (op : LaOpts) : Oracle where
  solve k uf s as := by
    classical exact
      if k = 0 then
        if uf then
          if UflCheck Int cfg op s as .sat then some .sat else if UflCheck Int cfg op s as .unsat then some .unsat else none
        else
          if LraCheck Int cfg op s as .sat then some .sat else if LraCheck Int cfg op s as .unsat then some .unsat else none
      else none
  model _ _ _ _ := none

theorem solver_lra (cfg : ICfg) (op : LaOpts) (s : TermTable) (as : List Tm) (a : SolverAnswer)
    (h : (solver cfg op).solve 0 false s as = some a) : LraCheck Int cfg op s as a := by
  simp only [solver, if_true, Bool.false_eq_true, if_false] at h
  split at h
  · cases h; assumption
  · split at h
    · cases h; assumption
    · cases h

theorem solver_ufl (cfg : ICfg) (op : LaOpts) (s : TermTable) (as : List Tm) (a : SolverAnswer)
    (h : (solver cfg op).solve 0 true s as = some a) : UflCheck Int cfg op s as a := by
  simp only [solver, if_true] at h
  split at h
  · cases h; assumption
  · split at h
    · cases h; assumption
    · cases h

/-- The text with a blank before each token. -/
def spaced (xs : List Lexeme) : List Char := xs.flatMap fun x => ' ' :: x.text

theorem layout_spaced : ∀ {xs : List Lexeme}, (∀ x ∈ xs, x.Valid) → Layout xs (spaced xs)
  | [], _ => .nil .nil
  | x :: xs, h => by
    have h2 := Layout.cons (g := [' ']) (.blank rfl .nil) (h x List.mem_cons_self) (t := spaced xs) ?_
      (layout_spaced fun y hy => h y (List.mem_cons_of_mem _ hy))
    · simpa [spaced] using h2
    · cases xs with
      | nil => exact Or.inr (Or.inl rfl)
      | cons y ys => exact Or.inr (Or.inr ⟨' ', _, rfl, rfl⟩)

def sy (s : String) : Lexeme := .symbol s.toList

/-- `(set-logic QF_LRA) (declare-const x Real) (declare-fun |y| () Real)
(assert (let ((z y)) (< x z)))`. -/
def lexemes : List Lexeme :=
  [.lparen, .reserved "set-logic", sy "QF_LRA", .rparen,
    .lparen, .reserved "declare-const", sy "x", sy "Real", .rparen,
    .lparen, .reserved "declare-fun", .quoted "y".toList, .lparen, .rparen, sy "Real", .rparen,
    .lparen, .reserved "assert", .lparen, .reserved "let", .lparen, .lparen, sy "z", sy "y", .rparen, .rparen,
      .lparen, sy "<", sy "x", sy "z", .rparen, .rparen, .rparen]

/-- `(assert (< y x))`. -/
def lexemes2 : List Lexeme :=
  [.lparen, .reserved "assert", .lparen, sy "<", sy "y", sy "x", .rparen, .rparen]

/-- `(check-sat)`. -/
def lexemes3 : List Lexeme := [.lparen, .reserved "check-sat", .rparen]

def pre : List Cmd :=
  [.item (.declare "x" [] .real), .item (.declare "y" [] .real),
    .item (.assert (.letE (.cons "z" (.sym "y") .nil) (ap2 "<" (.sym "x") (.sym "z"))))]

def last : Cmd := .item (.assert (ap2 "<" (.sym "y") (.sym "x")))

/-- Concatenated scripts. -/
theorem written_append {as bs : List Cmd} {xs ys : List Lexeme} (h1 : Written as xs) (h2 : Written bs ys) :
    Written (as ++ bs) (xs ++ ys) := by
  induction h1 with
  | nil => exact h2
  | cons h _ ih =>
    have := Written.cons h ih
    simpa using this

theorem written1 : Written (.setLogic "QF_LRA" :: pre) lexemes := by
  refine .cons (ys := [_, _]) (.setLogic (Or.inl rfl)) ?_
  refine .cons (ys := [_, _, _]) (.declareConst (r := .real) (Or.inl rfl)) ?_
  refine .cons (ys := [_, _, _, _, _]) (.declareFun (as := []) (r := .real) (Or.inr rfl)) ?_
  exact .cons (ys := _ :: [.lparen, .reserved "let", .lparen, .lparen, sy "z", sy "y", .rparen, .rparen,
      .lparen, sy "<", sy "x", sy "z", .rparen, .rparen]) (.assert (by unfold IsTerm; decide +kernel)) .nil

theorem written2 : Written [last] lexemes2 :=
  .cons (ys := _ :: [.lparen, sy "<", sy "y", sy "x", .rparen]) (.assert (by unfold IsTerm; decide +kernel)) .nil

theorem written3 : Written [.checkSat] lexemes3 := .cons (ys := [_]) .checkSat .nil

/-- Decides `Lexeme.Valid` for the lexemes of the examples. -/
def valid : Lexeme → Bool
  | .lparen | .rparen => true
  | .reserved s => reservedWords.contains s
  | .symbol s => s.all isSymbolChar && (s.head?.any isSymbolStart) && !reservedWords.contains (String.ofList s) &&
      !otherReserved.contains (String.ofList s)
  | .quoted s => s.all fun c => c ≠ '|' && c ≠ '\\'
  | .numeral ds => !ds.isEmpty && ds.all (·.isDigit)
  | _ => false

theorem valid_sound {x : Lexeme} (h : valid x = true) : x.Valid := by
  cases x with
  | lparen | rparen => trivial
  | reserved s => exact List.contains_iff_mem.mp h
  | symbol s =>
    unfold valid at h
    simp only [Bool.and_eq_true, List.all_eq_true, Bool.not_eq_true', List.contains_eq_mem, decide_eq_false_iff_not] at h
    obtain ⟨⟨⟨h1, h2⟩, h3⟩, h4⟩ := h
    refine ⟨⟨h1, ?_⟩, h3, h4⟩
    cases s with
    | nil => cases h2
    | cons c cs => exact ⟨c, cs, rfl, h2⟩
  | quoted s =>
    unfold valid at h
    simpa [Lexeme.Valid] using h
  | numeral ds =>
    unfold valid at h
    simpa [Lexeme.Valid] using h
  | _ => cases h

theorem all_valid {xs : List Lexeme} (h : xs.all valid = true) : ∀ x ∈ xs, x.Valid :=
  fun x hx => valid_sound (List.all_eq_true.mp h x hx)

def cfg : ICfg := ⟨fun n => n, fun _ => 0, false⟩

/-- Without `--prop-rational`. -/
def opts : LaOpts := ⟨false, true, false⟩

/-- What the conversion creates for the script, and for the script without the second assertion. -/
def acts : List Qf.BAct :=
  [.vars .rational 1, .vars .rational 2, .cons [(0, 1), (1, -1)] .lt 0, .cons [(0, 1), (1, -1)] .leq 0]

/-- The terms of the script. -/
def terms (is : List Item) : FE := ((FE.init h0).items h0 true is).getD (FE.init h0)

/-- The answer of the solver. -/
def answer (c : FE) (acts : List Qf.BAct) : Option SolverAnswer :=
  match Internalizer.check cfg c.st.table IState.init c.assertions with
  | some (some st) =>
    match Qf.startRun cfg.hv cfg.hc acts st.clauses with
    | some (c0, _) =>
      if c0.q.la.store.vars = st.store.vars ∧ c0.q.la.store.coefs = st.store.coefs ∧
          c0.q.la.store.cons = st.store.cons ∧ c0.q.la.store.set = st.store.set then
        match Qf.gvCheckRun cfg.hv cfg.hc opts 100 (List.replicate 20 false) (Qf.gvStart (S := Int) st.clauses c0) with
        | some .unsat => some .unsat
        | some (.sat _) => some .sat
        | _ => none
      else none
    | none => none
  | _ => none

theorem answer_sound {c : FE} {acts : List Qf.BAct} {a : SolverAnswer} (h : answer c acts = some a) :
    LraCheck Int cfg opts c.st.table c.assertions a := by
  unfold answer at h
  split at h
  · rename_i st hc
    split at h
    · rename_i c0 P hs
      obtain ⟨k1, k2⟩ := Qf.gvStart_sound (S := Int) _ _ hs
      split at h
      · rename_i he
        have hst : c0.q.la.store = st.store := by
          generalize c0.q.la.store = x at he ⊢
          generalize st.store = y at he ⊢
          obtain ⟨x1, x2, x3, x4⟩ := x
          obtain ⟨y1, y2, y3, y4⟩ := y
          obtain ⟨rfl, rfl, rfl, rfl⟩ := he
          rfl
        split at h
        · rename_i hr
          cases h
          exact .unsat hc k1 hst k2 (Qf.gvCheckRun_sound _ _ _ hr _ .refl)
        · rename_i q hr
          cases h
          exact .sat hc k1 hst k2 (Qf.gvCheckRun_sound _ _ _ hr _ .refl)
        · cases h
      · cases h
    · cases h
  · cases h

theorem answer_unsat : answer (terms (problem (pre ++ [last]))) acts = some .unsat := by decide +kernel

theorem answer_sat : answer (terms (problem pre)) (acts.take 3) = some .sat := by decide +kernel

theorem accepted {is : List Item} (h : ((FE.init h0).items h0 true is).isSome = true) :
    (FE.init h0).items h0 true is = some (terms is) := by
  unfold terms
  cases hc : (FE.init h0).items h0 true is with
  | none => rw [hc] at h; cases h
  | some c => rfl

theorem wf2 : wellFormed [] (problem (pre ++ [last])) := by
  simp only [pre, last, List.cons_append, List.nil_append, problem, wellFormed, Item.Ok, Item.sig, Sig.fresh]
  decide +kernel

theorem wf1 : wellFormed [] (problem pre) := by
  simp only [pre, problem, wellFormed, Item.Ok, Item.sig, Sig.fresh]
  decide +kernel

end C72Example

open C72Example in
/-- The hypotheses of `C72_lra_partial`, `C72_answer_partial` and `C72_printed_partial` hold for this script; the
line `unsat` is printed for it. -/
example : Layout (lexemes ++ lexemes2 ++ lexemes3) (spaced (lexemes ++ lexemes2 ++ lexemes3)) ∧
    Written (.setLogic "QF_LRA" :: (pre ++ [last]) ++ [.checkSat]) (lexemes ++ lexemes2 ++ lexemes3) ∧
    wellFormed [] (problem (.setLogic "QF_LRA" :: (pre ++ [last]) ++ [.checkSat])) ∧
    (Shell.run C71Example.h0 (solver cfg opts) (spaced (lexemes ++ lexemes2 ++ lexemes3))).lines.head? = some "unsat" ∧
    ¬ Satisfiable (problem (.setLogic "QF_LRA" :: (pre ++ [last]) ++ [.checkSat])) := by
  have hx : Layout (lexemes ++ lexemes2 ++ lexemes3) (spaced (lexemes ++ lexemes2 ++ lexemes3)) :=
    layout_spaced (all_valid (by decide +kernel))
  have hd : Lexeme.symbol "define-const".toList ∉ lexemes ++ lexemes2 ++ lexemes3 := by decide +kernel
  have hw := written_append (written_append written1 written2) written3
  have hc := accepted (is := problem (pre ++ [last])) (by decide +kernel)
  have hE := answer_sound answer_unsat
  have hl : (Shell.run C71Example.h0 (solver cfg opts) (spaced (lexemes ++ lexemes2 ++ lexemes3))).lines.head? =
      some (answerLine .unsat) := by
    refine C72_printed_partial hx hd (Or.inl rfl) (pre := pre ++ [last]) (post := []) (by decide) hw hc ?_ ?_
    · intro _ n as r hm
      simp [pre, last, problem] at hm
      rcases hm with hm | hm <;> exact hm.2.1
    · have hns : ¬ LraCheck Int cfg opts (terms (problem (pre ++ [last]))).st.table
          (terms (problem (pre ++ [last]))).assertions .sat := by
        intro h
        have hn : ∀ n as r, Item.declare n as r ∈ problem (pre ++ [last]) → as = [] := by
          intro n as r hm
          simp [pre, last, problem] at hm
          rcases hm with hm | hm <;> exact hm.2.1
        exact (lra_right wf2 hc hn hE).2 rfl ((lra_right wf2 hc hn h).1 rfl)
      show (solver cfg opts).solve 0 false _ _ = some .unsat
      simp only [solver, if_true, Bool.false_eq_true, if_false]
      rw [if_neg hns, if_pos hE]
  exact ⟨hx, hw, wf2, hl, (C72_lra_partial hx hd hw rfl wf2 (solver_lra cfg opts)).2 hl⟩

open C72Example in
/-- Without the second assertion `sat` is printed. -/
example : (Shell.run C71Example.h0 (solver cfg opts) (spaced (lexemes ++ lexemes3))).lines.head? = some "sat" ∧
    Satisfiable (problem (.setLogic "QF_LRA" :: pre ++ [.checkSat])) := by
  have hx : Layout (lexemes ++ lexemes3) (spaced (lexemes ++ lexemes3)) :=
    layout_spaced (all_valid (by decide +kernel))
  have hd : Lexeme.symbol "define-const".toList ∉ lexemes ++ lexemes3 := by decide +kernel
  have hw := written_append written1 written3
  have hc := accepted (is := problem pre) (by decide +kernel)
  have hE := answer_sound answer_sat
  have hl : (Shell.run C71Example.h0 (solver cfg opts) (spaced (lexemes ++ lexemes3))).lines.head? =
      some (answerLine .sat) := by
    refine C72_printed_partial hx hd (Or.inl rfl) (pre := pre) (post := []) (by decide) hw hc ?_ ?_
    · intro _ n as r hm
      simp [pre, problem] at hm
      rcases hm with hm | hm <;> exact hm.2.1
    · show (solver cfg opts).solve 0 false _ _ = some .sat
      simp only [solver, if_true, Bool.false_eq_true, if_false]
      rw [if_pos hE]
  exact ⟨hl, (C72_lra_partial hx hd hw rfl wf1 (solver_lra cfg opts)).1 hl⟩

namespace C72Example

open C71Example

/-- `(set-logic QF_UFLRA) (declare-const x Real) (declare-const y Real) (declare-fun f (Real) Real)
(assert (< (f x) (f y))) (assert (= x y)) (check-sat)`. -/
def lexemesF : List Lexeme :=
  [.lparen, .reserved "set-logic", sy "QF_UFLRA", .rparen,
    .lparen, .reserved "declare-const", sy "x", sy "Real", .rparen,
    .lparen, .reserved "declare-const", sy "y", sy "Real", .rparen,
    .lparen, .reserved "declare-fun", sy "f", .lparen, sy "Real", .rparen, sy "Real", .rparen,
    .lparen, .reserved "assert", .lparen, sy "<", .lparen, sy "f", sy "x", .rparen,
      .lparen, sy "f", sy "y", .rparen, .rparen, .rparen,
    .lparen, .reserved "assert", .lparen, sy "=", sy "x", sy "y", .rparen, .rparen,
    .lparen, .reserved "check-sat", .rparen]

def preF : List Cmd :=
  [.item (.declare "x" [] .real), .item (.declare "y" [] .real), .item (.declare "f" [.real] .real),
    .item (.assert (ap2 "<" (ap1 "f" (.sym "x")) (ap1 "f" (.sym "y")))),
    .item (.assert (ap2 "=" (.sym "x") (.sym "y")))]

theorem writtenF : Written (.setLogic "QF_UFLRA" :: preF ++ [.checkSat]) lexemesF := by
  refine .cons (ys := [_, _]) (.setLogic (Or.inl rfl)) ?_
  refine .cons (ys := [_, _, _]) (.declareConst (r := .real) (Or.inl rfl)) ?_
  refine .cons (ys := [_, _, _]) (.declareConst (r := .real) (Or.inl rfl)) ?_
  refine .cons (ys := [_, _, _, _, _, _]) (.declareFun (as := [.real]) (r := .real) (Or.inl rfl)) ?_
  refine .cons (ys := _ :: [.lparen, sy "<", .lparen, sy "f", sy "x", .rparen,
      .lparen, sy "f", sy "y", .rparen, .rparen]) (.assert (by unfold IsTerm; decide +kernel)) ?_
  refine .cons (ys := _ :: [.lparen, sy "=", sy "x", sy "y", .rparen]) (.assert (by unfold IsTerm; decide +kernel)) ?_
  exact .cons (ys := [_]) .checkSat .nil

theorem wfF : wellFormed [] (problem preF) := by
  simp only [preF, problem, wellFormed, Item.Ok, Item.sig, Sig.fresh]
  decide +kernel

/-- What the conversion creates: the variables of `x`, `(f x)`, `y`, `(f y)` and two constraints. -/
def actsF : List Qf.BAct :=
  [.vars .rational 4, .cons [(1, 1), (3, -1)] .lt 0, .cons [(0, 1), (2, -1)] .eq 0]

/-- The answer of the solver. -/
def answerF (c : FE) (acts : List Qf.BAct) : Option SolverAnswer :=
  match Internalizer.check cfg c.st.table IState.init c.assertions with
  | some (some st) =>
    match Ufl.startRun ⟨cfg, c.st.table, st, opts⟩ acts with
    | some (c0, _) =>
      match Ufl.gvCheckRun ⟨cfg, c.st.table, st, opts⟩ 100 (List.replicate 20 false)
          (Ufl.gvStart (S := Int) ⟨cfg, c.st.table, st, opts⟩ c0) with
      | some .unsat => some .unsat
      | some (.sat _) => some .sat
      | _ => none
    | none => none
  | _ => none

theorem answerF_sound {c : FE} {acts : List Qf.BAct} {a : SolverAnswer} (h : answerF c acts = some a) :
    UflCheck Int cfg opts c.st.table c.assertions a := by
  unfold answerF at h
  split at h
  · rename_i st hc
    split at h
    · rename_i c0 P hs
      obtain ⟨k1, k2⟩ := Ufl.gvStart_sound (S := Int) _ hs
      split at h
      · rename_i hr
        cases h
        exact .unsat hc k1 k2 (Ufl.gvCheckRun_sound _ _ _ hr _ .refl)
      · rename_i q hr
        cases h
        exact .sat hc k1 k2 (Ufl.gvCheckRun_sound _ _ _ hr _ .refl)
      · cases h
    · cases h
  · cases h

theorem answerF_unsat : answerF (terms (problem preF)) actsF = some .unsat := by decide +kernel

theorem supportedF {s : TermTable}
    (h1 : ∀ i, i < s.terms.length → ∀ a ∈ s.args (Tm.positive i), s.kind a = .app → a.isNeg = false)
    (h2 : ∀ i, i < s.terms.length → Tm.ff ∉ s.args (Tm.positive i)) : Supported cfg s := by
  refine ⟨fun t a ha => ?_, fun t => ?_, nofun⟩ <;> by_cases hi : s.terms.length ≤ t.index
  · rw [UfExample.args_beyond _ hi] at ha; cases ha
  · exact h1 t.index (by omega) a (by rwa [UfExample.args_mod] at ha)
  · rw [UfExample.args_beyond _ hi]; simp
  · rw [UfExample.args_mod]; exact h2 t.index (by omega)

theorem termsF_supported : Supported cfg (terms (problem preF)).st.table ∧ RealFns (terms (problem preF)).st.table ∧
    OneVar (terms (problem preF)).st.table :=
  ⟨supportedF (by decide +kernel) (by decide +kernel), UflExample.realFns_check (by decide +kernel),
    UflExample.oneVar_check (by decide +kernel)⟩

end C72Example

open C72Example in
/-- The hypotheses of `C72_uflra_partial` hold for a script with a function, for which `unsat` is printed. -/
example : (Shell.run C71Example.h0 (solver cfg opts) (spaced lexemesF)).lines.head? = some "unsat" ∧
    ¬ Satisfiable (problem (.setLogic "QF_UFLRA" :: preF ++ [.checkSat])) := by
  have hx : Layout lexemesF (spaced lexemesF) := layout_spaced (all_valid (by decide +kernel))
  have hd : Lexeme.symbol "define-const".toList ∉ lexemesF := by decide +kernel
  have hc := accepted (is := problem preF) (by decide +kernel)
  have hE := answerF_sound answerF_unsat
  obtain ⟨hS, hF, hO⟩ := termsF_supported
  have hl : (Shell.run C71Example.h0 (solver cfg opts) (spaced lexemesF)).lines.head? = some (answerLine .unsat) := by
    refine C72_printed_partial hx hd (Or.inr rfl) (pre := preF) (post := []) (by decide) writtenF hc
      (fun h => absurd h (by decide)) ?_
    have hns : ¬ UflCheck Int cfg opts (terms (problem preF)).st.table (terms (problem preF)).assertions .sat :=
      fun h => (ufl_right wfF hc hS hF hO hE).2 rfl ((ufl_right wfF hc hS hF hO h).1 rfl)
    show (solver cfg opts).solve 0 true _ _ = some .unsat
    simp only [solver, if_true]
    rw [if_neg hns, if_pos hE]
  refine ⟨hl, (C72_uflra_partial hx hd writtenF rfl wfF (solver_ufl cfg opts) ?_).2 hl⟩
  intro c h
  obtain rfl : terms (problem preF) = c := Option.some.inj (hc.symm.trans h)
  exact termsF_supported

#print axioms C72_answer_partial
#print axioms C72_lra_partial
#print axioms C72_uflra_partial
#print axioms C72_printed_partial

end Yaga
