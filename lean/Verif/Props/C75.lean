/-
C75: the model printed for a script is a model of the script.
-/
import Verif.Proofs.ScriptModel
import Verif.Props.C69
import Verif.Props.C74

namespace Yaga

open Spec Internalizer TermTable PrintModel Shell

variable {H : TermHash} {E : Oracle} {S : Type} [LinearOrder S] [ScoreOps S]

/-- C75, QF_LRA: let no function be declared in a well-formed script, and let its symbols be written without bars.
Whatever is printed for `get-model` after the first `check-sat` has answered `sat` is a list of definitions of
SMT-LIB. There is a structure for the symbols of the script that agrees with the definitions, and the assertions of
the script are true in every such structure. -/
theorem C75_lra_response {is : List Item} (hw : wellFormed [] is) (hn : ∀ n as r, Item.declare n as r ∈ is → as = [])
    (hp : plainNames is) {c : FE} (hc : (FE.init H).items H true is = some c) {cfg : ICfg} {op : LaOpts} {pr : ℚ → LF}
    (hpr : Represents pr) {o : Option (List Char)} (h : LraResponse S cfg op pr c.st c.assertions o) :
    ∃ text defs, o = some text ∧ readModel text = some defs ∧ ModelsOf is defs := by
  obtain ⟨st, P, c0, q, vs, h1, h2, h3, h4, h5, h6, h7, rfl⟩ := h
  have hs : SRel H is c := (srel_init H).items hw hc
  have hK := known_script hw hc
  obtain ⟨hr, happ, hA, hb⟩ := plain_table hw hn hc
  have hS := hA.supported hr.wf (cfg := cfg) (Or.inr happ)
  obtain ⟨hI, hP, hY⟩ := UF.check_facts hr.wf hS hb (UF.RealFns.roots hA.realFns hb) h1
  have hW := fun c hr => Qf.gv_picks (op := op) (c := c) h2 h5 hr
  obtain ⟨d1, d2⟩ := Qf.sat_defined h2 hW h6
  rw [h3, hI.num] at d1
  rw [h4] at d2
  have hN := named_script hw hc hp hs hK hI hY fun p hp => (hP.apps p hp).1
  obtain ⟨text, defs, k1, k2, k3, k4, k5⟩ := shown_consts (nm := c.st.termName) hpr hr.wf happ hI hY hN d1 d2 h7
  exact ⟨text, defs, k1, k2, modelsOf hs hK hA.realFns k5 ⟨_, k4 (distinct_names hK)⟩
    fun I hm => C61_sat hr hb h1 op _ P c0 h2 h3 hW q h6 I (k3 I hm)⟩

/-- C75, QF_UFLRA: the same for scripts with functions in the fragment of C74. -/
theorem C75_uflra_response {is : List Item} (hw : wellFormed [] is) (hl : linear [] is = true)
    (hpl : plainArgs [] is = true) (hrf : realFunctions is) (hp : plainNames is) {c : FE}
    (hc : (FE.init H).items H true is = some c) {cfg : ICfg} (hd : cfg.dbg = false) {op : LaOpts} {pr : ℚ → LF}
    (hpr : Represents pr) {o : Option (List Char)} (h : UflResponse S cfg op pr c.st c.assertions o) :
    ∃ text defs, o = some text ∧ readModel text = some defs ∧ ModelsOf is defs := by
  obtain ⟨st, P, c0, x, vs, fs, h1, h2, h3, h4, h5, h6, h7, rfl⟩ := h
  have hs : SRel H is c := (srel_init H).items hw hc
  have hK := known_script hw hc
  obtain ⟨hr, hA, hb⟩ := fragment_table hw hl hpl hrf hc
  have hS := hA.supported hr.wf (cfg := cfg) (Or.inl hd)
  have hF := hA.realFns
  obtain ⟨hI, hP, hY⟩ := UF.check_facts hr.wf hS hb (UF.RealFns.roots hF hb) h1
  have hN := named_script hw hc hp hs hK hI hY fun p hp => (UF.registered hr.wf hF hP hY p hp).1.kind
  have hO := Ufl.ok_of_check (E := ⟨cfg, c.st.table, st, op⟩) hr hS hF hA.oneVar hb h1
  have hW := fun c hr => Ufl.gv_picks (c := c) hO.1 hO.2 h2 h3 hr
  obtain ⟨g1, g2, g3, g4, g5⟩ := Ufl.sat_state (E := ⟨cfg, c.st.table, st, op⟩) hr hS hF hA.oneVar hb h1 h2 hW h4
  obtain ⟨text, defs, k1, k2, k3, k4, k5⟩ := shown (nm := c.st.termName) (u := Ufl.view st x.q.la x.f) hpr hr.wf hF hI
    hP hY (known_arity hs hK) hN g1 g2 (Ufl.one_sat h2 h4) g4 g5 h5 h6 h7
  exact ⟨text, defs, k1, k2, modelsOf hs hK hF k5 ⟨_, k4 (distinct_names hK)⟩
    fun I hm => UF.sat_reads hr.wf hS hF hb h1 g1 g2 g3 (k3 I hm)⟩

/-- The second line printed for a script whose first line is `sat`. -/
theorem second_line {text : List Char} {xs : List Lexeme} (hx : Layout xs text)
    (hd : .symbol "define-const".toList ∉ xs) {L : String} (hL : L = "QF_LRA" ∨ L = "QF_UFLRA") {pre post : List Cmd}
    (hq : ∀ x ∈ pre, x.quiet = true) (hw : Written (.setLogic L :: pre ++ .checkSat :: .getModel :: post) xs)
    (hs : (Shell.run H E text).lines.head? = some "sat") :
    ∃ c, (FE.init H).items H true (problem pre) = some c ∧
      (L = "QF_LRA" → ∀ n as r, Item.declare n as r ∈ problem pre → as = []) ∧
      E.solve 0 (decide (L = "QF_UFLRA")) c.st.table c.assertions = some .sat ∧
      ∀ m, E.model 1 (decide (L = "QF_UFLRA")) c.st c.assertions = some m →
        (Shell.run H E text).lines[1]? = some (String.ofList m) := by
  have hpr : problem (.setLogic L :: pre ++ .checkSat :: .getModel :: post) = problem pre :=
    problem_pre (pre := pre) hq
  have hlo : logics (.setLogic L :: pre ++ .checkSat :: .getModel :: post) = [L] := by
    have key : ∀ pre : List Cmd, (∀ x ∈ pre, x.quiet = true) → logics (pre ++ .checkSat :: .getModel :: post) = [] := by
      intro pre
      induction pre with
      | nil => intro _; rfl
      | cons x pre ih =>
        intro hq
        have ih := ih fun y hy => hq y (List.mem_cons_of_mem _ hy)
        cases x with
        | item | setInfo | setOption => exact ih
        | setLogic | checkSat | getModel | exit => exact absurd (hq _ List.mem_cons_self) nofun
    exact congrArg (L :: ·) (key pre hq)
  obtain ⟨c, uf, h1, h2, h3, h4⟩ := C72_answer_partial hx hd hw hs (Or.inl rfl)
  rw [hpr] at h1 h3
  rw [hlo] at h2 h3
  obtain rfl : decide (L = "QF_UFLRA") = uf := Option.some.inj h2
  have hn : L = "QF_LRA" → ∀ n as r, Item.declare n as r ∈ problem pre → as = [] := by
    rintro rfl
    exact h3 (by decide)
  have h5 : E.solve 0 (decide (L = "QF_UFLRA")) c.st.table c.assertions = some .sat := by
    rcases h4 with ⟨_, h4⟩ | ⟨h4, _⟩
    · exact h4
    · exact absurd h4 (by decide)
  refine ⟨c, h1, hn, h5, fun m hm => ?_⟩
  obtain ⟨c', ys, fuel, bad, g1, g2, g3, g4, g5, g6, g7⟩ := printed_lines hx hd hL hq hw h1 hn h5
  rw [g7, List.getElem?_cons_succ, ← List.head?_eq_getElem?]
  exact exec_model g1 bad g2 g3 g4 g5 g6 hm

/-- C75, QF_LRA: a script that begins with `set-logic`, followed by its declarations, definitions and assertions,
followed by `check-sat` and `get-model`. If the first line printed is `sat`, it is followed by a text that can be
read as a list of definitions, which describe models of the script. The oracle of the shell stands for the solver:
after the answer `sat` it prints what the solver can print. -/
theorem C75_lra {text : List Char} {xs : List Lexeme} (hx : Layout xs text)
    (hd : .symbol "define-const".toList ∉ xs) {pre post : List Cmd} (hq : ∀ x ∈ pre, x.quiet = true)
    (hw : Written (.setLogic "QF_LRA" :: pre ++ .checkSat :: .getModel :: post) xs) (hf : wellFormed [] (problem pre))
    (hp : plainNames (problem pre)) {cfg : ICfg} {op : LaOpts} {pr : ℚ → LF} (hpr : Represents pr)
    (hM : ∀ s as, E.solve 0 false s.table as = some .sat → LraResponse S cfg op pr s as (E.model 1 false s as))
    (hs : (Shell.run H E text).lines.head? = some "sat") :
    ∃ m defs, (Shell.run H E text).lines[1]? = some (String.ofList m) ∧ readModel m = some defs ∧
      ModelsOf (problem pre) defs := by
  obtain ⟨c, h1, h2, h3, h4⟩ := second_line hx hd (Or.inl rfl) hq hw hs
  obtain ⟨m, defs, k1, k2, k3⟩ := C75_lra_response hf (h2 rfl) hp h1 hpr (hM c.st c.assertions h3)
  exact ⟨m, defs, h4 m k1, k2, k3⟩

/-- C75, QF_UFLRA: the same in the fragment of C74. -/
theorem C75_uflra {text : List Char} {xs : List Lexeme} (hx : Layout xs text)
    (hd : .symbol "define-const".toList ∉ xs) {pre post : List Cmd} (hq : ∀ x ∈ pre, x.quiet = true)
    (hw : Written (.setLogic "QF_UFLRA" :: pre ++ .checkSat :: .getModel :: post) xs)
    (hf : wellFormed [] (problem pre)) (hl : linear [] (problem pre) = true)
    (hpl : plainArgs [] (problem pre) = true) (hrf : realFunctions (problem pre)) (hp : plainNames (problem pre))
    {cfg : ICfg} (hdb : cfg.dbg = false) {op : LaOpts} {pr : ℚ → LF} (hpr : Represents pr)
    (hM : ∀ s as, E.solve 0 true s.table as = some .sat → UflResponse S cfg op pr s as (E.model 1 true s as))
    (hs : (Shell.run H E text).lines.head? = some "sat") :
    ∃ m defs, (Shell.run H E text).lines[1]? = some (String.ofList m) ∧ readModel m = some defs ∧
      ModelsOf (problem pre) defs := by
  obtain ⟨c, h1, _, h3, h4⟩ := second_line hx hd (Or.inr rfl) hq hw hs
  obtain ⟨m, defs, k1, k2, k3⟩ := C75_uflra_response hf hl hpl hrf hp h1 hdb hpr (hM c.st c.assertions h3)
  exact ⟨m, defs, h4 m k1, k2, k3⟩

/-! ### Examples -/

namespace C75Example

open C71Example C72Example

/-- A solver that answers `sat` and prints a response of `LraResponse` or `UflResponse` if there is one. -/
noncomputable def printing (cfg : ICfg) (op : LaOpts) : Oracle where
  solve k uf s as := by
    classical exact
      if k = 0 then
        if uf then
          if ∃ ns : Names, ns.table = s ∧ ∃ o, UflResponse Int cfg op LF.ofString ns as o then some .sat else none
        else
          if ∃ ns : Names, ns.table = s ∧ ∃ o, LraResponse Int cfg op LF.ofString ns as o then some .sat else none
      else none
  model k uf s as := by
    classical exact
      if k = 1 then
        if uf then if h : ∃ o, UflResponse Int cfg op LF.ofString s as o then h.choose else none
        else if h : ∃ o, LraResponse Int cfg op LF.ofString s as o then h.choose else none
      else none

theorem printing_lra (cfg : ICfg) (op : LaOpts) (s : Names) (as : List Tm)
    (h : (printing cfg op).solve 0 false s.table as = some .sat) :
    LraResponse Int cfg op LF.ofString s as ((printing cfg op).model 1 false s as) := by
  have h1 : ∃ o, LraResponse Int cfg op LF.ofString s as o := by
    simp only [printing, if_true, Bool.false_eq_true, if_false] at h
    split at h
    · rename_i h1
      obtain ⟨ns, h2, o, h3⟩ := h1
      unfold LraResponse at h3 ⊢
      rw [h2] at h3
      obtain ⟨st, P, c0, q, vs, g1, g2, g3, g4, g5, g6, g7, _⟩ := h3
      exact ⟨_, st, P, c0, q, vs, g1, g2, g3, g4, g5, g6, g7, rfl⟩
    · cases h
  simp only [printing, if_true, Bool.false_eq_true, if_false, h1, dif_pos]
  exact h1.choose_spec

theorem printing_ufl (cfg : ICfg) (op : LaOpts) (s : Names) (as : List Tm)
    (h : (printing cfg op).solve 0 true s.table as = some .sat) :
    UflResponse Int cfg op LF.ofString s as ((printing cfg op).model 1 true s as) := by
  have h1 : ∃ o, UflResponse Int cfg op LF.ofString s as o := by
    simp only [printing, if_true] at h
    split at h
    · rename_i h1
      obtain ⟨ns, h2, o, h3⟩ := h1
      unfold UflResponse at h3 ⊢
      rw [h2] at h3
      obtain ⟨st, P, c0, x, vs, fs, g1, g2, g3, g4, g5, g6, g7, _⟩ := h3
      exact ⟨_, st, P, c0, x, vs, fs, g1, g2, g3, g4, g5, g6, g7, rfl⟩
    · cases h
  simp only [printing, if_true, h1, dif_pos]
  exact h1.choose_spec

/-- The response of the solver. -/
def responded (c : FE) (acts : List Qf.BAct) : Option (Option (List Char)) :=
  match check cfg c.st.table IState.init c.assertions with
  | some (some st) =>
    match Qf.startRun cfg.hv cfg.hc acts st.clauses with
    | some (c0, _) =>
      if (c0.q.la.store.vars = st.store.vars ∧ c0.q.la.store.coefs = st.store.coefs ∧
          c0.q.la.store.cons = st.store.cons ∧ c0.q.la.store.set = st.store.set) ∧
          c0.q.la.trail.rats.num = st.numRat then
        match Qf.gvCheckRun cfg.hv cfg.hc opts 100 (List.replicate 20 false) (Qf.gvStart (S := Int) st.clauses c0) with
        | some (.sat q) => some (getModel LF.ofString c.st.termName c.st.table q.s.t (varMap c.st.table st) [])
        | _ => none
      else none
    | none => none
  | _ => none

theorem responded_sound {c : FE} {acts : List Qf.BAct} {o : Option (List Char)} (h : responded c acts = some o) :
    LraResponse Int cfg opts LF.ofString c.st c.assertions o := by
  unfold responded at h
  split at h
  · rename_i st hc
    split at h
    · rename_i c0 P hs
      obtain ⟨k1, k2⟩ := Qf.gvStart_sound (S := Int) _ _ hs
      split at h
      · rename_i he
        obtain ⟨he, hn⟩ := he
        have hst : c0.q.la.store = st.store := by
          generalize c0.q.la.store = x at he ⊢
          generalize st.store = y at he ⊢
          obtain ⟨x1, x2, x3, x4⟩ := x
          obtain ⟨y1, y2, y3, y4⟩ := y
          obtain ⟨rfl, rfl, rfl, rfl⟩ := he
          rfl
        split at h
        · rename_i q hr
          cases h
          exact ⟨st, P, _, q, _, hc, k1, hst, hn, k2, Qf.gvCheckRun_sound _ _ _ hr _ .refl, List.Perm.refl _, rfl⟩
        · cases h
      · cases h
    · cases h
  · cases h

/-- The same with functions; `fs` are the function symbols. -/
def respondedF (c : FE) (acts : List Qf.BAct) (fs : List Tm) : Option (Option (List Char)) :=
  match check cfg c.st.table IState.init c.assertions with
  | some (some st) =>
    match Ufl.startRun ⟨cfg, c.st.table, st, opts⟩ acts with
    | some (c0, _) =>
      match Ufl.gvCheckRun ⟨cfg, c.st.table, st, opts⟩ 100 (List.replicate 20 false)
          (Ufl.gvStart (S := Int) ⟨cfg, c.st.table, st, opts⟩ c0) with
      | some (.sat x) =>
        if (∀ e ∈ x.f.fns, e.fn ∈ fs) ∧ ∀ f ∈ fs, ∃ p ∈ st.apps, c.st.table.fncSymbol p.2 = f then
          some (getModel LF.ofString c.st.termName c.st.table x.q.la.trail (varMap c.st.table st) (tables x.f.fns fs))
        else none
      | _ => none
    | none => none
  | _ => none

theorem respondedF_sound {c : FE} {acts : List Qf.BAct} {fs : List Tm} {o : Option (List Char)}
    (h : respondedF c acts fs = some o) : UflResponse Int cfg opts LF.ofString c.st c.assertions o := by
  unfold respondedF at h
  split at h
  · rename_i st hc
    split at h
    · rename_i c0 P hs
      obtain ⟨k1, k2⟩ := Ufl.gvStart_sound (S := Int) _ hs
      split at h
      · rename_i x hr
        split at h
        · rename_i hf
          cases h
          exact ⟨st, P, _, x, _, fs, hc, k1, k2, Ufl.gvCheckRun_sound _ _ _ hr _ .refl, List.Perm.refl _, hf.1, hf.2, rfl⟩
        · cases h
      · cases h
    · cases h
  · cases h

/-- `(get-model)`. -/
def lexemes4 : List Lexeme := [.lparen, .reserved "get-model", .rparen]

theorem written4 : Written [.getModel] lexemes4 := .cons (ys := [_]) .getModel .nil

theorem plain1 : plainNames (problem pre) := by
  intro n as r hm
  simp [pre, problem] at hm
  rcases hm with hm | hm <;> rw [hm.1] <;> exact valid_sound (by decide +kernel)

theorem prints {uf : Bool} {c : FE} (h : (if uf then ∃ o, UflResponse Int cfg opts LF.ofString c.st c.assertions o
    else ∃ o, LraResponse Int cfg opts LF.ofString c.st c.assertions o)) :
    (printing cfg opts).solve 0 uf c.st.table c.assertions = some .sat := by
  cases uf
  · simp only [printing, if_true, Bool.false_eq_true, if_false]
    exact if_pos ⟨c.st, rfl, h⟩
  · simp only [printing, if_true]
    exact if_pos ⟨c.st, rfl, h⟩

/-- `(set-logic QF_UFLRA) (declare-const x Real) (declare-const y Real) (declare-fun f (Real) Real)
(assert (< (f x) (f y))) (check-sat) (get-model)`. -/
def lexemesG : List Lexeme :=
  [.lparen, .reserved "set-logic", sy "QF_UFLRA", .rparen,
    .lparen, .reserved "declare-const", sy "x", sy "Real", .rparen,
    .lparen, .reserved "declare-const", sy "y", sy "Real", .rparen,
    .lparen, .reserved "declare-fun", sy "f", .lparen, sy "Real", .rparen, sy "Real", .rparen,
    .lparen, .reserved "assert", .lparen, sy "<", .lparen, sy "f", sy "x", .rparen,
      .lparen, sy "f", sy "y", .rparen, .rparen, .rparen,
    .lparen, .reserved "check-sat", .rparen, .lparen, .reserved "get-model", .rparen]

def preG : List Cmd :=
  [.item (.declare "x" [] .real), .item (.declare "y" [] .real), .item (.declare "f" [.real] .real),
    .item (.assert (ap2 "<" (ap1 "f" (.sym "x")) (ap1 "f" (.sym "y"))))]

theorem writtenG : Written (.setLogic "QF_UFLRA" :: preG ++ [.checkSat, .getModel]) lexemesG := by
  refine .cons (ys := [_, _]) (.setLogic (Or.inl rfl)) ?_
  refine .cons (ys := [_, _, _]) (.declareConst (r := .real) (Or.inl rfl)) ?_
  refine .cons (ys := [_, _, _]) (.declareConst (r := .real) (Or.inl rfl)) ?_
  refine .cons (ys := [_, _, _, _, _, _]) (.declareFun (as := [.real]) (r := .real) (Or.inl rfl)) ?_
  refine .cons (ys := _ :: [.lparen, sy "<", .lparen, sy "f", sy "x", .rparen,
      .lparen, sy "f", sy "y", .rparen, .rparen]) (.assert (by unfold IsTerm; decide +kernel)) ?_
  refine .cons (ys := [_]) .checkSat ?_
  exact .cons (ys := [_]) .getModel .nil

theorem wfG : wellFormed [] (problem preG) := by
  simp only [preG, problem, wellFormed, Item.Ok, Item.sig, Sig.fresh]
  decide +kernel

theorem declaredG {n : String} {as : List Srt} {r : Srt} (hm : Item.declare n as r ∈ problem preG) :
    n = "x" ∧ as = [] ∨ n = "y" ∧ as = [] ∨ n = "f" ∧ as = [.real] ∧ r = .real := by
  simp [preG, problem] at hm
  tauto

theorem plainG : plainNames (problem preG) := by
  intro n as r hm
  rcases declaredG hm with h | h | h <;> rw [h.1] <;> exact valid_sound (by decide +kernel)

theorem realG : realFunctions (problem preG) := by
  intro n as r hm hne
  rcases declaredG hm with ⟨_, h⟩ | ⟨_, h⟩ | ⟨_, rfl, rfl⟩
  · exact absurd h hne
  · exact absurd h hne
  · exact ⟨rfl, by simp⟩

def actsG : List Qf.BAct := [.vars .rational 4, .cons [(1, 1), (3, -1)] .lt 0]

end C75Example

open C75Example C72Example in
/-- What is printed for the script of C72 without the second assertion. -/
example : (responded (terms (problem pre)) (acts.take 3)).map (·.map String.ofList) = some (some
    "((define-fun x () Real 0)\n(define-fun y () Real 1)\n)\n") := by
  decide +kernel

open C75Example C72Example in
/-- What is printed for the script with a function. -/
example : (respondedF (terms (problem preG)) actsG [⟨10⟩]).map (·.map String.ofList) = some (some
    ("((define-fun x () Real 0)\n(define-fun y () Real 1)\n(define-fun f ((x0 Real)) Real\n" ++
      "  (ite (= x0 1) 1\n       0 ))\n)\n")) := by
  decide +kernel

open C75Example C72Example in
/-- The hypotheses of `C75_lra` and `C75_lra_response` hold for a script. -/
example : (Shell.run C71Example.h0 (printing cfg opts) (spaced (lexemes ++ lexemes3 ++ lexemes4))).lines.head? =
      some "sat" ∧
    ∃ m defs, (Shell.run C71Example.h0 (printing cfg opts) (spaced (lexemes ++ lexemes3 ++ lexemes4))).lines[1]? =
      some (String.ofList m) ∧ readModel m = some defs ∧ ModelsOf (problem pre) defs := by
  have hx : Layout (lexemes ++ lexemes3 ++ lexemes4) (spaced (lexemes ++ lexemes3 ++ lexemes4)) :=
    layout_spaced (all_valid (by decide +kernel))
  have hd : Lexeme.symbol "define-const".toList ∉ lexemes ++ lexemes3 ++ lexemes4 := by decide +kernel
  have hw := written_append (written_append written1 written3) written4
  have hc := accepted (is := problem pre) (by decide +kernel)
  have hr : (responded (terms (problem pre)) (acts.take 3)).isSome = true := by decide +kernel
  obtain ⟨o, ho⟩ := Option.isSome_iff_exists.mp hr
  have hl : (Shell.run C71Example.h0 (printing cfg opts) (spaced (lexemes ++ lexemes3 ++ lexemes4))).lines.head? =
      some (answerLine .sat) := by
    refine C72_printed_partial hx hd (Or.inl rfl) (pre := pre) (post := [.getModel]) (by decide) (by simpa using hw) hc
      ?_ (prints (uf := false) ⟨o, responded_sound ho⟩)
    intro _ n as r hm
    simp [pre, problem] at hm
    rcases hm with hm | hm <;> exact hm.2.1
  exact ⟨hl, C75_lra hx hd (pre := pre) (post := []) (by decide) (by simpa using hw) wf1 plain1
    LF.ofString_canonical (printing_lra cfg opts) hl⟩

open C75Example C72Example in
/-- The hypotheses of `C75_uflra` and `C75_uflra_response` hold for a script with a function. -/
example : (Shell.run C71Example.h0 (printing cfg opts) (spaced lexemesG)).lines.head? = some "sat" ∧
    ∃ m defs, (Shell.run C71Example.h0 (printing cfg opts) (spaced lexemesG)).lines[1]? = some (String.ofList m) ∧
      readModel m = some defs ∧ ModelsOf (problem preG) defs := by
  have hx : Layout lexemesG (spaced lexemesG) := layout_spaced (all_valid (by decide +kernel))
  have hd : Lexeme.symbol "define-const".toList ∉ lexemesG := by decide +kernel
  have hc := accepted (is := problem preG) (by decide +kernel)
  have hr : (respondedF (terms (problem preG)) actsG [⟨10⟩]).isSome = true := by decide +kernel
  obtain ⟨o, ho⟩ := Option.isSome_iff_exists.mp hr
  have hl : (Shell.run C71Example.h0 (printing cfg opts) (spaced lexemesG)).lines.head? = some (answerLine .sat) :=
    C72_printed_partial hx hd (Or.inr rfl) (pre := preG) (post := [.getModel]) (by decide) writtenG hc
      (fun h => absurd h (by decide)) (prints (uf := true) ⟨o, respondedF_sound ho⟩)
  exact ⟨hl, C75_uflra hx hd (pre := preG) (post := []) (by decide) writtenG wfG (by decide +kernel) (by decide +kernel)
    realG plainG rfl LF.ofString_canonical (printing_ufl cfg opts) hl⟩

#print axioms C75_lra_response
#print axioms C75_uflra_response
#print axioms C75_lra
#print axioms C75_uflra

end Yaga
