/-
C80: the program `smt`: the words of its command line, its first lines and its exit code.
-/
import Verif.Spec.SmtMain
import Verif.Props.C75

namespace Yaga

open Spec SmtMain PrintModel

variable {H : TermHash} {E : Opts → Oracle} {S : Type} [LinearOrder S] [ScoreOps S]
  {files : String → Option (List Char)}

/-! ### The command line -/

theorem getLast_cons_getD {α : Type} (a d : α) (l : List α) : (a :: l).getLast?.getD d = l.getLast?.getD a := by
  cases l with
  | nil => rfl
  | cons b l => rw [List.getLast?_cons_cons]; simp [List.getLast?_cons]

theorem scan_path {o : Opts} {q p : String} {rest : List String} (h : p.toList.head? ≠ some '-') :
    scan o q (p :: rest) = scan o p rest := by
  have h1 : p ≠ "--prop-rational" := fun e => h (by subst e; rfl)
  have h2 : p ≠ "--deduce-bounds" := fun e => h (by subst e; rfl)
  have h3 : p ≠ "--print-stats" := fun e => h (by subst e; rfl)
  have h4 : p ≠ "--phase" := fun e => h (by subst e; rfl)
  conv_lhs => unfold scan
  rw [if_neg h1, if_neg h2, if_neg h3, if_neg h4, if_neg h]

theorem scan_rational (o : Opts) (q : String) (rest : List String) :
    scan o q ("--prop-rational" :: rest) = scan { o with propRational := true } q rest := by
  conv_lhs => unfold scan
  rw [if_pos rfl]

theorem scan_bounds (o : Opts) (q : String) (rest : List String) :
    scan o q ("--deduce-bounds" :: rest) = scan { o with deduceBounds := true } q rest := by
  conv_lhs => unfold scan
  rw [if_neg (by decide), if_pos rfl]

theorem scan_stats (o : Opts) (q : String) (rest : List String) :
    scan o q ("--print-stats" :: rest) = scan { o with printStats := true } q rest := by
  conv_lhs => unfold scan
  rw [if_neg (by decide), if_neg (by decide), if_pos rfl]

theorem scan_phase (o : Opts) (q v : String) (rest : List String) :
    scan o q ("--phase" :: v :: rest) = scan { o with phase := (SmtMain.phaseOf v).getD o.phase } q rest := by
  conv_lhs => unfold scan
  rw [if_neg (by decide), if_neg (by decide), if_neg (by decide), if_pos rfl]

theorem scan_last (o : Opts) (q : String) : scan o q ["--phase"] = .done o q := by
  unfold scan
  rw [if_neg (by decide), if_neg (by decide), if_neg (by decide), if_pos rfl]

theorem scan_bad {o : Opts} {q a : String} {rest : List String} (h1 : a ≠ "--prop-rational")
    (h2 : a ≠ "--deduce-bounds") (h3 : a ≠ "--print-stats") (h4 : a ≠ "--phase") (h : a.toList.head? = some '-') :
    scan o q (a :: rest) = .bad a := by
  unfold scan
  rw [if_neg h1, if_neg h2, if_neg h3, if_neg h4, if_pos h]

theorem phase_eq (v : String) : SmtMain.phaseOf v = (Arg.phase v).phase? := by
  unfold SmtMain.phaseOf
  by_cases h1 : v = "positive"
  · subst h1; rfl
  · rw [if_neg h1]
    by_cases h2 : v = "negative"
    · subst h2; rfl
    · rw [if_neg h2]
      by_cases h3 : v = "cache"
      · subst h3; rfl
      · rw [if_neg h3]
        unfold Arg.phase?
        split <;> simp_all

/-- The options and the path after the words of a command line. -/
theorem scan_words : ∀ (as : List Arg) (o : Opts) (q : String) (tail : List String), (∀ a ∈ as, a.Valid) →
    scan o q (cmdLine as ++ tail) =
      scan ⟨o.propRational || decide (.propRational ∈ as), o.deduceBounds || decide (.deduceBounds ∈ as),
        o.printStats || decide (.printStats ∈ as), ((as.filterMap Arg.phase?).getLast?).getD o.phase⟩
        ((inputOf as).getD q) tail
  | [], o, q, tail, _ => by simp [cmdLine, inputOf]
  | a :: as, o, q, tail, hv => by
    have hv' : ∀ a ∈ as, a.Valid := fun b hb => hv b (by simp [hb])
    have ih := fun o q => scan_words as o q tail hv'
    have hc : cmdLine (a :: as) ++ tail = a.words ++ (cmdLine as ++ tail) := by simp [cmdLine]
    rw [hc]
    cases a with
    | propRational =>
      show scan o q ("--prop-rational" :: (cmdLine as ++ tail)) = _
      rw [scan_rational, ih]
      simp [inputOf, Arg.path?, Arg.phase?]
    | deduceBounds =>
      show scan o q ("--deduce-bounds" :: (cmdLine as ++ tail)) = _
      rw [scan_bounds, ih]
      simp [inputOf, Arg.path?, Arg.phase?]
    | printStats =>
      show scan o q ("--print-stats" :: (cmdLine as ++ tail)) = _
      rw [scan_stats, ih]
      simp [inputOf, Arg.path?, Arg.phase?]
    | phase v =>
      show scan o q ("--phase" :: v :: (cmdLine as ++ tail)) = _
      rw [scan_phase, ih, phase_eq]
      cases hp : (Arg.phase v).phase? with
      | none => simp [inputOf, Arg.path?, hp]
      | some x =>
        simp only [inputOf, Arg.path?, List.filterMap_cons, hp, Option.getD_some]
        rw [getLast_cons_getD]
        simp
    | path p =>
      show scan o q (p :: (cmdLine as ++ tail)) = _
      rw [scan_path (hv (.path p) (by simp)), ih]
      simp only [inputOf, Arg.path?, Arg.phase?, List.filterMap_cons]
      rw [getLast_cons_getD]
      simp

/-- C80: how the words of a command line are read: every option counts wherever it is, of several paths and of several
phases the last one is taken, and `--phase` as the last word is ignored. -/
theorem C80_words (as : List Arg) (hv : ∀ a ∈ as, a.Valid) {tail : List String} (ht : tail = [] ∨ tail = ["--phase"]) :
    scan {} "" (cmdLine as ++ tail) = .done
      ⟨decide (.propRational ∈ as), decide (.deduceBounds ∈ as), decide (.printStats ∈ as), Spec.phaseOf as⟩
      ((inputOf as).getD "") := by
  rw [scan_words as {} "" tail hv]
  rcases ht with rfl | rfl
  · simp [scan, Spec.phaseOf]
  · rw [scan_last]; simp [Spec.phaseOf]

/-- C80: every list of words is a command line, possibly followed by the word `--phase`, or begins with a command line
that is followed by a word that looks like an option and is none. -/
theorem C80_all_words : ∀ (n : Nat) (args : List String), args.length ≤ n → ∃ as : List Arg, (∀ a ∈ as, a.Valid) ∧
    ((∃ tail, (tail = [] ∨ tail = ["--phase"]) ∧ args = cmdLine as ++ tail) ∨
     ∃ a rest, args = cmdLine as ++ a :: rest ∧ a.toList.head? = some '-' ∧
       a ∉ ["--prop-rational", "--deduce-bounds", "--print-stats", "--phase"])
  | _, [], _ => ⟨[], by simp, Or.inl ⟨[], Or.inl rfl, rfl⟩⟩
  | 0, _ :: _, h => by simp at h
  | n + 1, w :: rest, hn => by
    have cons : ∀ (a : Arg) (rest : List String), a.Valid → rest.length ≤ n → ∃ as : List Arg, (∀ a ∈ as, a.Valid) ∧
        ((∃ tail, (tail = [] ∨ tail = ["--phase"]) ∧ a.words ++ rest = cmdLine as ++ tail) ∨
         ∃ b more, a.words ++ rest = cmdLine as ++ b :: more ∧ b.toList.head? = some '-' ∧
           b ∉ ["--prop-rational", "--deduce-bounds", "--print-stats", "--phase"]) := by
      intro a rest hv hl
      obtain ⟨as, h1, h2⟩ := C80_all_words n rest hl
      refine ⟨a :: as, ?_, ?_⟩
      · intro b hb
        rcases List.mem_cons.1 hb with rfl | hb
        exacts [hv, h1 b hb]
      · rcases h2 with ⟨tail, ht, rfl⟩ | ⟨b, more, rfl, hb⟩
        · exact Or.inl ⟨tail, ht, by simp [cmdLine]⟩
        · exact Or.inr ⟨b, more, by simp [cmdLine], hb⟩
    have hr : rest.length ≤ n := by simpa using hn
    by_cases h1 : w = "--prop-rational"
    · subst h1; exact cons .propRational rest trivial hr
    by_cases h2 : w = "--deduce-bounds"
    · subst h2; exact cons .deduceBounds rest trivial hr
    by_cases h3 : w = "--print-stats"
    · subst h3; exact cons .printStats rest trivial hr
    by_cases h4 : w = "--phase"
    · subst h4
      cases rest with
      | nil => exact ⟨[], by simp, Or.inl ⟨["--phase"], Or.inr rfl, rfl⟩⟩
      | cons v rest => exact cons (.phase v) rest trivial (by simp at hr; omega)
    by_cases h : w.toList.head? = some '-'
    · exact ⟨[], by simp, Or.inr ⟨w, rest, rfl, h, by simp [h1, h2, h3, h4]⟩⟩
    · exact cons (.path w) rest h hr

theorem bad_words {as : List Arg} (hv : ∀ a ∈ as, a.Valid) {a : String} {rest : List String}
    (h : a.toList.head? = some '-') (hn : a ∉ ["--prop-rational", "--deduce-bounds", "--print-stats", "--phase"]) :
    scan {} "" (cmdLine as ++ a :: rest) = .bad a := by
  simp only [List.mem_cons, List.not_mem_nil, or_false, not_or] at hn
  rw [scan_words as {} "" _ hv, scan_bad hn.1 hn.2.1 hn.2.2.1 hn.2.2.2 h]

/-- C80: with an option that is not known nothing is printed and the exit code is -1, whatever else is on the command
line. -/
theorem C80_unknown {as : List Arg} (hv : ∀ a ∈ as, a.Valid) {a : String} {rest : List String}
    (h : a.toList.head? = some '-') (hn : a ∉ ["--prop-rational", "--deduce-bounds", "--print-stats", "--phase"])
    (r : List String × Int) : Prints H E files (cmdLine as ++ a :: rest) r ↔ r = ([], -1) := by
  have e := bad_words (rest := rest) hv h hn
  constructor
  · intro hp
    cases hp with
    | unknown _ => rfl
    | noPath h => exact absurd (e.symm.trans h) (by simp)
    | noFile h => exact absurd (e.symm.trans h) (by simp)
    | script h => exact absurd (e.symm.trans h) (by simp)
  · rintro rfl
    exact .unknown e

/-- C80: the exit code is -1 exactly if there is no path (other than the empty one) or an unknown option; it is 0
otherwise. -/
theorem C80_exit (args : List String) : (∃ r, Prints H E files args r) ∧ ∀ r, Prints H E files args r →
    (r.2 = 0 ∨ r.2 = -1) ∧
    (r.2 = 0 ↔ ∃ (as : List Arg) (p : String), (∀ a ∈ as, a.Valid) ∧ inputOf as = some p ∧ p ≠ "" ∧
      (args = cmdLine as ∨ args = cmdLine as ++ ["--phase"])) := by
  obtain ⟨as, hv, h⟩ := C80_all_words args.length args le_rfl
  have back : ∀ {o : Opts} {p : String}, scan {} "" args = .done o p → p ≠ "" →
      ∃ (as : List Arg) (p : String), (∀ a ∈ as, a.Valid) ∧ inputOf as = some p ∧ p ≠ "" ∧
      (args = cmdLine as ∨ args = cmdLine as ++ ["--phase"]) := by
    intro o p hs hp
    rcases h with ⟨tail, ht, rfl⟩ | ⟨a, rest, rfl, ha, hn⟩
    · rw [C80_words as hv ht] at hs
      injection hs with _ e
      refine ⟨as, p, hv, ?_, hp, ?_⟩
      · cases hi : inputOf as with
        | none => rw [hi] at e; exact absurd e.symm hp
        | some x => rw [hi] at e; exact congrArg some e
      · rcases ht with rfl | rfl
        · left; simp
        · right; rfl
    · rw [bad_words hv ha hn] at hs; cases hs
  have forth : (∃ (as : List Arg) (p : String), (∀ a ∈ as, a.Valid) ∧ inputOf as = some p ∧ p ≠ "" ∧
      (args = cmdLine as ∨ args = cmdLine as ++ ["--phase"])) → ∃ o p, scan {} "" args = .done o p ∧ p ≠ "" := by
    rintro ⟨bs, p, hb, hi, hp, he⟩
    rcases he with he | he
    · have := C80_words bs hb (Or.inl rfl)
      rw [List.append_nil, hi] at this
      exact ⟨_, p, he ▸ this, hp⟩
    · have := C80_words bs hb (Or.inr rfl)
      rw [hi] at this
      exact ⟨_, p, he ▸ this, hp⟩
  refine ⟨?_, ?_⟩
  · cases hs : scan {} "" args with
    | bad a => exact ⟨_, .unknown hs⟩
    | done o p =>
      by_cases hp : p = ""
      · subst hp; exact ⟨_, .noPath hs⟩
      · cases hf : files p with
        | none => exact ⟨_, .noFile hs hp hf⟩
        | some text =>
          have : ∀ ls, WithStats o.printStats ls ls := fun ls => by
            induction ls with
            | nil => exact .nil
            | cons l ls ih => exact .line ih
          exact ⟨_, .script hs hp hf (this _)⟩
  · intro r hr
    cases hr with
    | unknown hs =>
      refine ⟨Or.inr rfl, fun e => absurd e (by decide), fun hx => ?_⟩
      obtain ⟨o, p, h', _⟩ := forth hx
      rw [h'] at hs; cases hs
    | noPath hs =>
      refine ⟨Or.inr rfl, fun e => absurd e (by decide), fun hx => ?_⟩
      obtain ⟨o, p, h', hp⟩ := forth hx
      rw [h'] at hs; injection hs with _ e; exact absurd e hp
    | noFile hs hp _ => exact ⟨Or.inl rfl, fun _ => back hs hp, fun _ => rfl⟩
    | script hs hp _ _ => exact ⟨Or.inl rfl, fun _ => back hs hp, fun _ => rfl⟩

/-! ### The answer -/

theorem plain_lines {ls out : List String} (h : WithStats false ls out) : out = ls := by
  induction h with
  | nil => rfl
  | line _ ih => rw [ih]
  | counted _ h => cases h

theorem script_of {as : List Arg} (hv : ∀ a ∈ as, a.Valid) {p : String} (hi : inputOf as = some p) (hp : p ≠ "")
    {text : List Char} (hf : files p = some text) {r : List String × Int} (h : Prints H E files (cmdLine as) r) :
    r.2 = 0 ∧ WithStats (decide (.printStats ∈ as))
      (Shell.run H (E ⟨decide (.propRational ∈ as), decide (.deduceBounds ∈ as), decide (.printStats ∈ as),
        Spec.phaseOf as⟩) text).lines r.1 := by
  have e := C80_words as hv (Or.inl rfl)
  rw [List.append_nil, hi, Option.getD_some] at e
  cases h with
  | unknown h => rw [e] at h; cases h
  | noPath h => rw [e] at h; injection h with _ h; exact absurd h hp
  | noFile h _ hn => rw [e] at h; injection h with _ h; subst h; rw [hf] at hn; cases hn
  | script h _ ht hw =>
    rw [e] at h
    injection h with h1 h2
    subst h1 h2
    rw [hf] at ht
    injection ht with ht
    subst ht
    exact ⟨rfl, hw⟩

theorem answers_of {as : List Arg} {ls out : List String} (h : WithStats (decide (.printStats ∈ as)) ls out)
    {l : String} (hl : ls.head? = some l) : Answers as out l := by
  cases h with
  | nil => cases hl
  | line _ => exact Or.inl hl
  | counted n hs _ _ =>
    injection hl with hl
    subst hl
    exact Or.inr ⟨by simpa using hs, n 0, n 1, n 2, n 3, n 4, _, rfl⟩

/-- C80: whatever the options, if the first line that `smt` prints for a script in QF_LRA is `sat` or `unsat`, it is
right. Without `--print-stats`; with it see `C80_answered_lra`. -/
theorem C80_lra {as : List Arg} (hv : ∀ a ∈ as, a.Valid) {p : String} (hi : inputOf as = some p) (hp : p ≠ "")
    (hst : .printStats ∉ as) {text : List Char} (hf : files p = some text) {xs : List Lexeme} (hx : Layout xs text)
    (hd : .symbol "define-const".toList ∉ xs) {cmds : List Cmd} (hw : Written cmds xs)
    (hq : logics cmds = ["QF_LRA"]) (hwf : wellFormed [] (problem cmds)) {cfg : ICfg}
    (hE : ∀ o s as a, (E o).solve 0 false s as = some a → LraCheck S cfg (laOpts o) s as a)
    {r : List String × Int} (h : Prints H E files (cmdLine as) r) :
    (r.1.head? = some "sat" → Satisfiable (problem cmds)) ∧
    (r.1.head? = some "unsat" → ¬ Satisfiable (problem cmds)) := by
  obtain ⟨_, hw'⟩ := script_of hv hi hp hf h
  rw [decide_eq_false hst] at hw'
  rw [plain_lines hw']
  exact C72_lra_partial hx hd hw hq hwf (fun s as a => hE _ s as a)

/-- C80: without `--prop-rational`, for a script in the linear fragment of QF_LRA, `smt` prints the right answer and
exits with 0, unless the search is endless. -/
theorem C80_answered_lra {as : List Arg} (hv : ∀ a ∈ as, a.Valid) {p : String} (hi : inputOf as = some p)
    (hp : p ≠ "") (hpr : .propRational ∉ as) {text : List Char} (hf : files p = some text) {xs : List Lexeme}
    (hx : Layout xs text) (hd : .symbol "define-const".toList ∉ xs) {pre post : List Cmd}
    (hq : ∀ x ∈ pre, x.quiet = true) (hw : Written (.setLogic "QF_LRA" :: pre ++ .checkSat :: post) xs)
    (hwf : wellFormed [] (problem pre)) (hl : linear [] (problem pre) = true)
    (hn : ∀ n as r, Item.declare n as r ∈ problem pre → as = []) {cfg : ICfg}
    (hE : ∀ o s as a, (E o).solve 0 false s as = some a → LraCheck S cfg (laOpts o) s as a)
    (hE' : ∀ o s as a, LraCheck S cfg (laOpts o) s as a → (E o).solve 0 false s as ≠ none)
    {r : List String × Int} (h : Prints H E files (cmdLine as) r) :
    r.2 = 0 ∧
    ((Answers as r.1 "sat" ∧ Satisfiable (problem pre)) ∨
     (Answers as r.1 "unsat" ∧ ¬ Satisfiable (problem pre)) ∨
     ∃ c, (FE.init H).items H true (problem pre) = some c ∧
       LraEndless S cfg ⟨decide (.deduceBounds ∈ as), true, false⟩ c.st.table c.assertions) := by
  obtain ⟨h0, hw'⟩ := script_of hv hi hp hf h
  refine ⟨h0, ?_⟩
  rw [decide_eq_false hpr] at hw'
  have := C74_lra (H := H) (S := S) hx hd hq hw hwf hl hn (cfg := cfg) (op := laOpts ⟨false, decide (.deduceBounds ∈ as),
    decide (.printStats ∈ as), Spec.phaseOf as⟩) rfl (fun s as a => hE _ s as a) (fun s as a => hE' _ s as a)
  rcases this with ⟨h1, h2⟩ | ⟨h1, h2⟩ | h1
  · exact Or.inl ⟨answers_of hw' h1, h2⟩
  · exact Or.inr (Or.inl ⟨answers_of hw' h1, h2⟩)
  · exact Or.inr (Or.inr h1)

/-- C80: the same for QF_UFLRA. -/
theorem C80_answered_uflra {as : List Arg} (hv : ∀ a ∈ as, a.Valid) {p : String} (hi : inputOf as = some p)
    (hp : p ≠ "") (hpr : .propRational ∉ as) {text : List Char} (hf : files p = some text) {xs : List Lexeme}
    (hx : Layout xs text) (hd : .symbol "define-const".toList ∉ xs) {pre post : List Cmd}
    (hq : ∀ x ∈ pre, x.quiet = true) (hw : Written (.setLogic "QF_UFLRA" :: pre ++ .checkSat :: post) xs)
    (hwf : wellFormed [] (problem pre)) (hl : linear [] (problem pre) = true)
    (hpl : plainArgs [] (problem pre) = true) (hrf : realFunctions (problem pre)) {cfg : ICfg}
    (hdb : cfg.dbg = false)
    (hE : ∀ o s as a, (E o).solve 0 true s as = some a → UflCheck S cfg (laOpts o) s as a)
    (hE' : ∀ o s as a, UflCheck S cfg (laOpts o) s as a → (E o).solve 0 true s as ≠ none)
    {r : List String × Int} (h : Prints H E files (cmdLine as) r) :
    r.2 = 0 ∧
    ((Answers as r.1 "sat" ∧ Satisfiable (problem pre)) ∨
     (Answers as r.1 "unsat" ∧ ¬ Satisfiable (problem pre)) ∨
     ∃ c, (FE.init H).items H true (problem pre) = some c ∧
       UflEndless S cfg ⟨decide (.deduceBounds ∈ as), true, false⟩ c.st.table c.assertions) := by
  obtain ⟨h0, hw'⟩ := script_of hv hi hp hf h
  refine ⟨h0, ?_⟩
  rw [decide_eq_false hpr] at hw'
  have := C74_uflra (H := H) (S := S) hx hd hq hw hwf hl hpl hrf hdb (op := laOpts ⟨false, decide (.deduceBounds ∈ as),
    decide (.printStats ∈ as), Spec.phaseOf as⟩) rfl (fun s as a => hE _ s as a) (fun s as a => hE' _ s as a)
  rcases this with ⟨h1, h2⟩ | ⟨h1, h2⟩ | h1
  · exact Or.inl ⟨answers_of hw' h1, h2⟩
  · exact Or.inr (Or.inl ⟨answers_of hw' h1, h2⟩)
  · exact Or.inr (Or.inr h1)

/-- C80: whatever the options, after `sat` the answer to `get-model` is a model of the script. Without
`--print-stats`. -/
theorem C80_model_lra {as : List Arg} (hv : ∀ a ∈ as, a.Valid) {p : String} (hi : inputOf as = some p) (hp : p ≠ "")
    (hst : .printStats ∉ as) {text : List Char} (hf : files p = some text) {xs : List Lexeme} (hx : Layout xs text)
    (hd : .symbol "define-const".toList ∉ xs) {pre post : List Cmd} (hq : ∀ x ∈ pre, x.quiet = true)
    (hw : Written (.setLogic "QF_LRA" :: pre ++ .checkSat :: .getModel :: post) xs)
    (hwf : wellFormed [] (problem pre)) (hpn : plainNames (problem pre)) {cfg : ICfg} {pr : ℚ → LF}
    (hpr : Represents pr)
    (hM : ∀ o s as, (E o).solve 0 false s.table as = some .sat →
      LraResponse S cfg (laOpts o) pr s as ((E o).model 1 false s as))
    {r : List String × Int} (h : Prints H E files (cmdLine as) r) (hs : r.1.head? = some "sat") :
    ∃ m defs, r.1[1]? = some (String.ofList m) ∧ readModel m = some defs ∧ ModelsOf (problem pre) defs := by
  obtain ⟨_, hw'⟩ := script_of hv hi hp hf h
  rw [decide_eq_false hst] at hw'
  rw [plain_lines hw'] at hs ⊢
  exact C75_lra hx hd hq hw hwf hpn hpr (fun s as => hM _ s as) hs

/-- C80: the same for QF_UFLRA. -/
theorem C80_model_uflra {as : List Arg} (hv : ∀ a ∈ as, a.Valid) {p : String} (hi : inputOf as = some p)
    (hp : p ≠ "") (hst : .printStats ∉ as) {text : List Char} (hf : files p = some text) {xs : List Lexeme}
    (hx : Layout xs text) (hd : .symbol "define-const".toList ∉ xs) {pre post : List Cmd}
    (hq : ∀ x ∈ pre, x.quiet = true)
    (hw : Written (.setLogic "QF_UFLRA" :: pre ++ .checkSat :: .getModel :: post) xs)
    (hwf : wellFormed [] (problem pre)) (hl : linear [] (problem pre) = true)
    (hpl : plainArgs [] (problem pre) = true) (hrf : realFunctions (problem pre)) (hpn : plainNames (problem pre))
    {cfg : ICfg} (hdb : cfg.dbg = false) {pr : ℚ → LF} (hpr : Represents pr)
    (hM : ∀ o s as, (E o).solve 0 true s.table as = some .sat →
      UflResponse S cfg (laOpts o) pr s as ((E o).model 1 true s as))
    {r : List String × Int} (h : Prints H E files (cmdLine as) r) (hs : r.1.head? = some "sat") :
    ∃ m defs, r.1[1]? = some (String.ofList m) ∧ readModel m = some defs ∧ ModelsOf (problem pre) defs := by
  obtain ⟨_, hw'⟩ := script_of hv hi hp hf h
  rw [decide_eq_false hst] at hw'
  rw [plain_lines hw'] at hs ⊢
  exact C75_uflra hx hd hq hw hwf hl hpl hrf hpn hdb hpr (fun s as => hM _ s as) hs

/-! ### What a caller would not expect -/

/-- C80: a phase that does not exist is not reported: the words are read as if the option were not there. -/
theorem C80_phase_ignored {as bs : List Arg} (hv : ∀ a ∈ as ++ bs, a.Valid) {v : String}
    (h : v ∉ ["positive", "negative", "cache"]) :
    scan {} "" (cmdLine (as ++ .phase v :: bs)) = scan {} "" (cmdLine (as ++ bs)) := by
  have hn : (Arg.phase v).phase? = none := by
    rw [← phase_eq]
    simp only [List.mem_cons, List.not_mem_nil, or_false, not_or] at h
    unfold SmtMain.phaseOf
    rw [if_neg h.1, if_neg h.2.1, if_neg h.2.2]
  have h1 := C80_words (as ++ .phase v :: bs) (by
    intro a ha
    rcases List.mem_append.1 ha with ha | ha
    · exact hv a (by simp [ha])
    · rcases List.mem_cons.1 ha with rfl | ha
      · trivial
      · exact hv a (by simp [ha])) (Or.inl rfl)
  have h2 := C80_words (as ++ bs) hv (Or.inl rfl)
  rw [List.append_nil] at h1 h2
  rw [h1, h2]
  simp [Spec.phaseOf, inputOf, hn, Arg.path?]

/-- C80: a file that cannot be opened, and a script that ends with an exception, have the exit code 0: the exit code
does not tell whether there was an answer. -/
theorem C80_exit_hides_errors :
    (Prints H E (fun _ => none) ["a.smt2"] ([], 0)) ∧
    Prints H E (fun _ => some "(check".toList) ["a.smt2"] ([], 0) ∧
    ∀ E, (Shell.run H E "(check".toList).ok = false := by
  have hr : ∀ E, Shell.run H E "(check".toList = ⟨[], false⟩ := fun E => rfl
  refine ⟨.noFile (p := "a.smt2") (o := {}) (by decide) (by decide) rfl,
    .script (p := "a.smt2") (o := {}) (by decide) (by decide) rfl ?_, fun E => by rw [hr]⟩
  rw [hr]
  exact .nil

/-! ### Examples -/

example : scan {} "" (cmdLine [.path "a.smt2", .deduceBounds, .phase "cache", .phase "fast", .path "b.smt2"]) =
    .done ⟨false, true, false, .cache⟩ "b.smt2" := by decide

theorem valid_args : ∀ a ∈ [Arg.path "b.smt2", .printStats, .phase "cache", .path "a.smt2"], a.Valid := by
  intro a ha
  simp only [List.mem_cons, List.not_mem_nil, or_false] at ha
  rcases ha with rfl | rfl | rfl | rfl
  · exact (by decide : ("b.smt2".toList.head? ≠ some '-'))
  · trivial
  · trivial
  · exact (by decide : ("a.smt2".toList.head? ≠ some '-'))

/-- The path is taken as the value of `--phase`. -/
example : scan {} "" ["--phase", "a.smt2"] = .done {} "" ∧ scan {} "" ["-v", "a.smt2"] = .bad "-v" := by decide

open C74Example C72Example in
/-- The script of C72 is answered; the first of the two files is not there. -/
example {r : List String × Int} (h : Prints C71Example.h0 (fun o => solver cfg (laOpts o))
      (fun p => if p = "a.smt2" then some (spaced (lexemes ++ lexemes2 ++ lexemes3)) else none)
      ["b.smt2", "--print-stats", "--phase", "cache", "a.smt2"] r) :
    r.2 = 0 ∧ Answers [Arg.path "b.smt2", .printStats, .phase "cache", .path "a.smt2"] r.1 "unsat" ∧
    ¬ Satisfiable (problem (pre ++ [last])) := by
  have hx : Layout (lexemes ++ lexemes2 ++ lexemes3) (spaced (lexemes ++ lexemes2 ++ lexemes3)) :=
    layout_spaced (all_valid (by decide +kernel))
  have hd : Lexeme.symbol "define-const".toList ∉ lexemes ++ lexemes2 ++ lexemes3 := by decide +kernel
  have hw := written_append (written_append written1 written2) written3
  have hn : ∀ n as r, Item.declare n as r ∈ problem (pre ++ [last]) → as = [] := by
    intro n as r hm
    simp [pre, last, problem] at hm
    rcases hm with hm | hm <;> exact hm.2.1
  have hc := accepted (is := problem (pre ++ [last])) (by decide +kernel)
  have hE := answer_sound answer_unsat
  have hl : (Shell.run C71Example.h0 (solver cfg opts) (spaced (lexemes ++ lexemes2 ++ lexemes3))).lines.head? =
      some (Shell.answerLine .unsat) := by
    refine C72_printed_partial hx hd (Or.inl rfl) (pre := pre ++ [last]) (post := []) (by decide) hw hc (fun _ => hn) ?_
    have hns : ¬ LraCheck Int cfg opts (terms (problem (pre ++ [last]))).st.table
        (terms (problem (pre ++ [last]))).assertions .sat :=
      fun h => (lra_right wf2 hc hn hE).2 rfl ((lra_right wf2 hc hn h).1 rfl)
    show (solver cfg opts).solve 0 false _ _ = some .unsat
    simp only [solver, if_true, Bool.false_eq_true, if_false]
    rw [if_neg hns, if_pos hE]
  obtain ⟨h0, hs⟩ := script_of (as := [.path "b.smt2", .printStats, .phase "cache", .path "a.smt2"]) valid_args
    (p := "a.smt2") rfl (by decide) (if_pos rfl) h
  exact ⟨h0, answers_of hs hl, (C72_lra_partial hx hd hw rfl wf2 (solver_lra cfg opts)).2 hl⟩

#print axioms C80_words
#print axioms C80_all_words
#print axioms C80_unknown
#print axioms C80_exit
#print axioms C80_lra
#print axioms C80_answered_lra
#print axioms C80_answered_uflra
#print axioms C80_model_lra
#print axioms C80_model_uflra
#print axioms C80_phase_ignored
#print axioms C80_exit_hides_errors

end Yaga
