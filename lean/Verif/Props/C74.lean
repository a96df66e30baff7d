/-
C74: for a script in the fragment the first check-sat prints the right answer, unless the search goes on for ever.
-/
import Verif.Proofs.Fragment
import Verif.Props.C73
import Verif.Props.C63
import Verif.Props.C68

namespace Yaga

open Spec Shell

variable {H : TermHash} {E : Oracle} {S : Type} [LinearOrder S] [ScoreOps S]

/-- The terms of a script in the fragment. -/
theorem fragment_table {is : List Item} (hw : wellFormed [] is) (hl : linear [] is = true)
    (hp : plainArgs [] is = true) (hr : realFunctions is) {c : FE} (hc : (FE.init H).items H true is = some c) :
    TReach H c.st.table ∧ RealApps c.st.table ∧ ∀ t ∈ c.assertions, IsBool c.st.table t := by
  have hs : SRel H is c := (srel_init H).items hw hc
  exact ⟨hs.nrel.reach, real_items (srel_init H) (Λ := [])
    (fun _ _ _ h => absurd h (by simp [Spec.sigOf, innermost])) hw hl hp hr
    (fun _ _ _ h => absurd h (by simp [Spec.sigOf, innermost])) (Or.inl rfl) realApps_init hc, hs.bool⟩

theorem convert_total {s : TermTable} (hs : TReach H s) (hA : RealApps s) {cfg : ICfg}
    (hd : cfg.dbg = false ∨ ∀ t, s.kind t ≠ .app) {as : List Tm} (hb : ∀ t ∈ as, IsBool s t) :
    ∃ r, Internalizer.check cfg s IState.init as = some r :=
  C44_total hs (hA.supported hs.wf hd) hb fun a ha hk => by
    have := hb a ha
    unfold IsBool at this
    rw [(hA.entry hk).1] at this
    cases this

/-- Applications of functions in the linear fragment without declared functions: there are none. -/
theorem plain_table {is : List Item} (hw : wellFormed [] is) (hn : ∀ n as r, Item.declare n as r ∈ is → as = [])
    {c : FE} (hc : (FE.init H).items H true is = some c) :
    TReach H c.st.table ∧ (∀ t, c.st.table.kind t ≠ .app) ∧ RealApps c.st.table ∧
    ∀ t ∈ c.assertions, IsBool c.st.table t := by
  have hs : SRel H is c := (srel_init H).items hw hc
  have hf : Flat c.st := flat_items (srel_init H) flat_init hw hn hc
  exact ⟨hs.nrel.reach, fun t => hf.table.kind_ne t, fun e he hk => (hf.table e he hk).elim, hs.bool⟩

/-- C74, QF_LRA: the terms of a script in the linear fragment are converted without failure, in release and debug
builds. If the conversion does not answer `unsat` itself, the solver has a first state; and from every first state,
the loop of `check` returns an answer, which is right, or it goes on for ever. Nothing else happens: no exception, no
failed assertion, no undefined behaviour. -/
theorem C74_lra_search {is : List Item} (hw : wellFormed [] is)
    (hn : ∀ n as r, Item.declare n as r ∈ is → as = []) {c : FE} (hc : (FE.init H).items H true is = some c)
    (cfg : ICfg) (op : LaOpts) (hop : op.propRational = false) :
    (Internalizer.check cfg c.st.table IState.init c.assertions = some none ∧ ¬ Satisfiable is) ∨
    ∃ st, Internalizer.check cfg c.st.table IState.init c.assertions = some (some st) ∧
      (∃ (P : List QAtom) (c0 : QC (GVsids S)), Qf.Start cfg.hv cfg.hc st.clauses P c0 ∧
        c0.q.la.store = st.store ∧ Qf.OrderStart st.clauses c0) ∧
      ∀ (P : List QAtom) (c0 : QC (GVsids S)), Qf.Start cfg.hv cfg.hc st.clauses P c0 →
        c0.q.la.store = st.store → Qf.OrderStart st.clauses c0 →
        (Qf.Returns cfg.hv cfg.hc op (Qf.gvOrder S) c0 .unsat ∧ ¬ Satisfiable is) ∨
        (∃ q, Qf.Returns cfg.hv cfg.hc op (Qf.gvOrder S) c0 (.sat q) ∧ Satisfiable is) ∨
        ∃ f : Nat → QC (GVsids S), f 0 = c0 ∧
          ∀ i, Qf.Iter cfg.hv cfg.hc op (Qf.gvOrder S) (f i) (.run (f (i + 1))) := by
  obtain ⟨hs, hk, hA, hb⟩ := plain_table hw hn hc
  obtain ⟨r, hr⟩ := convert_total hs hA (cfg := cfg) (Or.inr hk) hb
  cases r with
  | none => exact Or.inl ⟨hr, (lra_right (S := S) (op := op) hw hc hn (.early hr)).2 rfl⟩
  | some st =>
    refine Or.inr ⟨st, hr, ?_, fun P c0 h hst ho => ?_⟩
    · obtain ⟨la, P, h1, _, _, h2⟩ := C61_start hs hb hr
      refine ⟨P, Qf.first la st.clauses ((((GVsids.new : GVsids S).resize .boolean la.trail.bools.num).resize .rational
        la.trail.rats.num).onInit la.cvars st.clauses), h2 _ _, h1, _,
        .resize (.resize .new _ _ (Nat.zero_le _)) _ _ (Nat.zero_le _), ?_, rfl⟩
      funext ty
      cases ty <;> rfl
    · rcases C63_never_stuck cfg.hv cfg.hc op hop st.clauses P c0 h ho with ⟨out, h1, rfl | ⟨q, rfl⟩⟩ | h1
      · exact Or.inl ⟨h1, (lra_right (S := S) hw hc hn (.unsat hr h hst ho h1)).2 rfl⟩
      · exact Or.inr (Or.inl ⟨q, h1, (lra_right (S := S) hw hc hn (.sat hr h hst ho h1)).1 rfl⟩)
      · exact Or.inr (Or.inr h1)

/-- C74, QF_UFLRA, for functions that take and return reals and have constants, variables, applications or `ite` as
arguments, in builds without assertions: as for QF_LRA. -/
theorem C74_uflra_search {is : List Item} (hw : wellFormed [] is) (hl : linear [] is = true)
    (hp : plainArgs [] is = true) (hr : realFunctions is) {c : FE} (hc : (FE.init H).items H true is = some c)
    (cfg : ICfg) (hd : cfg.dbg = false) (op : LaOpts) (hop : op.propRational = false) :
    (Internalizer.check cfg c.st.table IState.init c.assertions = some none ∧ ¬ Satisfiable is) ∨
    ∃ st, Internalizer.check cfg c.st.table IState.init c.assertions = some (some st) ∧
      (∃ (P : List QAtom) (c0 : UC (GVsids S)), Ufl.Start ⟨cfg, c.st.table, st, op⟩ P c0 ∧
        Ufl.OrderStart ⟨cfg, c.st.table, st, op⟩ c0) ∧
      ∀ (P : List QAtom) (c0 : UC (GVsids S)), Ufl.Start ⟨cfg, c.st.table, st, op⟩ P c0 →
        Ufl.OrderStart ⟨cfg, c.st.table, st, op⟩ c0 →
        (Ufl.Returns ⟨cfg, c.st.table, st, op⟩ (Qf.gvOrder S) c0 .unsat ∧ ¬ Satisfiable is) ∨
        (∃ x, Ufl.Returns ⟨cfg, c.st.table, st, op⟩ (Qf.gvOrder S) c0 (.sat x) ∧ Satisfiable is) ∨
        ∃ f : Nat → UC (GVsids S), f 0 = c0 ∧
          ∀ i, Ufl.Iter ⟨cfg, c.st.table, st, op⟩ (Qf.gvOrder S) (f i) (.run (f (i + 1))) := by
  obtain ⟨hs, hA, hb⟩ := fragment_table hw hl hp hr hc
  have hS := hA.supported hs.wf (cfg := cfg) (Or.inl hd)
  obtain ⟨r, hr⟩ := convert_total hs hA (cfg := cfg) (Or.inl hd) hb
  have right := fun a (h : UflCheck S cfg op c.st.table c.assertions a) =>
    ufl_right hw hc hS hA.realFns hA.oneVar h
  cases r with
  | none => exact Or.inl ⟨hr, (right _ (.early hr)).2 rfl⟩
  | some st =>
    refine Or.inr ⟨st, hr, C68_start ⟨cfg, c.st.table, st, op⟩ hs hb hr, fun P c0 h ho => ?_⟩
    rcases C68_never_stuck_partial ⟨cfg, c.st.table, st, op⟩ hs hS hA.realFns hA.oneVar hop hb hr P c0 h ho with
      ⟨out, h1, rfl | ⟨x, rfl⟩⟩ | h1
    · exact Or.inl ⟨h1, (right _ (.unsat hr h ho h1)).2 rfl⟩
    · exact Or.inr (Or.inl ⟨x, h1, (right _ (.sat hr h ho h1)).1 rfl⟩)
    · exact Or.inr (Or.inr h1)

/-- C74, QF_LRA: a script that begins with `set-logic`, followed by its declarations, definitions and assertions in
the linear fragment, followed by `check-sat`. The oracle of the shell stands for the solver: it answers only what the
solver answers, and it answers if the solver can. The first line printed is `sat` and the assertions have a model, or
it is `unsat` and they have none, or the loop of `check` can go on for ever. -/
theorem C74_lra {text : List Char} {xs : List Lexeme} (hx : Layout xs text)
    (hd : .symbol "define-const".toList ∉ xs) {pre post : List Cmd} (hp : ∀ x ∈ pre, x.quiet = true)
    (hw : Written (.setLogic "QF_LRA" :: pre ++ .checkSat :: post) xs) (hf : wellFormed [] (problem pre))
    (hl : linear [] (problem pre) = true) (hn : ∀ n as r, Item.declare n as r ∈ problem pre → as = [])
    {cfg : ICfg} {op : LaOpts} (hop : op.propRational = false)
    (hE : ∀ s as a, E.solve 0 false s as = some a → LraCheck S cfg op s as a)
    (hE' : ∀ s as a, LraCheck S cfg op s as a → E.solve 0 false s as ≠ none) :
    ((Shell.run H E text).lines.head? = some "sat" ∧ Satisfiable (problem pre)) ∨
    ((Shell.run H E text).lines.head? = some "unsat" ∧ ¬ Satisfiable (problem pre)) ∨
    ∃ c, (FE.init H).items H true (problem pre) = some c ∧ LraEndless S cfg op c.st.table c.assertions := by
  obtain ⟨c, hc, h⟩ := C73_lra (H := H) (E := E) hx hd hp hw hf hl hn hE
  have fin : (∃ a, LraCheck S cfg op c.st.table c.assertions a) → _ := fun ⟨a, ha⟩ => h (hE' _ _ _ ha)
  rw [← or_assoc]
  rcases C74_lra_search (S := S) hf hn hc cfg op hop with ⟨h1, _⟩ | ⟨st, h1, ⟨P, c0, h2, h3, h4⟩, h5⟩
  · exact Or.inl (fin ⟨_, .early h1⟩)
  · rcases h5 P c0 h2 h3 h4 with ⟨h6, _⟩ | ⟨q, h6, _⟩ | ⟨f, rfl, h6⟩
    · exact Or.inl (fin ⟨_, .unsat h1 h2 h3 h4 h6⟩)
    · exact Or.inl (fin ⟨_, .sat h1 h2 h3 h4 h6⟩)
    · exact Or.inr ⟨c, hc, st, P, f, h1, h2, h3, h4, h6⟩

/-- C74, QF_UFLRA: the same with functions as in `C74_uflra_search`. -/
theorem C74_uflra {text : List Char} {xs : List Lexeme} (hx : Layout xs text)
    (hd : .symbol "define-const".toList ∉ xs) {pre post : List Cmd} (hp : ∀ x ∈ pre, x.quiet = true)
    (hw : Written (.setLogic "QF_UFLRA" :: pre ++ .checkSat :: post) xs) (hf : wellFormed [] (problem pre))
    (hl : linear [] (problem pre) = true) (hpl : plainArgs [] (problem pre) = true)
    (hrf : realFunctions (problem pre)) {cfg : ICfg} (hdb : cfg.dbg = false) {op : LaOpts}
    (hop : op.propRational = false)
    (hE : ∀ s as a, E.solve 0 true s as = some a → UflCheck S cfg op s as a)
    (hE' : ∀ s as a, UflCheck S cfg op s as a → E.solve 0 true s as ≠ none) :
    ((Shell.run H E text).lines.head? = some "sat" ∧ Satisfiable (problem pre)) ∨
    ((Shell.run H E text).lines.head? = some "unsat" ∧ ¬ Satisfiable (problem pre)) ∨
    ∃ c, (FE.init H).items H true (problem pre) = some c ∧ UflEndless S cfg op c.st.table c.assertions := by
  obtain ⟨c, hc, _, h⟩ := C73_printed (H := H) (E := E) hx hd (Or.inr rfl) hp hw hf hl fun h => absurd h (by decide)
  obtain ⟨hs, hA, hb⟩ := fragment_table hf hl hpl hrf hc
  have fin : (∃ a, UflCheck S cfg op c.st.table c.assertions a) →
      ((Shell.run H E text).lines.head? = some "sat" ∧ Satisfiable (problem pre)) ∨
      ((Shell.run H E text).lines.head? = some "unsat" ∧ ¬ Satisfiable (problem pre)) := by
    rintro ⟨b, hb⟩
    cases ha : E.solve 0 true c.st.table c.assertions with
    | none => exact absurd ha (hE' _ _ _ hb)
    | some a =>
      have h1 := h a (by rw [← ha]; rfl)
      have h2 := hE _ _ _ ha
      have h3 := ufl_right hf hc (hA.supported hs.wf (Or.inl hdb)) hA.realFns hA.oneVar h2
      cases h2 with
      | early | unsat => exact Or.inr ⟨h1, h3.2 rfl⟩
      | sat => exact Or.inl ⟨h1, h3.1 rfl⟩
  rw [← or_assoc]
  rcases C74_uflra_search (S := S) hf hl hpl hrf hc cfg hdb op hop with ⟨h1, _⟩ | ⟨st, h1, ⟨P, c0, h2, h4⟩, h5⟩
  · exact Or.inl (fin ⟨_, .early h1⟩)
  · rcases h5 P c0 h2 h4 with ⟨h6, _⟩ | ⟨q, h6, _⟩ | ⟨f, rfl, h6⟩
    · exact Or.inl (fin ⟨_, .unsat h1 h2 h4 h6⟩)
    · exact Or.inl (fin ⟨_, .sat h1 h2 h4 h6⟩)
    · exact Or.inr ⟨c, hc, st, P, f, h1, h2, h4, h6⟩

namespace C74Example

open C71Example C72Example

/-- The oracle of C72 answers if the solver can. -/
theorem solver_answers (cfg : ICfg) (op : LaOpts) (s : TermTable) (as : List Tm) (a : SolverAnswer) :
    (LraCheck Int cfg op s as a → (solver cfg op).solve 0 false s as ≠ none) ∧
    (UflCheck Int cfg op s as a → (solver cfg op).solve 0 true s as ≠ none) := by
  refine ⟨fun h => ?_, fun h => ?_⟩
  · simp only [solver, if_true, Bool.false_eq_true, if_false]
    split
    · nofun
    · rename_i h1
      rw [if_pos (by cases h <;> first | exact absurd (.sat ‹_› ‹_› ‹_› ‹_› ‹_›) h1 | exact .early ‹_› | exact .unsat ‹_› ‹_› ‹_› ‹_› ‹_›)]
      nofun
  · simp only [solver, if_true]
    split
    · nofun
    · rename_i h1
      rw [if_pos (by cases h <;> first | exact absurd (.sat ‹_› ‹_› ‹_› ‹_›) h1 | exact .early ‹_› | exact .unsat ‹_› ‹_› ‹_› ‹_›)]
      nofun

/-- The fragment of C74 for functions: `linearScript` of C73 is not in it, since `f` has a Boolean argument; with
`(f (ite p x 1.5))` instead of `(f x p)` it is. -/
def plainScript : List Item :=
  [.declare "x" [] .real, .declare "p" [] .bool, .declare "f" [.real] .real,
    .define "d" .real (ap2 "*" (ap2 "/" (.num "1") (.num "3")) (.sym "x")),
    .assert (.letE (.cons "y" (ap1 "f" (ap3 "ite" (.sym "p") (.sym "x") (.dec "1.5"))) .nil)
      (ap2 "or" (ap2 "<" (.sym "y") (.sym "d")) (ap2 "=" (ap1 "f" (.sym "y")) (ap2 "+" (.sym "d") (.dec "2.5")))))]

end C74Example

open C74Example C72Example in
/-- The hypotheses of `C74_lra` hold for the script of C72. -/
example : Layout (lexemes ++ lexemes2 ++ lexemes3) (spaced (lexemes ++ lexemes2 ++ lexemes3)) ∧
    Written (.setLogic "QF_LRA" :: (pre ++ [last]) ++ [.checkSat]) (lexemes ++ lexemes2 ++ lexemes3) ∧
    wellFormed [] (problem (pre ++ [last])) ∧ linear [] (problem (pre ++ [last])) = true ∧
    opts.propRational = false ∧
    (∀ s as a, (solver cfg opts).solve 0 false s as = some a → LraCheck Int cfg opts s as a) ∧
    ∀ s as a, LraCheck Int cfg opts s as a → (solver cfg opts).solve 0 false s as ≠ none :=
  ⟨layout_spaced (all_valid (by decide +kernel)), written_append (written_append written1 written2) written3,
    wf2, by decide +kernel, rfl, solver_lra cfg opts, fun s as a => (solver_answers cfg opts s as a).1⟩

open C74Example C72Example in
/-- The hypotheses of `C74_uflra` hold for the script of C72 with a function. -/
example : Layout lexemesF (spaced lexemesF) ∧ Written (.setLogic "QF_UFLRA" :: preF ++ [.checkSat]) lexemesF ∧
    wellFormed [] (problem preF) ∧ linear [] (problem preF) = true ∧ plainArgs [] (problem preF) = true ∧
    realFunctions (problem preF) ∧ cfg.dbg = false ∧ opts.propRational = false ∧
    (∀ s as a, (solver cfg opts).solve 0 true s as = some a → UflCheck Int cfg opts s as a) ∧
    ∀ s as a, UflCheck Int cfg opts s as a → (solver cfg opts).solve 0 true s as ≠ none := by
  refine ⟨layout_spaced (all_valid (by decide +kernel)), writtenF, wfF, by decide +kernel, by decide +kernel, ?_, rfl,
    rfl, solver_ufl cfg opts, fun s as a => (solver_answers cfg opts s as a).2⟩
  intro n as r hm hne
  have hm : Item.declare n as r ∈ [Item.declare "x" [] .real, .declare "y" [] .real, .declare "f" [.real] .real,
      .assert (C71Example.ap2 "<" (C71Example.ap1 "f" (.sym "x")) (C71Example.ap1 "f" (.sym "y"))),
      .assert (C71Example.ap2 "=" (.sym "x") (.sym "y"))] := hm
  simp only [List.mem_cons, Item.declare.injEq, reduceCtorEq, List.not_mem_nil, or_false] at hm
  rcases hm with ⟨_, rfl, _⟩ | ⟨_, rfl, _⟩ | ⟨_, rfl, rfl⟩
  · exact absurd rfl hne
  · exact absurd rfl hne
  · exact ⟨rfl, by simp⟩

open C74Example C71Example in
example : wellFormed [] plainScript ∧ linear [] plainScript = true ∧ plainArgs [] plainScript = true ∧
    plainArgs [] C73Example.linearScript = true := by
  refine ⟨?_, by decide +kernel, by decide +kernel, by decide +kernel⟩
  simp only [plainScript, wellFormed, Item.Ok, Item.sig, Sig.fresh]
  decide +kernel

#print axioms C74_lra_search
#print axioms C74_uflra_search
#print axioms C74_lra
#print axioms C74_uflra

end Yaga
