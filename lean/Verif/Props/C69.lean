/-
C69: the output of `get-model`.
-/
import Verif.Proofs.PrintShown
import Verif.Proofs.UfLraExample
import Verif.Props.C61
import Verif.Props.C66
import Verif.Proofs.LongFractionMisc

namespace Yaga

open Spec Internalizer TermTable

/-- C69, numbers: the text that `Long_fraction::print` writes is a term of SMT-LIB, and its value is the number. -/
theorem C69_number {a : LF} (h : Canonical a) :
    ∃ e, readText a.print = some [e] ∧ e.value [] = some (.q (fval a)) := by
  refine ⟨ratExp a, readText_of_shows (shows_print h), value_ratExp ?_ h⟩
  intro p hp
  cases hp

/-- C69, QF_UFLRA: when `check` has returned `sat` for the first `check-sat`, the response to `get-model` can be read
as a list of definitions of SMT-LIB. There is an interpretation that agrees with the definitions, and all assertions
are true in every interpretation that agrees with them, whatever values it has for other symbols. The constants and
functions are printed in any order (`vs`, `fs`). Partial: as for `C66_sat_partial`, and names must not need quotes,
see `C69_quoted`. -/
theorem C69_uflra_partial {H : TermHash} (E : Ufl.Env) (hs : TReach H E.s) (hS : Supported E.cfg E.s) (hF : RealFns E.s)
    (h1 : OneVar E.s) {as : List Tm} (hb : ∀ a ∈ as, IsBool E.s a) (hc : check E.cfg E.s IState.init as = some (some E.st))
    {O : Type} (W : QOrder O) (P : List QAtom) (c0 : UC O) (h : Ufl.Start E P c0)
    (hW : ∀ c, Ufl.Reach E W c0 c → Ufl.PicksFree E W c ∧ Ufl.PicksAll E W c) (x : US)
    (hr : Ufl.Returns E W c0 (.sat x)) (pr : ℚ → LF) (hp : Represents pr) (nm : Tm → Option (List Char))
    (hA : SameArity E.s) (hN : Named E.s E.st nm) (hD : Distinct E.s nm) (vs : List (Tm × Var))
    (hv : vs.Perm (PrintModel.varMap E.s E.st)) (fs : List Tm) (hf1 : ∀ e ∈ x.f.fns, e.fn ∈ fs)
    (hf2 : ∀ f ∈ fs, ∃ p ∈ E.st.apps, E.s.fncSymbol p.2 = f) :
    ∃ text defs, PrintModel.getModel pr nm E.s x.q.la.trail vs (PrintModel.tables x.f.fns fs) = some text ∧
      readModel text = some defs ∧ (∃ I, ∀ d ∈ defs, d.Meets E.s nm I) ∧
      ∀ I, (∀ d ∈ defs, d.Meets E.s nm I) → Holds I E.s as := by
  obtain ⟨hI, hP, hK⟩ := UF.check_facts hs.wf hS hb (UF.RealFns.roots hF hb) hc
  obtain ⟨g1, g2, g3, g4, g5⟩ := Ufl.sat_state hs hS hF h1 hb hc h hW hr
  obtain ⟨text, defs, k1, k2, k3, k4, _⟩ := PrintModel.shown (nm := nm) (u := Ufl.view E.st x.q.la x.f) hp hs.wf hF hI hP hK
    hA hN g1 g2 (Ufl.one_sat h hr) g4 g5 hv hf1 hf2
  exact ⟨text, defs, k1, k2, ⟨_, k4 hD⟩, fun I hm => UF.sat_reads hs.wf hS hF hb hc g1 g2 g3 (k3 I hm)⟩

/-- C69, QF_LRA: the same for scripts without functions. Partial: names must not need quotes, see `C69_quoted`. -/
theorem C69_lra_partial {H : TermHash} {s : TermTable} (hs : TReach H s) {cfg : ICfg} {as : List Tm}
    (hb : ∀ a ∈ as, IsBool s a) {st : IState} (hc : check cfg s IState.init as = some (some st))
    (happ : ∀ t, s.kind t ≠ .app) {O : Type} (op : LaOpts) (W : QOrder O) (P : List QAtom) (c0 : QC O)
    (h : Qf.Start cfg.hv cfg.hc st.clauses P c0) (hst : c0.q.la.store = st.store)
    (hrt : c0.q.la.trail.rats.num = st.numRat)
    (hW : ∀ c, Qf.Reach cfg.hv cfg.hc op W c0 c →
      Qf.PicksFree cfg.hv cfg.hc op W c ∧ Qf.PicksAll cfg.hv cfg.hc op W c)
    (q : QS) (hr : Qf.Returns cfg.hv cfg.hc op W c0 (.sat q)) (pr : ℚ → LF) (hp : Represents pr)
    (nm : Tm → Option (List Char)) (hN : Named s st nm) (hD : Distinct s nm) (vs : List (Tm × Var))
    (hv : vs.Perm (PrintModel.varMap s st)) :
    ∃ text defs, PrintModel.getModel pr nm s q.s.t vs [] = some text ∧ readModel text = some defs ∧
      (∃ I, ∀ d ∈ defs, d.Meets s nm I) ∧ ∀ I, (∀ d ∈ defs, d.Meets s nm I) → Holds I s as := by
  have hI := (check_mirror hs hb hc).2
  have hK := check_keys hc
  obtain ⟨d1, d2⟩ := Qf.sat_defined h hW hr
  rw [hst, hI.num] at d1
  rw [hrt] at d2
  obtain ⟨text, defs, k1, k2, k3, k4, _⟩ := PrintModel.shown_consts (nm := nm) hp hs.wf happ hI hK hN d1 d2 hv
  exact ⟨text, defs, k1, k2, ⟨_, k4 hD⟩, fun I hm => C61_sat hs hb hc op W P c0 h hst hW q hr I (k3 I hm)⟩

/-! ### Examples -/

namespace C69Example

open UflExample UfExample

/-- Names of the terms 6, 8 and 10 of the example; `x` is the name of the first constant. -/
def names (x : String) (t : Tm) : Option (List Char) :=
  if t = ⟨6⟩ then some "f".toList else if t = ⟨8⟩ then some x.toList else if t = ⟨10⟩ then some "y".toList else none

/-- The response after the answer `sat`. -/
def response (x : String) : Option (List Char) :=
  match whole (env (tA 0) [⟨23⟩]) actsSat with
  | some (_, _, .sat r) =>
    PrintModel.getModel LF.ofString (names x) (tA 0) r.q.la.trail (PrintModel.varMap (tA 0) (conv (tA 0) [⟨23⟩]))
      (PrintModel.tables r.f.fns [⟨6⟩])
  | _ => none

theorem plain_check {o : Option (List Char)} (h : (o.any fun n => !n.isEmpty && n.all fun c => !isDelim c) = true) :
    ∃ n, o = some n ∧ Plain n := by
  cases o with
  | none => cases h
  | some n =>
    simp only [Option.any_some, Bool.and_eq_true, Bool.not_eq_true', List.all_eq_true] at h
    exact ⟨n, rfl, by simpa using h.1, h.2⟩

theorem named (x : String) (h : (x.toList.isEmpty || x.toList.any isDelim) = false) :
    Named (tA 0) (conv (tA 0) [⟨23⟩]) (names x) := by
  have h8 : ∃ n, names x ⟨8⟩ = some n ∧ Plain n := by
    refine ⟨x.toList, rfl, ?_, ?_⟩
    · intro e; rw [e] at h; cases h
    · intro c hc
      simp only [Bool.or_eq_false_iff, List.any_eq_false] at h
      simpa using h.2 c hc
  have h10 : ∃ n, names x ⟨10⟩ = some n ∧ Plain n := plain_check (o := some "y".toList) (by decide)
  have h6 : ∃ n, names x ⟨6⟩ = some n ∧ Plain n := plain_check (o := some "f".toList) (by decide)
  refine ⟨?_, ?_, ?_⟩
  · have : ∀ p ∈ (conv (tA 0) [⟨23⟩]).boolVars, (tA 0).kind p.1 ≠ .uninterpreted := by decide +kernel
    exact fun p hp hk => absurd hk (this p hp)
  · have : ∀ p ∈ (conv (tA 0) [⟨23⟩]).ratVars, (tA 0).kind p.1 = .uninterpreted → p.1 = ⟨8⟩ ∨ p.1 = ⟨10⟩ := by decide +kernel
    intro p hp hk
    rcases this p hp hk with e | e <;> rw [e]
    · exact h8
    · exact h10
  · have : ∀ p ∈ (conv (tA 0) [⟨23⟩]).apps, (tA 0).fncSymbol p.2 = ⟨6⟩ := by decide +kernel
    intro p hp
    rw [this p hp]
    exact h6

theorem distinct : Distinct (tA 0) (names "x") := by
  intro t t' n _ _ _ _ h1 h2
  unfold names at h1 h2
  have key : n = "f".toList ∧ t = ⟨6⟩ ∨ n = "x".toList ∧ t = ⟨8⟩ ∨ n = "y".toList ∧ t = ⟨10⟩ := by
    split_ifs at h1 with k1 k2 k3
    · exact .inl ⟨(Option.some.inj h1).symm, k1⟩
    · exact .inr (.inl ⟨(Option.some.inj h1).symm, k2⟩)
    · exact .inr (.inr ⟨(Option.some.inj h1).symm, k3⟩)
  have key' : n = "f".toList ∧ t' = ⟨6⟩ ∨ n = "x".toList ∧ t' = ⟨8⟩ ∨ n = "y".toList ∧ t' = ⟨10⟩ := by
    split_ifs at h2 with k1 k2 k3
    · exact .inl ⟨(Option.some.inj h2).symm, k1⟩
    · exact .inr (.inl ⟨(Option.some.inj h2).symm, k2⟩)
    · exact .inr (.inr ⟨(Option.some.inj h2).symm, k3⟩)
  rcases key with ⟨a, b⟩ | ⟨a, b⟩ | ⟨a, b⟩ <;> rcases key' with ⟨a', b'⟩ | ⟨a', b'⟩ | ⟨a', b'⟩ <;>
    first
    | exact absurd (a.symm.trans a') (by decide)
    | exact b.trans b'.symm

theorem arity : SameArity (tA 0) := by
  have key : ∀ i, i < (tA 0).terms.length → (tA 0).kind (Tm.positive i) = .app → ((tA 0).args (Tm.positive i)).length = 1 := by
    decide +kernel
  have h1 : ∀ t, (tA 0).kind t = .app → ((tA 0).args t).length = 1 := by
    intro t ht
    by_cases hi : (tA 0).terms.length ≤ t.index
    · rw [kind_beyond _ hi] at ht; cases ht
    · rw [args_mod]; exact key t.index (by omega) (by rwa [kind_mod] at ht)
  refine ⟨fun t ht e => ?_, fun t t' ht ht' _ => by rw [h1 t ht, h1 t' ht']⟩
  have := h1 t ht
  rw [e] at this
  cases this

end C69Example

open C69Example UflExample

/-- The response for the assertion `(< (f x) (f y))`. -/
example : (response "x").map String.ofList = some
    ("((define-fun x () Real 0)\n(define-fun y () Real 1)\n(define-fun f ((x0 Real)) Real\n" ++
      "  (ite (= x0 1) 1\n       0 ))\n)\n") := by
  decide +kernel

/-- The hypotheses of `C69_uflra_partial` hold for the assertion `(< (f x) (f y))`. -/
example : ∃ (r : US), response "x" = PrintModel.getModel LF.ofString (names "x") (tA 0) r.q.la.trail
      (PrintModel.varMap (tA 0) (conv (tA 0) [⟨23⟩])) (PrintModel.tables r.f.fns [⟨6⟩]) ∧
    ∃ text defs, response "x" = some text ∧ readModel text = some defs ∧
      (∃ I, ∀ d ∈ defs, d.Meets (tA 0) (names "x") I) ∧
      ∀ I, (∀ d ∈ defs, d.Meets (tA 0) (names "x") I) → Holds I (tA 0) [⟨23⟩] := by
  have h := whole_sat
  have hf : ((whole (env (tA 0) [⟨23⟩]) actsSat).map fun r => match r.2.2 with
    | .sat x => decide (∀ e ∈ x.f.fns, e.fn = ⟨6⟩)
    | _ => false) = some true := by decide +kernel
  unfold response
  cases hw : whole (env (tA 0) [⟨23⟩]) actsSat with
  | none => rw [hw] at h; cases h
  | some r =>
    obtain ⟨c0, P, out⟩ := r
    rw [hw] at h hf
    obtain ⟨h1, h2⟩ := whole_sound hw
    cases out with
    | run c => cases h
    | unsat => cases h
    | sat x =>
      refine ⟨x, rfl, C69_uflra_partial (env (tA 0) [⟨23⟩]) tA_reach tA_supported tA_realFns tA_oneVar
        (by unfold IsBool; decide +kernel) conv_sat _ P c0 h1 (fun c _ => Ufl.anyOrder_ok c) x h2 _
        LF.ofString_canonical _ arity (named "x" (by decide)) distinct _ (List.Perm.refl _) [⟨6⟩] ?_ ?_⟩
      · have : ∀ e ∈ x.f.fns, e.fn = ⟨6⟩ := by simpa using hf
        exact fun e he => by rw [this e he]; simp
      · intro f hf
        rw [List.mem_singleton.mp hf]
        decide +kernel

namespace C69Example

/-- Names of the terms 6 and 8 of the example in `C61`. -/
def names' (t : Tm) : Option (List Char) :=
  if t = ⟨6⟩ then some "b".toList else if t = ⟨8⟩ then some "x".toList else none

/-- The response after the answer `sat`. -/
def response' : Option (List Char) :=
  match C61Example.whole [⟨14⟩, ⟨12⟩] with
  | some (st, _, _, .sat q) =>
    PrintModel.getModel LF.ofString names' (C61Example.tb 0) q.s.t (PrintModel.varMap (C61Example.tb 0) st) []
  | _ => none

/-- What has to be checked for the example. -/
def fine (st : IState) : Bool :=
  (st.boolVars.all fun p => decide ((C61Example.tb 0).kind p.1 = .uninterpreted → p.1 = ⟨6⟩)) &&
  (st.ratVars.all fun p => decide ((C61Example.tb 0).kind p.1 = .uninterpreted → p.1 = ⟨8⟩)) && st.apps.isEmpty

theorem whole_fine : ((C61Example.whole [⟨14⟩, ⟨12⟩]).map fun r =>
    fine r.1 && decide (r.2.1.q.la.trail.rats.num = r.1.numRat)) = some true := by decide +kernel

theorem named' {st : IState} (h : fine st = true) : Named (C61Example.tb 0) st names' := by
  simp only [fine, Bool.and_eq_true, List.all_eq_true, decide_eq_true_eq, List.isEmpty_iff] at h
  refine ⟨fun p hp hk => ?_, fun p hp hk => ?_, by rw [h.2]; simp⟩
  · rw [h.1.1 p hp hk]; exact plain_check (o := some "b".toList) (by decide)
  · rw [h.1.2 p hp hk]; exact plain_check (o := some "x".toList) (by decide)

theorem distinct' : Distinct (C61Example.tb 0) names' := by
  intro t t' n _ _ _ _ h1 h2
  unfold names' at h1 h2
  split_ifs at h1 with k1 k2 <;> split_ifs at h2 with k3 k4
  · rw [k1, k3]
  · exact absurd ((Option.some.inj h1).trans (Option.some.inj h2).symm) (by decide)
  · exact absurd ((Option.some.inj h1).trans (Option.some.inj h2).symm) (by decide)
  · rw [k2, k4]

end C69Example

/-- The response for the assertions of `C61`. -/
example : response'.map String.ofList = some "((define-fun b () Bool true)\n(define-fun x () Real 0)\n)\n" := by
  decide +kernel

/-- The hypotheses of `C69_lra_partial` hold for the assertions of `C61`. -/
example : ∃ text defs, response' = some text ∧ readModel text = some defs ∧
      (∃ I, ∀ d ∈ defs, d.Meets (C61Example.tb 0) names' I) ∧
      ∀ I, (∀ d ∈ defs, d.Meets (C61Example.tb 0) names' I) → Holds I (C61Example.tb 0) [⟨14⟩, ⟨12⟩] := by
  have h := C61Example.whole_sat
  have hf := whole_fine
  unfold response'
  cases hw : C61Example.whole [⟨14⟩, ⟨12⟩] with
  | none => rw [hw] at h; cases h
  | some r =>
    obtain ⟨st, c0, P, out⟩ := r
    rw [hw] at h hf
    obtain ⟨h1, h2, h3, h4⟩ := C61Example.whole_sound hw
    have hr := Qf.checkRun_sound _ _ _ h4 c0 .refl
    simp only [Option.map_some, Option.some.injEq, Bool.and_eq_true, decide_eq_true_eq] at hf
    cases out with
    | unsat => cases h
    | sat q =>
      exact C69_lra_partial C61Example.tb_reach (by unfold IsBool; decide +kernel) h1 C61Example.tb_no_app Qf.exOpts
        Qf.anyOrder P c0 h2 h3 hf.2 (fun c _ => Qf.anyOrder_ok c) q hr _ LF.ofString_canonical _ (named' hf.1) distinct'
        _ (List.Perm.refl _)
    | run c => cases h

/-- C69, quoted names: the constant `|a b|` has the name `a b` (the lexer removes the bars,
src/parser/Smt2_term_parser.cpp:226-234). The response for the assertion `(< (f |a b|) (f y))` is printed without bars and cannot
be read as a list of definitions. -/
theorem C69_quoted : ∃ text, response "a b" = some text ∧ readModel text = none := by
  have h : (response "a b").map (fun t => (readModel t).isNone) = some true := by decide +kernel
  cases hr : response "a b" with
  | none => rw [hr] at h; cases h
  | some t =>
    rw [hr] at h
    exact ⟨t, rfl, by simpa using h⟩

/-- `C69_number` for a negative number that is not an integer. -/
example : (LF.word (-5) 3).print = "(/ (- 5) 3)".toList ∧
    ∃ e, readText (LF.word (-5) 3).print = some [e] ∧ e.value [] = some (.q (-5 / 3)) := by
  refine ⟨by decide, ?_⟩
  have h := C69_number (a := LF.word (-5) 3) ⟨.inl rfl, fun _ => ⟨by unfold Fits; decide, by unfold Lowest; decide⟩, by rintro ⟨⟩, by rintro _ ⟨⟩, by rintro ⟨⟩⟩
  simpa [fval, LF.word] using h

#print axioms C69_number
#print axioms C69_uflra_partial
#print axioms C69_lra_partial
#print axioms C69_quoted

end Yaga
