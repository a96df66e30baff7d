/-
The answers of the solver are right about the script.
-/
import Verif.Model.FirstCheck
import Verif.Proofs.Commands
import Verif.Props.C61
import Verif.Props.C68
import Verif.Props.C71

namespace Yaga

open Spec TermTable

variable {H : TermHash} {S : Type} [LinearOrder S] [ScoreOps S]

theorem wellFormed_cons {Γ : Sig} {i : Item} {is : List Item} (h : wellFormed Γ (i :: is)) :
    i.Ok Γ ∧ wellFormed (i.sig Γ) is := h

/-- Scripts that declare no function with arguments make no applications. -/
theorem flat_items {is js : List Item} {c c' : FE} (h : SRel H is c) (hf : Flat c.st)
    (hj : wellFormed (Spec.sigOf is) js) (hn : ∀ n as r, Item.declare n as r ∈ js → as = [])
    (hc : c.items H true js = some c') : Flat c'.st := by
  induction js generalizing is c with
  | nil => cases hc; exact hf
  | cons i js ih =>
    obtain ⟨c1, h1, h2⟩ := bind_some hc
    obtain ⟨hi, hj'⟩ := wellFormed_cons hj
    refine ih (h.item hi h1) ?_ (by rw [sigOf_snoc]; exact hj')
      (fun n as r hm => hn n as r (List.mem_cons_of_mem _ hm)) h2
    cases i with
    | declare n as r =>
      obtain rfl := hn n as r List.mem_cons_self
      obtain ⟨s, h3, rfl⟩ := map_some h1
      exact flat_declare (s' := s) (args := []) hf h3
    | define n r e =>
      obtain ⟨q, h3, h4⟩ := bind_some h1
      have := flat_define hf h.recs h3
      split at h4
      · cases h4; exact this
      · cases h4
    | assert e =>
      obtain ⟨q, h3, h4⟩ := bind_some h1
      have := flat_assert hf h.recs h3
      split at h4
      · cases h4; exact this
      · cases h4

theorem holds_iff {is : List Item} {c : FE} (h : SRel H is c) (I : Interp) :
    Holds I c.st.table c.assertions ↔ ∀ t ∈ c.assertions, den I c.st.table t = .b true := by
  unfold Holds denB
  constructor
  · intro hh t ht
    rw [h.nrel.reach.wf.den_bool (h.bool t ht)]
    exact congrArg _ (hh t ht)
  · intro hh t ht
    rw [hh t ht]; rfl

/-- The right answers about a script. -/
def Right (is : List Item) (a : SolverAnswer) : Prop :=
  (a = .sat → Satisfiable is) ∧ (a = .unsat → ¬ Satisfiable is)

theorem right_of_holds {is : List Item} (hw : wellFormed [] is) {c : FE}
    (hc : (FE.init H).items H true is = some c) {a : SolverAnswer}
    (h1 : a = .sat → ∃ I, Holds I c.st.table c.assertions)
    (h2 : a = .unsat → ∀ I, ¬ Holds I c.st.table c.assertions) : Right is a := by
  have h : SRel H is c := (srel_init H).items hw hc
  have hq := C71_satisfiable_partial true hw hc
  refine ⟨fun ha => ?_, fun ha => ?_⟩
  · obtain ⟨I, hI⟩ := h1 ha
    exact hq.mpr ⟨I, (holds_iff h I).mp hI⟩
  · rw [hq]
    rintro ⟨I, hI⟩
    exact h2 ha I ((holds_iff h I).mpr hI)

theorem lra_right {is : List Item} (hw : wellFormed [] is) {c : FE} (hc : (FE.init H).items H true is = some c)
    (hn : ∀ n as r, Item.declare n as r ∈ is → as = []) {cfg : ICfg} {op : LaOpts} {a : SolverAnswer}
    (h : LraCheck S cfg op c.st.table c.assertions a) : Right is a := by
  have hs : SRel H is c := (srel_init H).items hw hc
  have hf : Flat c.st := flat_items (srel_init H) flat_init hw hn hc
  have hb := hs.bool
  have hr0 := hs.nrel.reach
  refine right_of_holds hw hc ?_ ?_
  · rintro rfl
    cases h with
    | @sat st P c0 q hck h hst ho hr =>
      obtain ⟨I, _, hI⟩ := C61_model hr0 hb hck (fun t => hf.table.kind_ne t) op _ P c0 h hst
        (fun _ hr => Qf.gv_picks h ho hr) q hr
      exact ⟨I, hI⟩
  · rintro rfl I
    cases h with
    | early hck => exact C44_unsat hr0 hck I
    | @unsat st P c0 hck h hst ho hr =>
      exact C61_unsat hr0 hb hck op _ P c0 h hst (fun _ hr => (Qf.gv_picks h ho hr).1) hr I

theorem ufl_right {is : List Item} (hw : wellFormed [] is) {c : FE} (hc : (FE.init H).items H true is = some c)
    {cfg : ICfg} (hS : Supported cfg c.st.table) (hF : RealFns c.st.table) (h1 : OneVar c.st.table)
    {op : LaOpts} {a : SolverAnswer} (h : UflCheck S cfg op c.st.table c.assertions a) : Right is a := by
  have hs : SRel H is c := (srel_init H).items hw hc
  have hb := hs.bool
  have hr0 := hs.nrel.reach
  refine right_of_holds hw hc ?_ ?_
  · rintro rfl
    cases h with
    | @sat st P c0 x hck h ho hr =>
      exact ⟨_, C68_sat_partial ⟨cfg, c.st.table, st, op⟩ hr0 hS hF h1 hb hck P c0 h ho x hr (fun _ => 0)⟩
  · rintro rfl I
    cases h with
    | early hck => exact C44_unsat hr0 hck I
    | @unsat st P c0 hck h ho hr =>
      exact C68_unsat_partial ⟨cfg, c.st.table, st, op⟩ hr0 hS hF h1 hb hck P c0 h ho hr I

end Yaga
