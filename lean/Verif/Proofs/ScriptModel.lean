/-
Definitions that describe the interpretations of a term table in terms of the structures for a script.
-/
import Verif.Proofs.ScriptNames
import Verif.Proofs.PrintShown
import Verif.Spec.ScriptModel
import Verif.Model.Response

namespace Yaga

open Spec TermTable PrintModel

variable {H : TermHash} {is : List Item} {c : FE}

/-- The name of a term. -/
theorem termName_some (hK : Known (Spec.sigOf is) c.st) {t : Tm} (hk : c.st.table.kind t = .uninterpreted)
    {n : List Char} (h : c.st.termName t = some n) : assoc c.st.names (String.ofList n) = some t := by
  unfold Names.termName at h
  split at h
  · rename_i p hp
    have h1 := List.mem_of_find?_eq_some hp
    have h2 : p.2 = t := by simpa using List.find?_some hp
    cases h
    rw [String.ofList_toList, ← h2]
    exact hK.keys p h1
  · rw [if_neg (by rw [hk]; nofun)] at h; cases h

theorem termName_of (h : SRel H is c) (hK : Known (Spec.sigOf is) c.st) {t : Tm} {n : String}
    (ht : assoc c.st.names n = some t) : c.st.termName t = some n.toList := by
  unfold Names.termName
  cases hp : c.st.names.find? fun p => decide (p.2 = t) with
  | none =>
    have := List.find?_eq_none.mp hp _ (assoc_mem ht)
    simp at this
  | some p =>
    have h1 := hK.keys p (List.mem_of_find?_eq_some hp)
    have h2 : p.2 = t := by simpa using List.find?_some hp
    have := h.inj p.1 n p.2 t h1 ht (by rw [h2])
    subst this
    rfl

theorem known_named (hK : Known (Spec.sigOf is) c.st) {t : Tm} (hk : c.st.table.kind t = .uninterpreted)
    (hn : t.isNeg = false) : ∃ n, assoc c.st.names n = some t := by
  obtain ⟨e, he, hek⟩ := entry_of_kind (s := c.st.table) (t := t) (by rw [hk]; nofun)
  obtain ⟨n, h⟩ := hK.named t.index e he (hek.trans hk)
  exact ⟨n, by rw [h, ← Tm.eq_positive hn]⟩

theorem distinct_names (hK : Known (Spec.sigOf is) c.st) : Distinct c.st.table c.st.termName := by
  intro t t' n hk hk' _ _ h1 h2
  exact Option.some.inj ((termName_some hK hk h1).symm.trans (termName_some hK hk' h2))

/-- An application in the table. -/
theorem known_app (hK : Known (Spec.sigOf is) c.st) {t : Tm} (hk : c.st.table.kind t = .app) :
    ∃ n as r, innermost (Spec.sigOf is) n = some (as, r) ∧ as ≠ [] ∧ assoc c.st.names n = some (c.st.table.fncSymbol t) ∧
      c.st.table.type t = r.ty ∧ HasSrts c.st.table (c.st.table.args t) as := by
  obtain ⟨e, he, hek⟩ := entry_of_kind (s := c.st.table) (t := t) (by rw [hk]; nofun)
  obtain ⟨n, as, r, f, args, g1, g2, g3, rfl, g5⟩ := hK.apps e (List.mem_of_getElem? he) (hek.trans hk)
  have ha : c.st.table.allArgs t = f :: args := by
    unfold allArgs
    rw [descr_of_entry he]
  refine ⟨n, as, r, g1, g2, ?_, type_of_entry he, ?_⟩
  · unfold fncSymbol; rw [ha]; exact g3
  · unfold TermTable.args; rw [if_pos hk, ha]; exact g5

theorem known_arity (h : SRel H is c) (hK : Known (Spec.sigOf is) c.st) : SameArity c.st.table := by
  constructor
  · intro t hk he
    obtain ⟨n, as, r, _, hne, _, _, h⟩ := known_app hK hk
    rw [he] at h
    cases h
    exact hne rfl
  · intro t t' hk hk' hf
    obtain ⟨n, as, r, h1, _, h2, _, h3⟩ := known_app hK hk
    obtain ⟨n', as', r', h1', _, h2', _, h3'⟩ := known_app hK hk'
    obtain rfl := h.inj n n' _ _ h2 h2' (by rw [hf])
    rw [h1] at h1'
    cases h1'
    rw [h3.length_eq, h3'.length_eq]

theorem plain_valid {n : List Char} (h : (Lexeme.symbol n).Valid) : Plain n := by
  obtain ⟨⟨h1, c, cs, rfl, _⟩, _⟩ := h
  refine ⟨by simp, fun x hx => ?_⟩
  have hx := h1 x hx
  cases hd : isDelim x with
  | false => rfl
  | true =>
    unfold isDelim isSpace at hd
    simp only [Bool.or_eq_true, beq_iff_eq] at hd
    rcases hd with (rfl | rfl) | ((rfl | rfl) | rfl) | rfl <;> exact absurd hx (by decide)

/-- The symbols of the script that the conversion knows have names. -/
theorem named_script {uf : Bool} (hw : wellFormed [] is) (hc : (FE.init H).items H uf is = some c)
    (hn : plainNames is) (h : SRel H is c) (hK : Known (Spec.sigOf is) c.st) {st : IState} (hI : IInv c.st.table st)
    (hY : Keys c.st.table st)
    (ha : ∀ p ∈ st.apps, c.st.table.kind p.2 = .app) : Named c.st.table st c.st.termName := by
  have key : ∀ t, c.st.table.kind t = .uninterpreted → t.isNeg = false →
      ∃ n, c.st.termName t = some n ∧ Plain n := by
    intro t hk hp
    obtain ⟨n, ht⟩ := known_named hK hk hp
    refine ⟨_, termName_of h hK ht, plain_valid ?_⟩
    rcases declared_name (is := []) (srel_init H) hw hc ht with h1 | ⟨as, r, h1⟩
    · cases h1
    · exact hn n as r h1
  refine ⟨fun p hp hk => key _ hk (hY.pos p hp hk), fun p hp hk => key _ hk (hI.rat p hp).1.2, fun p hp => ?_⟩
  obtain ⟨k1, k2⟩ := fncSymbol_kind h.nrel.reach.wf (ha p hp)
  exact key _ k1 k2

theorem has_bool {v : Spec.Val} (h : v.has .bool = true) : v = .b v.bool := by
  cases v
  · rfl
  · cases h

theorem has_real {v : Spec.Val} (h : v.has .real = true) : v = .q v.num := by
  cases v
  · cases h
  · rfl

/-- The constant or function of a definition. -/
theorem origin_symbol (h : SRel H is c) (hK : Known (Spec.sigOf is) c.st) (hF : RealFns c.st.table) {d : Def}
    (ho : Origin c.st.table c.st.termName d) :
    ∃ t as r, assoc c.st.names (String.ofList d.name) = some t ∧
      innermost (Spec.sigOf is) (String.ofList d.name) = some (as, r) ∧ c.st.table.kind t = .uninterpreted ∧
      t.isNeg = false ∧ HasSrt c.st.table t r ∧ (r = .bool ∧ d.sort = .bool ∨ r = .real ∧ d.sort = .real) ∧
      (d.params = [] ∨ d.params ≠ [] ∧ as ≠ [] ∧ as = d.params.map fun _ => Srt.real) := by
  rcases ho with ⟨t, h1, h2, h3, h4, h5⟩ | ⟨t, h1, h2, h3, h4⟩
  · have ht := termName_some hK h1 h3
    obtain ⟨as, r, g1, _, _, _, g5⟩ := h.decl _ _ ht
    refine ⟨t, as, r, ht, g1, h1, h2, g5, ?_, .inl h4⟩
    have hne : ¬ (IsBool c.st.table t ∧ IsReal c.st.table t) := by
      rintro ⟨a, b⟩
      have := a.symm.trans b.1
      cases this
    rcases h5 with ⟨a, b⟩ | ⟨a, b⟩ <;> cases r
    · exact .inl ⟨rfl, a⟩
    · exact absurd ⟨b, g5⟩ hne
    · exact absurd ⟨g5, b⟩ hne
    · exact .inr ⟨rfl, a⟩
  · obtain ⟨n, as, r, g1, g2, g3, g4, g5⟩ := known_app hK h1
    obtain ⟨k1, k2⟩ := fncSymbol_kind h.nrel.reach.wf h1
    have ht := termName_some hK k1 h2
    obtain rfl := h.inj n _ _ _ g3 ht rfl
    obtain ⟨as', r', l1, _, _, _, l5⟩ := h.decl _ _ ht
    rw [g1] at l1
    cases l1
    obtain ⟨f1, f2⟩ := hF t h1
    have hr : r = .real := by
      rw [f1] at g4
      cases r
      · cases g4
      · rfl
    have has : as = List.replicate (c.st.table.args t).length .real := by
      refine List.eq_replicate_iff.mpr ⟨g5.length_eq.symm, fun a ha => ?_⟩
      obtain ⟨x, hx, hs⟩ := forall₂_mem_right g5 ha
      cases a
      · have : IsBool c.st.table x := hs
        unfold IsBool at this
        rw [f2 x hx] at this
        cases this
      · rfl
    have hl := congrArg List.length h3
    rw [List.length_map, List.length_replicate] at hl
    refine ⟨_, as, r, ht, g1, k1, k2, l5, .inr ⟨hr, h4⟩, .inr ⟨?_, g2, ?_⟩⟩
    · intro he
      rw [he] at hl
      rw [← hl] at has
      exact g2 has
    · rw [has, List.map_const', hl]

/-- A structure that agrees with definitions gives an interpretation that meets them. -/
theorem meets_of_describes (h : SRel H is c) (hK : Known (Spec.sigOf is) c.st) (hF : RealFns c.st.table) {M : Struct}
    (hM : M.For is) : ∃ I, AgreeM (Spec.sigOf is) c.st I M ∧
      ∀ d : Def, Origin c.st.table c.st.termName d → d.Describes M → d.Meets c.st.table c.st.termName I := by
  obtain ⟨I, hB⟩ := h.toBase M
  refine ⟨I, h.agree I M hM.1 hM.2 hB, fun d ho hd => ?_⟩
  obtain ⟨t0, as, r, g1, g2, g3, g4, g5, g6, g7⟩ := origin_symbol h hK hF ho
  intro t hk hn ht
  obtain rfl := Option.some.inj (g1.symm.trans (termName_some hK hk ht))
  obtain ⟨b1, b2, b3, b4⟩ := hB _ _ g1
  by_cases hp : d.params = []
  · rw [if_pos hp]
    have hg := hd [] (by rw [hp]; rfl) (by simp)
    have hv := hg.2.2.1
    rw [den_const h.nrel.reach.wf g5 g3 g4]
    rcases g6 with ⟨rfl, e⟩ | ⟨rfl, e⟩ <;> rw [e] at hv
    · rw [has_bool hv, ← b1] at hg; exact hg
    · rw [has_real hv, ← b2] at hg; exact hg
  · rw [if_neg hp]
    intro args ha hs
    have hg := hd args ha hs
    have hv := hg.2.2.1
    rcases g6 with ⟨rfl, e⟩ | ⟨rfl, e⟩ <;> rw [e] at hv ⊢
    · rw [has_bool hv, ← b3] at hg; exact hg
    · rw [has_real hv, ← b4] at hg; exact hg

theorem args_srt : ∀ {args : List Spec.Val} {ps : List (List Char × Sort')}, args.length = ps.length →
    (∀ p ∈ args.zip ps, p.1.has p.2.2 = true) → (∀ p ∈ ps, p.2 = .real) →
    args.map Val.srt = ps.map fun _ => Srt.real
  | [], [], _, _, _ => rfl
  | a :: as, p :: ps, hl, h, hr => by
    have h1 := h (a, p) List.mem_cons_self
    rw [hr p List.mem_cons_self] at h1
    rw [List.map_cons, List.map_cons, args_srt (Nat.succ.inj hl)
      (fun x hx => h x (List.mem_cons_of_mem _ hx)) fun x hx => hr x (List.mem_cons_of_mem _ hx)]
    cases a
    · cases h1
    · rfl

/-- An interpretation that meets definitions gives a structure that agrees with them. -/
theorem describes_of_meets (h : SRel H is c) (hK : Known (Spec.sigOf is) c.st) (hF : RealFns c.st.table) (I : Interp) :
    ∃ M : Struct, M.For is ∧ ∀ d : Def, Origin c.st.table c.st.termName d →
      d.Meets c.st.table c.st.termName I → d.Describes M := by
  obtain ⟨M, hM, hA, hc⟩ := h.toStructC I
  refine ⟨M, hM, fun d ho hd args ha hs => ?_⟩
  obtain ⟨t, as, r, g1, g2, g3, g4, g5, g6, g7⟩ := origin_symbol h hK hF ho
  have hm := hd t g3 g4 (by rw [termName_of h hK g1, String.toList_ofList])
  by_cases hp : d.params = []
  · rw [if_pos hp] at hm
    have : args = [] := by
      rw [hp] at ha
      exact List.length_eq_zero_iff.mp ha
    subst this
    rw [hc _ _ g1]
    exact hm
  · rw [if_neg hp] at hm
    obtain ⟨_, hne, has⟩ := g7.resolve_left hp
    have hreal : ∀ p ∈ d.params, p.2 = .real := by
      rcases ho with ⟨_, _, _, _, h4, _⟩ | ⟨_, _, _, h3, _⟩
      · exact absurd h4 hp
      · intro p hp'
        have := List.mem_map_of_mem (f := (·.2)) hp'
        rw [h3] at this
        exact List.eq_of_mem_replicate this
    have hv := hm args ha hs
    rw [hA.fn _ as r t args g2 hne g1 (by rw [has]; exact args_srt ha hs hreal)]
    unfold fnVal
    unfold fnValue at hv
    rcases g6 with ⟨rfl, e⟩ | ⟨rfl, e⟩ <;> rw [e] at hv <;> exact hv

/-- Definitions that describe models of the term table describe models of the script. -/
theorem modelsOf (h : SRel H is c) (hK : Known (Spec.sigOf is) c.st) (hF : RealFns c.st.table) {defs : List Def}
    (ho : ∀ d ∈ defs, Origin c.st.table c.st.termName d)
    (h1 : ∃ I, ∀ d ∈ defs, d.Meets c.st.table c.st.termName I)
    (h2 : ∀ I, (∀ d ∈ defs, d.Meets c.st.table c.st.termName I) → Holds I c.st.table c.assertions) :
    ModelsOf is defs := by
  constructor
  · obtain ⟨I, hI⟩ := h1
    obtain ⟨M, hM, hd⟩ := describes_of_meets h hK hF I
    exact ⟨M, hM, fun d hm => hd d (ho d hm) (hI d hm)⟩
  · intro M hM hd e he
    obtain ⟨I, hA, hm⟩ := meets_of_describes h hK hF hM
    have hh := (holds_iff h I).mp (h2 I fun d hdm => hm d (ho d hdm) (hd d hdm))
    obtain ⟨t, ht, hte⟩ := forall₂_mem_right (h.vals I M hA) he
    rw [← hte]
    exact hh t ht

end Yaga
