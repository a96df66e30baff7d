/-
The constants, functions and applications of the term table of a script are those of the script.
-/
import Verif.Proofs.Stays
import Verif.Proofs.FirstCheck
import Verif.Proofs.Fragment

set_option linter.unusedSectionVars false

namespace Yaga

open Spec TermTable

variable {H : TermHash}

/-- The sort of an application in a signature, Spec/SmtLib.lean. -/
def appSort (Γ : Sig) (f : String) (ss : List Srt) : Option Srt :=
  match theoryOp f with
  | some o => o.sort ss
  | none =>
    match innermost Γ f with
    | some r => if r.1 = ss ∧ ss ≠ [] then some r.2 else none
    | none => none

section

variable {Γ : Sig} {Q : Names → Prop}
  (hlit : ∀ s c, NRel H Γ s → Q s → Q { s with table := (s.table.arithConstant H c).1 })
  (happ : ∀ s f args ss r q, NRel H Γ s → HasSrts s.table args ss → appSort Γ f ss = some r →
    Names.resolve H s f args = some q → Q s → Q q.1)

include hlit happ

mutual
/-- A property of the tables that literals and applications keep is kept when the term of an expression is made. -/
theorem eval_keeps : ∀ (e : Expr) {s : Names} (_ : NRel H Γ s)
    {env : List (String × Tm)} {srts : List (String × Srt)} (_ : EnvRel s.table env srts) {r : Srt}
    (_ : e.sort Γ srts = some r) (_ : e.fair = true) (_ : Q s) {q : Names × Tm}
    (_ : e.eval (Names.backend H) env s = some q), Q q.1
  | .sym n, s, h, env, srts, he, r, hs, _, hQ, q, hq => by
    unfold Expr.eval at hq
    by_cases h1 : n = "true"
    · rw [if_pos h1] at hq; cases hq; exact hQ
    rw [if_neg h1] at hq
    by_cases h2 : n = "false"
    · rw [if_pos h2] at hq; cases hq; exact hQ
    rw [if_neg h2] at hq
    obtain ⟨t, _, rfl⟩ := map_some hq
    exact hQ
  | .num n, s, h, env, srts, he, r, hs, _, hQ, q, hq => by
    unfold Expr.eval at hq
    obtain ⟨c, _, rfl⟩ := map_some hq
    exact hlit s _ h hQ
  | .dec n, s, h, env, srts, he, r, hs, _, hQ, q, hq => by
    unfold Expr.eval at hq
    obtain ⟨c, _, rfl⟩ := map_some hq
    exact hlit s _ h hQ
  | .app f args, s, h, env, srts, he, r, hs, hf, hQ, q, hq => by
    simp only [Expr.sort] at hs
    obtain ⟨ss, h1, h2⟩ := bind_some hs
    simp only [Expr.fair] at hf
    unfold Expr.eval at hq
    obtain ⟨p, h3, h4⟩ := bind_some hq
    have ha := read_exprs args h he h1 hf h3
    exact happ _ f _ ss r _ (h.grow ha.grow) ha.srt h2 h4 (evals_keeps args h he h1 hf hQ h3)
  | .letE bs body, s, h, env, srts, he, r, hs, hf, hQ, q, hq => by
    simp only [Expr.sort] at hs
    obtain ⟨ss, h1, h2⟩ := bind_some hs
    simp only [Expr.fair, Bool.and_eq_true] at hf
    unfold Expr.eval at hq
    obtain ⟨p, h3, h4⟩ := bind_some hq
    have ha := read_binds bs h he h1 hf.1 h3
    exact eval_keeps body (h.grow ha.grow) (ha.env.append (he.ext ha.grow.ext)) h2 hf.2
      (binds_keeps bs h he h1 hf.1 hQ h3) h4
theorem evals_keeps : ∀ (es : Exprs) {s : Names} (_ : NRel H Γ s)
    {env : List (String × Tm)} {srts : List (String × Srt)} (_ : EnvRel s.table env srts) {ss : List Srt}
    (_ : es.sorts Γ srts = some ss) (_ : es.fair = true) (_ : Q s) {q : Names × List Tm}
    (_ : es.eval (Names.backend H) env s = some q), Q q.1
  | .nil, s, h, env, srts, he, ss, hs, _, hQ, q, hq => by
    unfold Exprs.eval at hq; cases hq; exact hQ
  | .cons e es, s, h, env, srts, he, ss, hs, hf, hQ, q, hq => by
    simp only [Exprs.sorts] at hs
    obtain ⟨r, h1, h2⟩ := bind_some hs
    obtain ⟨rs, h3, rfl⟩ := map_some h2
    simp only [Exprs.fair, Bool.and_eq_true] at hf
    unfold Exprs.eval at hq
    obtain ⟨p, h4, hq1⟩ := bind_some hq
    obtain ⟨p2, h5, rfl⟩ := map_some hq1
    have ha := read_expr e h he h1 hf.1 h4
    exact (evals_keeps es (h.grow ha.grow) (he.ext ha.grow.ext) h3 hf.2 (eval_keeps e h he h1 hf.1 hQ h4) h5 : Q p2.1)
theorem binds_keeps : ∀ (bs : Binds) {s : Names} (_ : NRel H Γ s)
    {env : List (String × Tm)} {srts : List (String × Srt)} (_ : EnvRel s.table env srts)
    {ss : List (String × Srt)} (_ : bs.sorts Γ srts = some ss) (_ : bs.fair = true) (_ : Q s)
    {q : Names × List (String × Tm)} (_ : bs.eval (Names.backend H) env s = some q), Q q.1
  | .nil, s, h, env, srts, he, ss, hs, _, hQ, q, hq => by
    unfold Binds.eval at hq; cases hq; exact hQ
  | .cons n e bs, s, h, env, srts, he, ss, hs, hf, hQ, q, hq => by
    simp only [Binds.sorts] at hs
    obtain ⟨r, h1, h2⟩ := bind_some hs
    obtain ⟨rs, h3, rfl⟩ := map_some h2
    simp only [Binds.fair, Bool.and_eq_true] at hf
    unfold Binds.eval at hq
    obtain ⟨p, h4, hq1⟩ := bind_some hq
    obtain ⟨p2, h5, rfl⟩ := map_some hq1
    have ha := read_expr e h he h1 hf.1.2 h4
    exact (binds_keeps bs (h.grow ha.grow) (he.ext ha.grow.ext) h3 hf.2 (eval_keeps e h he h1 hf.1.2 hQ h4) h5 : Q p2.1)
end

end

/-- The constants and functions of the table have names, and the functions are applied as declared. -/
structure Known (Γ : Sig) (s : Names) : Prop where
  named : ∀ i e, s.table.terms[i]? = some e → e.kind = .uninterpreted → ∃ n, assoc s.names n = some (Tm.positive i)
  apps : ∀ e ∈ s.table.terms, e.kind = .app → ∃ n as r f args, innermost Γ n = some (as, r) ∧ as ≠ [] ∧
    assoc s.names n = some f ∧ e = ⟨.app, r.ty, .comp (f :: args)⟩ ∧ HasSrts s.table args as
  keys : ∀ p ∈ s.names, assoc s.names p.1 = some p.2

/-- The terms of a table are those of another and terms that are no constants, functions or applications. -/
def Adds (l l' : List TEntry) : Prop := ∃ k, l' = l ++ k ∧ ∀ e ∈ k, e.kind ≠ .app ∧ e.kind ≠ .uninterpreted

instance (l : List TEntry) : Closed (Adds l) where
  append := by
    rintro _ e ⟨k, rfl, hk⟩ h1 h2
    refine ⟨k ++ [e], List.append_assoc .., fun x hx => ?_⟩
    rcases List.mem_append.mp hx with hx | hx
    · exact hk x hx
    · rw [List.mem_singleton.mp hx]; exact ⟨h1, h2⟩

theorem adds_refl (s : TermTable) : Stays (Adds s.terms) s := ⟨[], by simp, nofun⟩

theorem Known.adds {Γ : Sig} {s s' : Names} (h : Known Γ s) (hn : s'.names = s.names)
    (ha : Stays (Adds s.table.terms) s'.table) : Known Γ s' := by
  obtain ⟨k, h1, h2⟩ := ha
  have he : Ext s.table s'.table := ⟨k, h1⟩
  refine ⟨?_, ?_, by rw [hn]; exact h.keys⟩
  · intro i e hi hk
    rw [hn]
    rw [h1, List.getElem?_append] at hi
    split at hi
    · exact h.named i e hi hk
    · exact absurd hk (h2 e (List.mem_of_getElem? hi)).2
  · intro e hm hk
    rw [h1] at hm
    rw [hn]
    rcases List.mem_append.mp hm with hm | hm
    · obtain ⟨n, as, r, f, args, g1, g2, g3, g4, g5⟩ := h.apps e hm hk
      exact ⟨n, as, r, f, args, g1, g2, g3, g4, g5.ext he⟩
    · exact absurd hk (h2 e hm).1

theorem Known.app {Γ : Sig} {s : Names} (h : NRel H Γ s) (hK : Known Γ s) {f : String} {args : List Tm}
    {ss : List Srt} {r : Srt} {q : Names × Tm} (hty : HasSrts s.table args ss) (hs : appSort Γ f ss = some r)
    (hq : Names.resolve H s f args = some q) : Known Γ q.1 := by
  have hE := (read_app h hty hs hq).grow.ext
  unfold appSort at hs
  cases ho : theoryOp f with
  | some o =>
    rw [resolve_theory h ho] at hq
    obtain ⟨p, h1, rfl⟩ := map_some hq
    exact hK.adds rfl ((adds_refl s.table).mkTermOp _ _ p h1)
  | none =>
    rw [ho] at hs
    cases hΓ : innermost Γ f with
    | none => simp [hΓ] at hs
    | some d =>
      obtain ⟨as, r0⟩ := d
      simp only [hΓ] at hs
      obtain ⟨⟨rfl, hne⟩, rfl⟩ := if_some hs
      obtain ⟨h1, h2, t, h3, h4, h5, h6⟩ := h.fn f as r0 hΓ hne
      unfold Names.resolve at hq
      rw [h1, h2] at hq
      simp only [h3, Option.map_some] at hq
      obtain ⟨_, rfl⟩ := if_some hq
      have key : (s.table.mkApp H r0.ty t args).1.terms = s.table.terms ∨
          (s.table.mkApp H r0.ty t args).1.terms = s.table.terms ++ [⟨.app, r0.ty, .comp (t :: args)⟩] := by
        unfold mkApp appTerm composite TermTable.get
        split
        · exact Or.inl rfl
        · exact Or.inr rfl
      rcases key with hk | hk
      · refine hK.adds rfl ⟨[], by simp [hk], nofun⟩
      · refine ⟨?_, ?_, hK.keys⟩
        · intro i e hi hke
          rw [hk, List.getElem?_append] at hi
          split at hi
          · exact hK.named i e hi hke
          · have := List.mem_of_getElem? hi
            rw [List.mem_singleton.mp this] at hke
            cases hke
        · intro e hm hke
          rw [hk] at hm
          rcases List.mem_append.mp hm with hm | hm
          · obtain ⟨n, as', r, f, args, g1, g2, g3, g4, g5⟩ := hK.apps e hm hke
            exact ⟨n, as', r, f, args, g1, g2, g3, g4, g5.ext hE⟩
          · rw [List.mem_singleton.mp hm]
            exact ⟨f, as, r0, t, args, hΓ, hne, h3, rfl, hty.ext hE⟩

theorem known_expr {Γ : Sig} (e : Expr) {s : Names} (h : NRel H Γ s) {r : Srt} (hs : e.sort Γ [] = some r)
    (hf : e.fair = true) (hK : Known Γ s) {q : Names × Tm} (hq : e.eval (Names.backend H) [] s = some q) :
    Known Γ q.1 :=
  eval_keeps (Q := Known Γ)
    (fun s c _ hK => hK.adds rfl ((adds_refl s.table).arithConstant c))
    (fun _ _ _ _ _ _ h hty hs hq hK => hK.app h hty hs hq) e h (envRel_nil _) hs hf hK hq

theorem init_terms (e : TEntry) (he : e ∈ (TermTable.init H).terms) : e.kind ≠ .app ∧ e.kind ≠ .uninterpreted := by
  have h1 : Stays (Adds [⟨.reserved, .null, .none⟩])
      (TermTable.constantTerm H ⟨[⟨.reserved, .null, .none⟩], []⟩ .bool 0).1 :=
    Stays.get (adds_refl _) ⟨nofun, nofun⟩
  obtain ⟨k, h2, h3⟩ : Adds [⟨.reserved, .null, .none⟩] (TermTable.init H).terms := h1.arithConstant 0
  rw [h2] at he
  rcases List.mem_append.mp he with he | he
  · rw [List.mem_singleton.mp he]; exact ⟨nofun, nofun⟩
  · exact h3 e he

theorem known_init : Known [] (Names.init H) where
  named _ e hi hk := absurd hk (init_terms e (List.mem_of_getElem? hi)).2
  apps e he hk := absurd hk (init_terms e he).1
  keys := nofun

theorem Known.declare {Γ : Sig} {s s' : Names} {n : String} {as : List Srt} {r : Srt} {t : Tm} (hK : Known Γ s)
    (hf : Γ.fresh n) (h : NRel H Γ s) (hD : Declared H s s' n as r t)
    (ht : s'.table = (s.table.fresh r.ty).1) : Known ((n, as, r) :: Γ) s' := by
  have hold : ∀ m t', assoc s.names m = some t' → m ≠ n := by
    rintro m t' hm rfl
    rw [(h.other m hf.1).2.2] at hm
    cases hm
  have hterms : s'.table.terms = s.table.terms ++ [⟨.uninterpreted, r.ty, .none⟩] := by rw [ht]; rfl
  refine ⟨?_, ?_, ?_⟩
  · intro i e hi hk
    rw [hterms, List.getElem?_append] at hi
    split at hi
    · obtain ⟨m, hm⟩ := hK.named i e hi hk
      exact ⟨m, by rw [hD.name_ne (hold m _ hm)]; exact hm⟩
    · rename_i hlt
      have hlen := (List.getElem?_eq_some_iff.mp hi).1
      simp only [List.length_singleton] at hlen
      refine ⟨n, ?_⟩
      rw [hD.name_self, Tm.eq_positive hD.pos, hD.index]
      congr 2
      omega
  · intro e hm hk
    rw [hterms] at hm
    rcases List.mem_append.mp hm with hm | hm
    · obtain ⟨m, as', r', f, args, g1, g2, g3, g4, g5⟩ := hK.apps e hm hk
      have hne := hold m f g3
      exact ⟨m, as', r', f, args, by rw [innermost_cons_ne hne]; exact g1, g2, by rw [hD.name_ne hne]; exact g3, g4,
        g5.ext hD.ext⟩
    · rw [List.mem_singleton.mp hm] at hk; cases hk
  · intro p hp
    rw [hD.names] at hp
    rcases List.mem_cons.mp hp with rfl | hp
    · exact hD.name_self
    · have := hK.keys p hp
      rw [hD.name_ne (hold p.1 _ this)]
      exact this

theorem Known.sig {Γ Γ' : Sig} {s : Names} (hK : Known Γ s)
    (h : ∀ n as r, innermost Γ n = some (as, r) → innermost Γ' n = some (as, r)) : Known Γ' s where
  named := hK.named
  apps e he hk := by
    obtain ⟨n, as, r, f, args, g1, g⟩ := hK.apps e he hk
    exact ⟨n, as, r, f, args, h n as r g1, g⟩
  keys := hK.keys

theorem known_item {uf : Bool} {is : List Item} {c c' : FE} (h : SRel H is c) {i : Item} (hi : i.Ok (Spec.sigOf is))
    (hK : Known (Spec.sigOf is) c.st) (hc : c.item H uf i = some c') : Known (i.sig (Spec.sigOf is)) c'.st := by
  cases i with
  | declare n as r =>
    obtain ⟨s, h3, rfl⟩ := map_some hc
    obtain ⟨t, hD⟩ := declared_of h.nrel.reach h3
    exact hK.declare hi h.nrel hD (declare_table h3)
  | define n r e =>
    obtain ⟨hn, hs, hf⟩ : (Spec.sigOf is).fresh n ∧ e.sort (Spec.sigOf is) [] = some r ∧ e.fair = true := hi
    obtain ⟨q, h3, h4⟩ := bind_some hc
    obtain ⟨_, rfl⟩ := if_some h4
    obtain ⟨r0, h5, rfl⟩ := map_some h3
    obtain ⟨p, h6, h7⟩ := bind_some h5
    obtain ⟨recs, _, h8⟩ := bind_some h7
    obtain ⟨s, h9, rfl⟩ := map_some h8
    have hrep : Rep c.recs.pushFrame ⟨[[]], []⟩ := by
      obtain ⟨r', hr1, hr2⟩ := h.recs.step .push
      obtain rfl := Option.some.inj hr1
      exact hr2
    have hev := (parse_eval hrep h6).1
    have hk := known_expr e h.nrel hs hf hK hev
    have hk' : Known (Spec.sigOf is) s := by
      unfold Names.storeDefined at h9
      split at h9
      · cases h9
      · cases h9; exact ⟨hk.named, hk.apps, hk.keys⟩
    refine hk'.sig fun m as r' hm => ?_
    have hne : m ≠ n := by
      rintro rfl
      rw [hn.1] at hm; cases hm
    show innermost ((n, [], r) :: Spec.sigOf is) m = _
    rw [innermost_cons_ne hne]; exact hm
  | assert e =>
    obtain ⟨hs, hf⟩ : e.sort (Spec.sigOf is) [] = some .bool ∧ e.fair = true := hi
    obtain ⟨q, h3, h4⟩ := bind_some hc
    obtain ⟨_, rfl⟩ := if_some h4
    obtain ⟨r, h5, rfl⟩ := map_some h3
    exact known_expr e h.nrel hs hf hK (parse_eval h.recs h5).1

theorem known_items {uf : Bool} {is js : List Item} {c c' : FE} (h : SRel H is c) (hw : wellFormed (Spec.sigOf is) js)
    (hK : Known (Spec.sigOf is) c.st) (hc : c.items H uf js = some c') : Known (Spec.sigOf (is ++ js)) c'.st := by
  induction js generalizing is c with
  | nil => cases hc; rw [List.append_nil]; exact hK
  | cons i js ih =>
    obtain ⟨c1, h1, h2⟩ := bind_some hc
    have := ih (h.item hw.1 h1) (by rw [sigOf_snoc]; exact hw.2)
      (by rw [sigOf_snoc]; exact known_item h hw.1 hK h1) h2
    rwa [List.append_assoc] at this

theorem known_script {uf : Bool} {is : List Item} (hw : wellFormed [] is) {c : FE}
    (hc : (FE.init H).items H uf is = some c) : Known (Spec.sigOf is) c.st :=
  known_items (is := []) (srel_init H) hw known_init hc

/-- Terms get names only in declarations. -/
theorem declared_name {uf : Bool} {is js : List Item} {c c' : FE} (h : SRel H is c) (hw : wellFormed (Spec.sigOf is) js)
    (hc : c.items H uf js = some c') {n : String} {t : Tm} (hn : assoc c'.st.names n = some t) :
    assoc c.st.names n = some t ∨ ∃ as r, Item.declare n as r ∈ js := by
  induction js generalizing is c with
  | nil => cases hc; exact .inl hn
  | cons i js ih =>
    obtain ⟨c1, h1, h2⟩ := bind_some hc
    rcases ih (h.item hw.1 h1) (by rw [sigOf_snoc]; exact hw.2) h2 with h3 | ⟨as, r, h3⟩
    · cases i with
      | declare m as r =>
        obtain ⟨s, h4, rfl⟩ := map_some h1
        obtain ⟨t', hD⟩ := declared_of h.nrel.reach h4
        by_cases hm : n = m
        · subst hm; exact .inr ⟨as, r, List.mem_cons_self⟩
        · exact .inl (by rw [← hD.name_ne hm]; exact h3)
      | define m r e =>
        obtain ⟨_, hs, hf⟩ : (Spec.sigOf is).fresh m ∧ e.sort (Spec.sigOf is) [] = some r ∧ e.fair = true := hw.1
        obtain ⟨q, h10, h4⟩ := bind_some h1
        obtain ⟨_, rfl⟩ := if_some h4
        obtain ⟨r0, h5, rfl⟩ := map_some h10
        obtain ⟨p, h6, h7⟩ := bind_some h5
        obtain ⟨recs, _, h8⟩ := bind_some h7
        obtain ⟨s, h9, rfl⟩ := map_some h8
        have hg := (read_expr e h.nrel (envRel_nil _) hs hf (parse_eval (rep_push h.recs) h6).1).grow
        left
        rw [← hg.names]
        unfold Names.storeDefined at h9
        split at h9
        · cases h9
        · cases h9; exact h3
      | assert e =>
        obtain ⟨hs, hf⟩ : e.sort (Spec.sigOf is) [] = some .bool ∧ e.fair = true := hw.1
        obtain ⟨q, h10, h4⟩ := bind_some h1
        obtain ⟨_, rfl⟩ := if_some h4
        obtain ⟨r, h5, rfl⟩ := map_some h10
        have hg := (read_expr e h.nrel (envRel_nil _) hs hf (parse_eval h.recs h5).1).grow
        left
        rw [← hg.names]
        exact h3
    · exact .inr ⟨as, r, List.mem_cons_of_mem _ h3⟩

end Yaga
