/-
Scripts of declarations, definitions and assertions (for C71).
-/
import Verif.Proofs.ExprMeaning
import Verif.Proofs.TermParser
import Verif.Proofs.PrintSem

namespace Yaga

open Spec TermTable

variable {H : TermHash}

/-- The interpretation of the constants and functions in the table is the one of the structure. -/
def Base (s : Names) (I : Interp) (M : Struct) : Prop :=
  ∀ n t, assoc s.names n = some t → I.constB t.index = (M n []).bool ∧ I.constQ t.index = (M n []).num ∧
    (∀ vs, I.fnB t.index vs = (M n vs).bool) ∧ ∀ vs, I.fnQ t.index vs = (M n vs).num

/-- The state after a script. -/
structure SRel (H : TermHash) (is : List Item) (c : FE) : Prop where
  nrel : NRel H (sigOf is) c.st
  decl : ∀ n t, assoc c.st.names n = some t → ∃ as r, innermost (sigOf is) n = some (as, r) ∧
    assoc c.st.defs n = none ∧ t.isNeg = false ∧ c.st.table.kind t = .uninterpreted ∧ HasSrt c.st.table t r
  inj : ∀ n m t t', assoc c.st.names n = some t → assoc c.st.names m = some t' → t.index = t'.index → n = m
  agree : ∀ I M, M.Sorted (sigOf is) → M.Defines is → Base c.st I M → AgreeM (sigOf is) c.st I M
  defines : ∀ I M, AgreeM (sigOf is) c.st I M → M.Defines is
  vals : ∀ I M, AgreeM (sigOf is) c.st I M →
    List.Forall₂ (fun t e => den I c.st.table t = e.value M []) c.assertions (asserted is)
  bool : ∀ t ∈ c.assertions, IsBool c.st.table t
  recs : Rep c.recs ⟨[], []⟩

theorem sigOf_snoc (is : List Item) (i : Item) : sigOf (is ++ [i]) = i.sig (sigOf is) := by
  unfold sigOf
  rw [List.foldl_append]
  rfl

theorem asserted_append (is js : List Item) : asserted (is ++ js) = asserted is ++ asserted js := by
  induction is with
  | nil => rfl
  | cons i is ih => cases i <;> simp [asserted, ih]

theorem val_eq_b {v : Spec.Val} (h : v.srt = .bool) : v = .b v.bool := by
  cases v
  · rfl
  · exact absurd h (by simp [Spec.Val.srt])

theorem val_eq_q {v : Spec.Val} (h : v.srt = .real) : v = .q v.num := by
  cases v
  · exact absurd h (by simp [Spec.Val.srt])
  · rfl

/-- The value of a declared constant. -/
theorem den_const {s : TermTable} (h : WF H s) {t : Tm} {r : Srt} (hs : HasSrt s t r) (hk : s.kind t = .uninterpreted)
    (hn : t.isNeg = false) (I : Interp) :
    den I s t = match r with
      | .bool => .b (I.constB t.index)
      | .real => .q (I.constQ t.index) := by
  cases r
  · exact PrintModel.den_bool h hk hs hn I
  · exact PrintModel.den_real h hk hs I

/-- Structures for a longer signature are structures for the shorter one. -/
theorem Sorted.of_cons {Γ : Sig} {n : String} {d : List Srt × Srt} {M : Struct} (hn : innermost Γ n = none)
    (h : M.Sorted ((n, d) :: Γ)) : M.Sorted Γ := by
  intro f as r hf
  refine h f as r ?_
  have : n ≠ f := by rintro rfl; rw [hn] at hf; exact absurd hf (by simp)
  simp [innermost, this, hf]

theorem Defines.of_append {is js : List Item} {M : Struct} (h : M.Defines (is ++ js)) : M.Defines is :=
  fun n r e hm => h n r e (List.mem_append_left _ hm)

theorem srel_init (H : TermHash) : SRel H [] (FE.init H) where
  nrel :=
    { reach := .init
      const := fun _ _ h => absurd h (by simp [sigOf, innermost])
      fn := fun _ _ _ h => absurd h (by simp [sigOf, innermost])
      other := fun _ _ => ⟨rfl, rfl, rfl⟩
      theory := fun _ _ _ => rfl }
  decl _ _ h := absurd h (by simp [FE.init, Names.init, assoc])
  inj _ _ _ _ h := absurd h (by simp [FE.init, Names.init, assoc])
  agree I M _ _ _ := ⟨fun _ _ _ h => absurd h (by simp [sigOf, innermost]),
    fun _ _ _ _ _ h => absurd h (by simp [sigOf, innermost])⟩
  defines _ _ _ _ _ _ h := absurd h (by simp)
  vals _ _ _ := .nil
  bool _ h := absurd h (by simp [FE.init])
  recs := rep_init

/-- A new constant in the table. -/
theorem fresh_facts {s : TermTable} (h : TReach H s) (r : Srt) :
    let q := s.fresh r.ty
    TReach H q.1 ∧ Ext s q.1 ∧ HasSrt q.1 q.2 r ∧ q.1.kind q.2 = .uninterpreted ∧ q.2.isNeg = false ∧
      q.2.index = s.terms.length := by
  have hne : r.ty ≠ .null := by cases r <;> decide
  obtain ⟨h1, h2, h3, h4⟩ := fresh_wf h.wf hne
  refine ⟨.step (op := .fresh r.ty) h hne rfl, h2, ?_, kind_of_entry h3, h4, ?_⟩
  · cases r
    · exact type_of_entry h3
    · exact ⟨type_of_entry h3, h4⟩
  · simp [TermTable.fresh, TermTable.construct, Tm.positive, Tm.index]

/-! ### Declarations -/

/-- The state after the declaration of a name. -/
structure Declared (H : TermHash) (s s' : Names) (n : String) (as : List Srt) (r : Srt) (t : Tm) : Prop where
  reach : TReach H s'.table
  ext : Ext s.table s'.table
  names : s'.names = (n, t) :: s.names
  decls : s'.decls = if as = [] then s.decls else (n, as.map Srt.ty, r.ty) :: s.decls
  defs : s'.defs = s.defs
  srt : HasSrt s'.table t r
  kind : s'.table.kind t = .uninterpreted
  pos : t.isNeg = false
  index : t.index = s.table.terms.length

theorem assoc_cons_ne {α : Type} {l : List (String × α)} {n m : String} {a : α} (h : m ≠ n) :
    assoc ((n, a) :: l) m = assoc l m := by
  rw [assoc, if_neg (fun e : n = m => h e.symm)]

theorem assoc_cons_self {α : Type} {l : List (String × α)} {n : String} {a : α} :
    assoc ((n, a) :: l) n = some a := by
  rw [assoc, if_pos rfl]

theorem innermost_cons_ne {α : Type} {l : List (String × α)} {n m : String} {a : α} (h : m ≠ n) :
    innermost ((n, a) :: l) m = innermost l m := by
  rw [innermost, if_neg (fun e : n = m => h e.symm)]

theorem innermost_cons_self {α : Type} {l : List (String × α)} {n : String} {a : α} :
    innermost ((n, a) :: l) n = some a := by
  rw [innermost, if_pos rfl]

theorem declared_of {uf : Bool} {s s' : Names} {n : String} {as : List Srt} {r : Srt}
    (hr : TReach H s.table) (h : s.declare uf n (as.map Srt.ty) r.ty = some s') :
    ∃ t, Declared H s s' n as r t := by
  obtain ⟨f1, f2, f3, f4, f5, f6⟩ := fresh_facts hr r
  refine ⟨(s.table.fresh r.ty).2, ?_⟩
  unfold Names.declare at h
  by_cases ha : as = []
  · subst ha
    rw [List.map_nil, if_pos rfl] at h
    unfold Names.declareConst Names.setName at h
    cases hn : assoc s.names n with
    | some x => simp [hn] at h
    | none =>
      simp only [hn] at h
      obtain rfl := Option.some.inj h
      exact ⟨f1, f2, rfl, rfl, rfl, f3, f4, f5, f6⟩
  · rw [if_neg (by simpa using ha)] at h
    cases uf with
    | false => simp at h
    | true =>
      rw [if_pos rfl] at h
      unfold Names.declareFun Names.setName at h
      cases hn : assoc s.names n with
      | some x => simp [hn] at h
      | none =>
        simp only [hn, Option.map_some] at h
        obtain rfl := Option.some.inj h
        exact ⟨f1, f2, rfl, by rw [if_neg ha], rfl, f3, f4, f5, f6⟩

namespace Declared

variable {s s' : Names} {n : String} {as : List Srt} {r : Srt} {t : Tm}

theorem name_ne (h : Declared H s s' n as r t) {m : String} (hm : m ≠ n) :
    assoc s'.names m = assoc s.names m := by
  rw [h.names, assoc_cons_ne hm]

theorem name_self (h : Declared H s s' n as r t) : assoc s'.names n = some t := by
  rw [h.names, assoc_cons_self]

theorem decl_ne (h : Declared H s s' n as r t) {m : String} (hm : m ≠ n) :
    assoc s'.decls m = assoc s.decls m := by
  rw [h.decls]
  by_cases ha : as = []
  · rw [if_pos ha]
  · rw [if_neg ha, assoc_cons_ne hm]

theorem global_ne (h : Declared H s s' n as r t) {m : String} (hm : m ≠ n) : s'.global m = s.global m := by
  unfold Names.global
  rw [h.defs, h.name_ne hm]

theorem global_self (h : Declared H s s' n as r t) (hd : assoc s.defs n = none) :
    s'.global n = some t := by
  unfold Names.global
  rw [h.defs, hd, h.name_self]

theorem nrel {Γ : Sig} (h : Declared H s s' n as r t) (hr : NRel H Γ s) (hf : Γ.fresh n) :
    NRel H ((n, as, r) :: Γ) s' where
  reach := h.reach
  const m r' hm := by
    by_cases he : m = n
    · subst he
      rw [innermost_cons_self] at hm
      obtain ⟨rfl, rfl⟩ := Prod.mk.inj (Option.some.inj hm)
      exact ⟨t, h.global_self (hr.other _ hf.1).1, h.srt⟩
    · rw [innermost_cons_ne he] at hm
      obtain ⟨t', h1, h2⟩ := hr.const m r' hm
      exact ⟨t', by rw [h.global_ne he]; exact h1, h2.ext h.ext⟩
  fn m as' r' hm ha := by
    by_cases he : m = n
    · subst he
      rw [innermost_cons_self] at hm
      obtain ⟨rfl, rfl⟩ := Prod.mk.inj (Option.some.inj hm)
      refine ⟨by rw [h.defs]; exact (hr.other _ hf.1).1, ?_, t, h.name_self, h.pos, h.kind, h.srt⟩
      rw [h.decls, if_neg ha, assoc_cons_self]
    · rw [innermost_cons_ne he] at hm
      obtain ⟨h1, h2, f, h3, h4, h5, h6⟩ := hr.fn m as' r' hm ha
      exact ⟨by rw [h.defs]; exact h1, by rw [h.decl_ne he]; exact h2, f, by rw [h.name_ne he]; exact h3, h4,
        kind_ext' h.ext h5 (by simp), h6.ext h.ext⟩
  other m hm := by
    have he : m ≠ n := by rintro rfl; rw [innermost_cons_self] at hm; exact absurd hm (by simp)
    rw [innermost_cons_ne he] at hm
    rw [h.defs, h.decl_ne he, h.name_ne he]
    exact hr.other m hm
  theory m o hm := by
    have he : m ≠ n := by rintro rfl; rw [hf.2.1] at hm; exact absurd hm (by simp)
    rw [innermost_cons_ne he]
    exact hr.theory m o hm

theorem agree {Γ : Sig} (h : Declared H s s' n as r t) (hr : NRel H Γ s) (hf : Γ.fresh n) {I : Interp}
    {M : Struct} (hA : AgreeM ((n, as, r) :: Γ) s' I M) : AgreeM Γ s I M where
  const m r' t' hm ht := by
    have he : m ≠ n := by rintro rfl; rw [hf.1] at hm; exact absurd hm (by simp)
    obtain ⟨t'', h1, h2⟩ := hr.const m r' hm
    obtain rfl := Option.some.inj (ht.symm.trans h1)
    rw [← h2.den_ext h.ext]
    exact hA.const m r' _ (by rw [innermost_cons_ne he]; exact hm) (by rw [h.global_ne he]; exact ht)
  fn m as' r' f vs hm ha hn hv := by
    have he : m ≠ n := by rintro rfl; rw [hf.1] at hm; exact absurd hm (by simp)
    exact hA.fn m as' r' f vs (by rw [innermost_cons_ne he]; exact hm) ha (by rw [h.name_ne he]; exact hn) hv

end Declared

theorem defines_declare {is : List Item} {n : String} {as : List Srt} {r : Srt} {M : Struct} :
    M.Defines (is ++ [.declare n as r]) ↔ M.Defines is := by
  refine ⟨Defines.of_append, fun h m r' e hm => ?_⟩
  rcases List.mem_append.mp hm with hm | hm
  · exact h m r' e hm
  · exact absurd hm (by simp)

theorem SRel.declare {is : List Item} {c : FE} (h : SRel H is c) {n : String} {as : List Srt} {r : Srt}
    (hf : (sigOf is).fresh n) {s' : Names} {t : Tm} (hd : Declared H c.st s' n as r t) :
    SRel H (is ++ [.declare n as r]) { c with st := s' } := by
  have hΓ : sigOf (is ++ [.declare n as r]) = (n, as, r) :: sigOf is := sigOf_snoc _ _
  have hfresh : assoc c.st.names n = none := (h.nrel.other n hf.1).2.2
  constructor
  · rw [hΓ]; exact hd.nrel h.nrel hf
  · intro m t' hm
    rw [hΓ]
    by_cases he : m = n
    · subst he
      have ht := Option.some.inj (hm.symm.trans hd.name_self)
      subst ht
      exact ⟨as, r, innermost_cons_self, by rw [hd.defs]; exact (h.nrel.other _ hf.1).1, hd.pos, hd.kind,
        hd.srt⟩
    · have hm' : assoc c.st.names m = some t' := by rw [← hd.name_ne he]; exact hm
      obtain ⟨as', r', h1, h2, h3, h4, h5⟩ := h.decl m t' hm'
      exact ⟨as', r', by rw [innermost_cons_ne he]; exact h1, by rw [hd.defs]; exact h2, h3,
        kind_ext' hd.ext h4 (by simp), h5.ext hd.ext⟩
  · intro m m' t1 t2 h1 h2 hi
    have old : ∀ k u, k ≠ n → assoc s'.names k = some u → u.index < c.st.table.terms.length := by
      intro k u hk hu
      rw [hd.name_ne hk] at hu
      obtain ⟨_, r', _, _, _, _, h5⟩ := h.decl k u hu
      cases r'
      · exact Spec.IsBool.index_lt h5
      · exact Spec.IsReal.index_lt h5
    have new : ∀ u, assoc s'.names n = some u → u.index = c.st.table.terms.length := by
      intro u hu
      rw [hd.name_self] at hu
      rw [← Option.some.inj hu]
      exact hd.index
    by_cases e1 : m = n <;> by_cases e2 : m' = n
    · rw [e1, e2]
    · subst e1
      have := old m' t2 e2 h2
      have := new t1 h1
      omega
    · subst e2
      have := old m t1 e1 h1
      have := new t2 h2
      omega
    · exact h.inj m m' t1 t2 (by rw [← hd.name_ne e1]; exact h1) (by rw [← hd.name_ne e2]; exact h2) hi
  · intro I M hS hD hB
    rw [hΓ] at hS ⊢
    have hB' : Base c.st I M := by
      intro m u hu
      have he : m ≠ n := by rintro rfl; rw [hfresh] at hu; exact absurd hu (by simp)
      exact hB m u (by show assoc s'.names m = some u; rw [hd.name_ne he]; exact hu)
    have hA := h.agree I M (Sorted.of_cons hf.1 hS) (defines_declare.mp hD) hB'
    obtain ⟨b1, b2, b3, b4⟩ := hB n t hd.name_self
    constructor
    · intro m r' u hm hu
      by_cases he : m = n
      · subst he
        rw [innermost_cons_self] at hm
        have hsr : (M m []).srt = r' := hS m [] r' (by rw [innermost_cons_self]; exact hm) [] rfl
        obtain ⟨rfl, rfl⟩ := Prod.mk.inj (Option.some.inj hm)
        rw [hd.global_self (h.nrel.other _ hf.1).1] at hu
        obtain rfl := Option.some.inj hu
        rw [den_const hd.reach.wf hd.srt hd.kind hd.pos I]
        cases r
        · rw [val_eq_b hsr, ← b1]
        · rw [val_eq_q hsr, ← b2]
      · rw [innermost_cons_ne he] at hm
        obtain ⟨t'', h1, h2⟩ := h.nrel.const m r' hm
        have hu' : c.st.global m = some u := by rw [← hd.global_ne he]; exact hu
        obtain rfl := Option.some.inj (hu'.symm.trans h1)
        show den I s'.table u = _
        rw [h2.den_ext hd.ext]
        exact hA.const m r' _ hm hu'
    · intro m as' r' f vs hm ha hn hv
      by_cases he : m = n
      · subst he
        have hsr : (M m vs).srt = r' := hS m as' r' hm vs hv
        rw [innermost_cons_self] at hm
        obtain ⟨rfl, rfl⟩ := Prod.mk.inj (Option.some.inj hm)
        obtain rfl := Option.some.inj (hn.symm.trans hd.name_self)
        cases r
        · rw [val_eq_b hsr, ← b3]; rfl
        · rw [val_eq_q hsr, ← b4]; rfl
      · rw [innermost_cons_ne he] at hm
        exact hA.fn m as' r' f vs hm ha (by rw [← hd.name_ne he]; exact hn) hv
  · intro I M hA
    rw [hΓ] at hA
    exact defines_declare.mpr (h.defines I M (hd.agree h.nrel hf hA))
  · intro I M hA
    rw [hΓ] at hA
    have hv := h.vals I M (hd.agree h.nrel hf hA)
    rw [asserted_append]
    simp only [asserted, List.append_nil]
    have hb := h.bool
    clear hA
    revert hv hb
    generalize c.assertions = l
    generalize asserted is = l'
    intro hv hb
    induction hv with
    | nil => exact .nil
    | cons h0 _ ih =>
      exact .cons (by rw [← h0]; exact den_typed_ext hd.ext (Or.inl (hb _ List.mem_cons_self)) I)
        (ih fun u hu => hb u (List.mem_cons_of_mem _ hu))
  · intro u hu
    exact Spec.IsBool.ext hd.ext (h.bool u hu)
  · exact h.recs

/-! ### Terms of commands -/

/-- Reading the tokens of a term is evaluating its syntax tree. -/
theorem parse_eval {σ τ : Type} {B : Backend σ τ} {e : Expr} {rest : List Tok} {r : LetRecords τ}
    {sc : Scopes τ} (hr : Rep r sc) {s : σ} {q : τ × List Tok × LetRecords τ × σ}
    (h : parseTerm B r s (e.toks ++ rest) = some q) :
    e.eval B sc.all s = some (q.2.2.2, q.1) ∧ q.2.1 = rest ∧ Rep q.2.2.1 sc := by
  cases he : e.eval B sc.all s with
  | none =>
    unfold parseTerm at h
    rw [parse_expr_none B e [] [] r sc s rest hr he] at h
    exact absurd h (by simp)
  | some p =>
    obtain ⟨s', t⟩ := p
    obtain ⟨k, r', hk, hr', h3⟩ := parse_expr B e [] [] r sc s s' t rest hr he
    have := h3 ((e.toks ++ rest).length - k)
    rw [Nat.sub_add_cancel (by rw [List.length_append]; omega), cont_nil] at this
    have h4 : parseTerm B r s (e.toks ++ rest) = some (t, rest, r', s') := this
    obtain rfl := Option.some.inj (h4.symm.trans h)
    exact ⟨rfl, rfl, hr'⟩

theorem envRel_nil (s : TermTable) : EnvRel s [] [] := ⟨.nil, fun _ h => absurd h List.not_mem_nil⟩

theorem SRel.grow {is : List Item} {c : FE} (h : SRel H is c) {s' : Names} (g : Grow H c.st s')
    {r : LetRecords Tm} (hr : Rep r ⟨[], []⟩) : SRel H is ⟨s', r, c.assertions⟩ where
  nrel := h.nrel.grow g
  decl n t hn := by
    obtain ⟨as, r, h1, h2, h3, h4, h5⟩ := h.decl n t (by rw [← g.names]; exact hn)
    exact ⟨as, r, h1, by rw [← g.defs] at h2; exact h2, h3, kind_ext' g.ext h4 (by simp), h5.ext g.ext⟩
  inj n m t t' h1 h2 := h.inj n m t t' (by rw [← g.names]; exact h1) (by rw [← g.names]; exact h2)
  agree I M hS hD hB :=
    (h.agree I M hS hD fun n t hn => hB n t (by rw [← g.names] at hn; exact hn)).grow h.nrel g
  defines I M hA := h.defines I M (hA.ungrow h.nrel g)
  vals I M hA := by
    have hv := h.vals I M (hA.ungrow h.nrel g)
    have hb := h.bool
    clear hA
    revert hv hb
    show _ → _ → List.Forall₂ _ c.assertions _
    generalize c.assertions = l
    generalize asserted is = l'
    intro hv hb
    induction hv with
    | nil => exact .nil
    | cons h0 _ ih =>
      exact .cons (by rw [← h0]; exact den_typed_ext g.ext (Or.inl (hb _ List.mem_cons_self)) I)
        (ih fun u hu => hb u (List.mem_cons_of_mem _ hu))
  bool t ht := Spec.IsBool.ext g.ext (h.bool t ht)
  recs := hr

theorem SRel.assert {is : List Item} {c : FE} (h : SRel H is c) {e : Expr}
    (hs : e.sort (sigOf is) [] = some .bool) (hf : e.fair = true) {q : FE × List Tok} {rest : List Tok}
    (hq : c.assertCmd H (e.toks ++ rest) = some q) : SRel H (is ++ [.assert e]) q.1 ∧ q.2 = rest := by
  unfold FE.assertCmd at hq
  obtain ⟨p, h1, rfl⟩ := map_some hq
  obtain ⟨h2, h3, h4⟩ := parse_eval h.recs h1
  have hr := read_expr e h.nrel (envRel_nil _) hs hf h2
  have hg := h.grow hr.grow h4
  refine ⟨?_, h3⟩
  have hΓ : sigOf (is ++ [.assert e]) = sigOf is := sigOf_snoc _ _
  have hD : ∀ M : Struct, M.Defines (is ++ [.assert e]) ↔ M.Defines is := by
    intro M
    refine ⟨Defines.of_append, fun hd m r' e' hm => ?_⟩
    rcases List.mem_append.mp hm with hm | hm
    · exact hd m r' e' hm
    · exact absurd hm (by simp)
  constructor
  · rw [hΓ]; exact hg.nrel
  · rw [hΓ]; exact hg.decl
  · exact hg.inj
  · intro I M hS hd hB
    rw [hΓ] at hS ⊢
    exact hg.agree I M hS ((hD M).mp hd) hB
  · intro I M hA
    rw [hΓ] at hA
    exact (hD M).mpr (hg.defines I M hA)
  · intro I M hA
    rw [hΓ] at hA
    rw [asserted_append]
    refine List.rel_append (hg.vals I M hA) (.cons ?_ .nil)
    exact hr.val I M (hA.ungrow h.nrel hr.grow)
  · intro t ht
    rcases List.mem_append.mp ht with ht | ht
    · exact hg.bool t ht
    · rw [List.mem_singleton.mp ht]; exact hr.srt
  · exact h4

/-- The state after the definition of a constant. -/
theorem SRel.define {is : List Item} {c : FE} (h : SRel H is c) {n : String} {r : Srt} {e : Expr}
    (hn : (sigOf is).fresh n) (hs : e.sort (sigOf is) [] = some r) (hf : e.fair = true)
    {q : FE × List Tok} {rest : List Tok} (hq : c.defineCmd H n [] r.ty (e.toks ++ rest) = some q) :
    SRel H (is ++ [.define n r e]) q.1 ∧ q.2 = rest := by
  unfold FE.defineCmd Names.defineFun Names.bindVars at hq
  obtain ⟨p, k1, rfl⟩ := map_some hq
  obtain ⟨p1, h1, k2⟩ := bind_some k1
  obtain ⟨recs', h2, k3⟩ := bind_some k2
  obtain ⟨s', h3, rfl⟩ := map_some k3
  clear hq k1 k2 k3
  have hrep : Rep c.recs.pushFrame ⟨[[]], []⟩ := by
    obtain ⟨r', hr1, hr2⟩ := h.recs.step .push
    obtain rfl := Option.some.inj hr1
    exact hr2
  obtain ⟨h4, h5, h6⟩ := parse_eval hrep h1
  have hpop : Rep recs' ⟨[], []⟩ := by
    obtain ⟨r', hr1, hr2⟩ := h6.step .pop
    obtain rfl := Option.some.inj (hr1.symm.trans h2)
    exact hr2
  have hr := read_expr e h.nrel (envRel_nil _) hs hf h4
  have hg := h.grow hr.grow hpop
  refine ⟨?_, h5⟩
  obtain ⟨hd0, hc0, hn0⟩ := hg.nrel.other n hn.1
  unfold Names.storeDefined at h3
  simp only at hd0
  rw [hd0] at h3
  obtain rfl := Option.some.inj h3
  have hΓ : sigOf (is ++ [.define n r e]) = (n, [], r) :: sigOf is := sigOf_snoc _ _
  have gself : (⟨p1.2.2.2.table, p1.2.2.2.names, p1.2.2.2.decls,
      (n, [], r.ty, p1.1) :: p1.2.2.2.defs⟩ : Names).global n = some p1.1 := by
    simp only [Names.global, assoc_cons_self, if_true]
  have gne : ∀ m, m ≠ n → (⟨p1.2.2.2.table, p1.2.2.2.names, p1.2.2.2.decls,
      (n, [], r.ty, p1.1) :: p1.2.2.2.defs⟩ : Names).global m = p1.2.2.2.global m := by
    intro m hm
    simp only [Names.global, assoc_cons_ne hm]
  have hres : ∀ I M, AgreeM ((n, [], r) :: sigOf is) ⟨p1.2.2.2.table, p1.2.2.2.names, p1.2.2.2.decls,
      (n, [], r.ty, p1.1) :: p1.2.2.2.defs⟩ I M → AgreeM (sigOf is) p1.2.2.2 I M := by
    intro I M hA
    constructor
    · intro m r' t' hm ht
      have he : m ≠ n := by rintro rfl; rw [hn.1] at hm; exact absurd hm (by simp)
      exact hA.const m r' t' (by rw [innermost_cons_ne he]; exact hm) (by rw [gne m he]; exact ht)
    · intro m as' r' f vs hm
      have he : m ≠ n := by rintro rfl; rw [hn.1] at hm; exact absurd hm (by simp)
      exact hA.fn m as' r' f vs (by rw [innermost_cons_ne he]; exact hm)
  constructor
  · rw [hΓ]
    exact
      { reach := hg.nrel.reach
        const := fun m r' hm => by
          by_cases he : m = n
          · subst he
            rw [innermost_cons_self] at hm
            obtain ⟨_, rfl⟩ := Prod.mk.inj (Option.some.inj hm)
            exact ⟨_, gself, hr.srt⟩
          · rw [innermost_cons_ne he] at hm
            obtain ⟨t, a1, a2⟩ := hg.nrel.const m r' hm
            exact ⟨t, by rw [gne m he]; exact a1, a2⟩
        fn := fun m as' r' hm ha => by
          by_cases he : m = n
          · subst he
            rw [innermost_cons_self] at hm
            obtain ⟨rfl, _⟩ := Prod.mk.inj (Option.some.inj hm)
            exact absurd rfl ha
          · rw [innermost_cons_ne he] at hm
            obtain ⟨a1, a2⟩ := hg.nrel.fn m as' r' hm ha
            exact ⟨by simp only [assoc_cons_ne he]; exact a1, a2⟩
        other := fun m hm => by
          have he : m ≠ n := by rintro rfl; rw [innermost_cons_self] at hm; exact absurd hm (by simp)
          rw [innermost_cons_ne he] at hm
          obtain ⟨a1, a2⟩ := hg.nrel.other m hm
          exact ⟨by simp only [assoc_cons_ne he]; exact a1, a2⟩
        theory := fun m o hm => by
          have he : m ≠ n := by rintro rfl; rw [hn.2.1] at hm; exact absurd hm (by simp)
          rw [innermost_cons_ne he]
          exact hg.nrel.theory m o hm }
  · intro m t hm
    rw [hΓ]
    have he : m ≠ n := by
      rintro rfl
      have : assoc p1.2.2.2.names m = none := hn0
      rw [show assoc p1.2.2.2.names m = some t from hm] at this
      exact absurd this (by simp)
    obtain ⟨as', r', a1, a2, a3⟩ := hg.decl m t hm
    exact ⟨as', r', by rw [innermost_cons_ne he]; exact a1, by simp only [assoc_cons_ne he]; exact a2, a3⟩
  · exact hg.inj
  · intro I M hS hd hB
    rw [hΓ] at hS ⊢
    have hA := hg.agree I M (Sorted.of_cons hn.1 hS) (Defines.of_append hd) hB
    have hA0 := hA.ungrow h.nrel hr.grow
    constructor
    · intro m r' t hm ht
      by_cases he : m = n
      · subst he
        obtain rfl := Option.some.inj (gself.symm.trans ht)
        rw [hd m r e (by simp)]
        exact hr.val I M hA0
      · rw [innermost_cons_ne he] at hm
        exact hA.const m r' t hm (by rw [← gne m he]; exact ht)
    · intro m as' r' f vs hm ha
      by_cases he : m = n
      · subst he
        rw [innermost_cons_self] at hm
        obtain ⟨rfl, _⟩ := Prod.mk.inj (Option.some.inj hm)
        exact absurd rfl ha
      · rw [innermost_cons_ne he] at hm
        exact hA.fn m as' r' f vs hm ha
  · intro I M hA
    rw [hΓ] at hA
    have hA1 := hres I M hA
    have hA0 := hA1.ungrow h.nrel hr.grow
    intro m r' e' hm
    rcases List.mem_append.mp hm with hm | hm
    · exact hg.defines I M hA1 m r' e' hm
    · obtain ⟨rfl, rfl, rfl⟩ := (Item.define.injEq _ _ _ _ _ _).mp (List.mem_singleton.mp hm)
      rw [← hA.const m r' _ innermost_cons_self gself]
      exact hr.val I M hA0
  · intro I M hA
    rw [hΓ] at hA
    rw [asserted_append]
    simp only [asserted, List.append_nil]
    exact hg.vals I M (hres I M hA)
  · exact hg.bool
  · exact hpop

/-! ### Scripts -/

theorem SRel.item {is : List Item} {c c' : FE} (h : SRel H is c) {i : Item} (hi : i.Ok (sigOf is)) {uf : Bool}
    (hc : c.item H uf i = some c') : SRel H (is ++ [i]) c' := by
  cases i with
  | declare n as r =>
    unfold FE.item FE.declareCmd at hc
    obtain ⟨s', h1, rfl⟩ := map_some hc
    obtain ⟨t, ht⟩ := declared_of h.nrel.reach h1
    exact h.declare hi ht
  | define n r e =>
    unfold FE.item at hc
    obtain ⟨q, h1, h2⟩ := bind_some hc
    obtain ⟨_, rfl⟩ := if_some h2
    exact (h.define hi.1 hi.2.1 hi.2.2 h1).1
  | assert e =>
    unfold FE.item at hc
    obtain ⟨q, h1, h2⟩ := bind_some hc
    obtain ⟨_, rfl⟩ := if_some h2
    exact (h.assert hi.1 hi.2 h1).1

theorem SRel.items {is : List Item} {c c' : FE} (h : SRel H is c) {js : List Item}
    (hj : wellFormed (sigOf is) js) {uf : Bool} (hc : c.items H uf js = some c') : SRel H (is ++ js) c' := by
  induction js generalizing is c with
  | nil =>
    obtain rfl := Option.some.inj hc
    rw [List.append_nil]
    exact h
  | cons i js ih =>
    unfold FE.items at hc
    obtain ⟨c1, h1, h2⟩ := bind_some hc
    have := ih (h.item hj.1 h1) (by rw [sigOf_snoc]; exact hj.2) h2
    rwa [List.append_assoc] at this

/-- Every interpretation of the table gives a structure. -/
theorem SRel.toStructC {is : List Item} {c : FE} (h : SRel H is c) (I : Interp) :
    ∃ M : Struct, M.For is ∧ AgreeM (sigOf is) c.st I M ∧
      ∀ n t, assoc c.st.names n = some t → M n [] = den I c.st.table t := by
  let M : Struct := fun n vs =>
    match innermost (sigOf is) n with
    | none => .b false
    | some d =>
      if d.1 = [] then
        match c.st.global n with
        | some t => den I c.st.table t
        | none => .b false
      else
        match assoc c.st.names n with
        | some f => if vs = [] then den I c.st.table f else fnVal I f d.2 vs
        | none => .b false
  have hA : AgreeM (sigOf is) c.st I M := by
    constructor
    · intro n r t hn ht
      simp only [M, hn, ht, if_true]
    · intro n as r f vs hn ha hf hv
      have hne : vs ≠ [] := by
        rintro rfl
        exact ha hv.symm
      simp only [M, hn, ha, hf, hne, if_false]
  refine ⟨M, ⟨?_, h.defines I M hA⟩, hA, ?_⟩
  · intro n as r hn vs hv
    by_cases ha : as = []
    · subst ha
      obtain ⟨t, h1, h2⟩ := h.nrel.const n r hn
      simp only [M, hn, h1, if_true]
      exact h2.srt h.nrel.reach.wf I
    · obtain ⟨_, _, f, h1, _⟩ := h.nrel.fn n as r hn ha
      have hne : vs ≠ [] := by
        rintro rfl
        exact ha hv.symm
      simp only [M, hn, ha, h1, hne, if_false]
      cases r <;> rfl
  · intro n t ht
    obtain ⟨as, r, h1, h2, _⟩ := h.decl n t ht
    by_cases ha : as = []
    · have hg : c.st.global n = some t := by
        unfold Names.global
        rw [h2]; exact ht
      simp only [M, h1, ha, hg, if_true]
    · simp only [M, h1, ha, ht, if_true, if_false]

theorem SRel.toStruct {is : List Item} {c : FE} (h : SRel H is c) (I : Interp) :
    ∃ M : Struct, M.For is ∧ AgreeM (sigOf is) c.st I M := by
  obtain ⟨M, h1, h2, _⟩ := h.toStructC I
  exact ⟨M, h1, h2⟩

theorem assoc_mem {α : Type} {l : List (String × α)} {n : String} {a : α} (h : assoc l n = some a) :
    (n, a) ∈ l := by
  induction l with
  | nil => exact absurd h (by simp [assoc])
  | cons p l ih =>
    unfold assoc at h
    by_cases hp : p.1 = n
    · rw [if_pos hp] at h
      obtain rfl := Option.some.inj h
      subst hp
      exact List.mem_cons_self
    · rw [if_neg hp] at h
      exact List.mem_cons_of_mem _ (ih h)

/-- Every structure gives an interpretation of the table. -/
theorem SRel.toBase {is : List Item} {c : FE} (h : SRel H is c) (M : Struct) : ∃ I : Interp, Base c.st I M := by
  classical
  let nm : Nat → String := fun i =>
    if hx : ∃ n t, assoc c.st.names n = some t ∧ t.index = i then hx.choose else ""
  have hnm : ∀ n t, assoc c.st.names n = some t → nm t.index = n := by
    intro n t hn
    have hx : ∃ n' t', assoc c.st.names n' = some t' ∧ t'.index = t.index := ⟨n, t, hn, rfl⟩
    simp only [nm, dif_pos hx]
    obtain ⟨t', h1, h2⟩ := hx.choose_spec
    exact h.inj _ _ t' t h1 hn h2
  refine ⟨⟨fun i => (M (nm i) []).bool, fun i => (M (nm i) []).num, fun i vs => (M (nm i) vs).bool,
    fun i vs => (M (nm i) vs).num⟩, ?_⟩
  intro n t hn
  simp only [hnm n t hn, implies_true, and_self]

theorem SRel.toInterp {is : List Item} {c : FE} (h : SRel H is c) {M : Struct} (hM : M.For is) :
    ∃ I : Interp, AgreeM (sigOf is) c.st I M := by
  obtain ⟨I, hB⟩ := h.toBase M
  exact ⟨I, h.agree I M hM.1 hM.2 hB⟩

end Yaga
