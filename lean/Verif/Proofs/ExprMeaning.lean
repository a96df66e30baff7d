/-
The terms made for syntax trees have the meaning of SMT-LIB (for C71).
-/
import Verif.Proofs.OpMeaning

namespace Yaga

open Spec TermTable

variable {H : TermHash}

/-! ### Literals -/

theorem digitChar_charDigit {c : Char} (h : c.isDigit = true) : digitChar (charDigit c) = c := by
  have h1 : 48 ≤ c.toNat ∧ c.toNat ≤ 57 := by
    simp only [Char.isDigit, Bool.and_eq_true, decide_eq_true_eq] at h
    exact ⟨UInt32.le_iff_toNat_le.mp h.1, UInt32.le_iff_toNat_le.mp h.2⟩
  unfold digitChar charDigit
  have : 48 + (c.toNat - 48) % 10 = c.toNat := by omega
  simp only [this]
  exact Char.ofNat_toNat c

theorem map_digits {l : List Char} (h : l.all Char.isDigit = true) :
    (l.map charDigit).map digitChar = l := by
  rw [List.all_eq_true] at h
  rw [List.map_map]
  conv_rhs => rw [← List.map_id l]
  exact List.map_congr_left fun c hc => digitChar_charDigit (h c hc)

theorem mkInteger_numVal {n : String} (h : isNum n = true) :
    ∃ c, LF.mkInteger n.toList = some c ∧ fval c = numVal n := by
  obtain ⟨c, h1, _, h3⟩ := LF.mkInteger_exact (n.toList.map charDigit)
  rw [map_digits h] at h1
  exact ⟨c, h1, h3⟩

theorem split_point {l : List Char} (h : '.' ∈ l) :
    l = l.takeWhile (· != '.') ++ '.' :: (l.dropWhile (· != '.')).tail := by
  induction l with
  | nil => exact absurd h List.not_mem_nil
  | cons c cs ih =>
    by_cases hc : c = '.'
    · subst hc; simp
    · have : ('.' : Char) ∈ cs := by
        rcases List.mem_cons.mp h with h | h
        · exact absurd h.symm hc
        · exact h
      have hb : (c != '.') = true := by simpa using hc
      rw [List.takeWhile_cons_of_pos (p := (· != '.')) hb, List.dropWhile_cons_of_pos (p := (· != '.')) hb,
        List.cons_append, ← ih this]

theorem mkRational_decVal {n : String} (h : isDec n = true) :
    ∃ c, LF.mkRational n.toList = some c ∧ fval c = decVal n := by
  unfold isDec at h
  rw [Bool.and_eq_true, Bool.and_eq_true, List.contains_iff_mem] at h
  obtain ⟨c, h1, _, h3⟩ := LF.mkRational_exact ((n.toList.takeWhile (· != '.')).map charDigit)
    ((n.toList.dropWhile (· != '.')).tail.map charDigit)
  rw [map_digits h.1.2, map_digits h.2, ← split_point h.1.1] at h1
  exact ⟨c, h1, h3⟩

/-! ### Symbols -/

/-- The declared and defined names of the parser are those of the signature. -/
structure NRel (H : TermHash) (Γ : Sig) (s : Names) : Prop where
  reach : TReach H s.table
  const : ∀ n r, innermost Γ n = some ([], r) → ∃ t, s.global n = some t ∧ HasSrt s.table t r
  fn : ∀ n as r, innermost Γ n = some (as, r) → as ≠ [] →
    assoc s.defs n = none ∧ assoc s.decls n = some (as.map Srt.ty, r.ty) ∧
    ∃ f, assoc s.names n = some f ∧ f.isNeg = false ∧ s.table.kind f = .uninterpreted ∧ HasSrt s.table f r
  other : ∀ n, innermost Γ n = none →
    assoc s.defs n = none ∧ assoc s.decls n = none ∧ assoc s.names n = none
  theory : ∀ n o, theoryOp n = some o → innermost Γ n = none

/-- The value of a function symbol with term `f`. -/
def fnVal (I : Interp) (f : Tm) (r : Srt) (vs : List Val) : Val :=
  match r with
  | .bool => .b (I.fnB f.index vs)
  | .real => .q (I.fnQ f.index vs)

/-- A structure and an interpretation of the term table give the symbols the same meaning. -/
structure AgreeM (Γ : Sig) (s : Names) (I : Interp) (M : Struct) : Prop where
  const : ∀ n r t, innermost Γ n = some ([], r) → s.global n = some t → den I s.table t = M n []
  fn : ∀ n as r f vs, innermost Γ n = some (as, r) → as ≠ [] → assoc s.names n = some f →
    vs.map Val.srt = as → M n vs = fnVal I f r vs

/-- Making terms only extends the table. -/
structure Grow (H : TermHash) (s s' : Names) : Prop where
  reach : TReach H s'.table
  ext : Ext s.table s'.table
  names : s'.names = s.names
  decls : s'.decls = s.decls
  defs : s'.defs = s.defs

theorem Grow.refl {s : Names} (h : TReach H s.table) : Grow H s s := ⟨h, Ext.refl' _, rfl, rfl, rfl⟩

theorem Grow.trans {a b c : Names} (h : Grow H a b) (h' : Grow H b c) : Grow H a c :=
  ⟨h'.reach, Ext.trans' h.ext h'.ext, h'.names.trans h.names, h'.decls.trans h.decls, h'.defs.trans h.defs⟩

theorem Grow.global {s s' : Names} (h : Grow H s s') (n : String) : s'.global n = s.global n := by
  unfold Names.global
  rw [h.names, h.defs]

theorem NRel.grow {Γ : Sig} {s s' : Names} (h : NRel H Γ s) (g : Grow H s s') : NRel H Γ s' where
  reach := g.reach
  const n r hn := by
    obtain ⟨t, h1, h2⟩ := h.const n r hn
    exact ⟨t, by rw [g.global]; exact h1, h2.ext g.ext⟩
  fn n as r hn ha := by
    obtain ⟨h1, h2, f, h3, h4, h5, h6⟩ := h.fn n as r hn ha
    rw [g.names, g.decls, g.defs]
    exact ⟨h1, h2, f, h3, h4, kind_ext' g.ext h5 (by simp), h6.ext g.ext⟩
  other n hn := by
    rw [g.names, g.decls, g.defs]
    exact h.other n hn
  theory := h.theory

theorem AgreeM.grow {Γ : Sig} {s s' : Names} (hr : NRel H Γ s) (g : Grow H s s') {I : Interp} {M : Struct}
    (h : AgreeM Γ s I M) : AgreeM Γ s' I M where
  const n r t hn ht := by
    rw [g.global] at ht
    obtain ⟨t', h1, h2⟩ := hr.const n r hn
    obtain rfl := Option.some.inj (ht.symm.trans h1)
    rw [h2.den_ext g.ext]
    exact h.const n r _ hn ht
  fn n as r f vs hn ha hf hv := by
    rw [g.names] at hf
    exact h.fn n as r f vs hn ha hf hv

theorem AgreeM.ungrow {Γ : Sig} {s s' : Names} (hr : NRel H Γ s) (g : Grow H s s') {I : Interp} {M : Struct}
    (h : AgreeM Γ s' I M) : AgreeM Γ s I M where
  const n r t hn ht := by
    obtain ⟨t', h1, h2⟩ := hr.const n r hn
    obtain rfl := Option.some.inj (ht.symm.trans h1)
    rw [← h2.den_ext g.ext]
    exact h.const n r _ hn (by rw [g.global]; exact ht)
  fn n as r f vs hn ha hf hv := h.fn n as r f vs hn ha (by rw [g.names]; exact hf) hv

/-- The variables bound by `let` and their terms. -/
structure EnvRel (s : TermTable) (env : List (String × Tm)) (srts : List (String × Srt)) : Prop where
  rel : List.Forall₂ (fun p q => p.1 = q.1 ∧ HasSrt s p.2 q.2) env srts
  fair : ∀ p ∈ env, p.1 ≠ "true" ∧ p.1 ≠ "false"

/-- The values of the variables. -/
def envVals (I : Interp) (s : TermTable) (env : List (String × Tm)) : List (String × Val) :=
  env.map fun p => (p.1, den I s p.2)

theorem EnvRel.ext {s s' : TermTable} {env : List (String × Tm)} {srts : List (String × Srt)}
    (h : EnvRel s env srts) (he : Ext s s') : EnvRel s' env srts :=
  ⟨forall₂_imp h.rel fun _ _ hp => ⟨hp.1, hp.2.ext he⟩, h.fair⟩

theorem EnvRel.vals {s s' : TermTable} {env : List (String × Tm)} {srts : List (String × Srt)}
    (h : EnvRel s env srts) (he : Ext s s') (I : Interp) : envVals I s' env = envVals I s env := by
  unfold envVals
  refine List.map_congr_left fun p hp => ?_
  have hr := h.rel
  clear h
  induction hr with
  | nil => exact absurd hp List.not_mem_nil
  | cons h0 _ ih =>
    rcases List.mem_cons.mp hp with rfl | hp
    · rw [h0.2.den_ext he]
    · exact ih hp

theorem EnvRel.lookup {s : TermTable} {env : List (String × Tm)} {srts : List (String × Srt)}
    (h : EnvRel s env srts) (I : Interp) (n : String) :
    (innermost env n = none ∧ innermost srts n = none ∧ innermost (envVals I s env) n = none) ∨
    ∃ t r, innermost env n = some t ∧ innermost srts n = some r ∧ HasSrt s t r ∧
      innermost (envVals I s env) n = some (den I s t) ∧ n ≠ "true" ∧ n ≠ "false" := by
  obtain ⟨hr, hf⟩ := h
  induction hr with
  | nil => exact Or.inl ⟨rfl, rfl, rfl⟩
  | cons h0 _ ih =>
    rename_i p q l l' _
    by_cases hp : p.1 = n
    · refine Or.inr ⟨p.2, q.2, ?_, ?_, h0.2, ?_, hp ▸ hf p List.mem_cons_self⟩
      · simp [innermost, hp]
      · simp [innermost, ← h0.1, hp]
      · simp [innermost, envVals, hp]
    · have := ih fun p hp => hf p (List.mem_cons_of_mem _ hp)
      simpa [innermost, envVals, hp, ← h0.1] using this

/-- A theory symbol is not declared, so that the parser makes the term of the theory. -/
theorem resolve_theory {Γ : Sig} {s : Names} (h : NRel H Γ s) {f : String} {o : TOp}
    (ho : theoryOp f = some o) (args : List Tm) :
    Names.resolve H s f args =
      (Names.mkTermOp H s.table f args).map fun r => ({ s with table := r.1 }, r.2) := by
  obtain ⟨h1, h2, _⟩ := h.other f (h.theory f o ho)
  unfold Names.resolve
  rw [h1, h2]

/-- What is known about a term made from a syntax tree in the state `s`. -/
structure ReadAs (H : TermHash) (Γ : Sig) (s : Names) (q : Names × Tm) (r : Srt)
    (w : Interp → Struct → Val) : Prop where
  grow : Grow H s q.1
  srt : HasSrt q.1.table q.2 r
  val : ∀ I M, AgreeM Γ s I M → den I q.1.table q.2 = w I M

theorem read_made {Γ : Sig} {s : Names} {q : TermTable × Tm} {r : Srt} {w : Interp → Val}
    (h : Made H s.table q r w) : ReadAs H Γ s ({ s with table := q.1 }, q.2) r (fun I _ => w I) :=
  ⟨⟨h.reach, h.ext, rfl, rfl, rfl⟩, h.srt, fun I _ _ => h.val I⟩

theorem bind_some {α β : Type} {x : Option α} {f : α → Option β} {b : β} (h : x.bind f = some b) :
    ∃ a, x = some a ∧ f a = some b := Option.bind_eq_some_iff.mp h

theorem map_some {α β : Type} {x : Option α} {f : α → β} {b : β} (h : x.map f = some b) :
    ∃ a, x = some a ∧ f a = b := Option.map_eq_some_iff.mp h

/-- The term of a symbol. -/
theorem read_sym {Γ : Sig} {s : Names} (h : NRel H Γ s) {env : List (String × Tm)}
    {srts : List (String × Srt)} (he : EnvRel s.table env srts) {n : String} {r : Srt}
    (hs : (Expr.sym n).sort Γ srts = some r) {q : Names × Tm}
    (hq : (Expr.sym n).eval (Names.backend H) env s = some q) :
    ReadAs H Γ s q r (fun I M => (Expr.sym n).value M (envVals I s.table env)) := by
  have hsame : ∀ t, HasSrt s.table t r → (∀ I M, AgreeM Γ s I M → den I s.table t =
      (Expr.sym n).value M (envVals I s.table env)) → q = (s, t) →
      ReadAs H Γ s q r (fun I M => (Expr.sym n).value M (envVals I s.table env)) := by
    rintro t h1 h2 rfl
    exact ⟨.refl h.reach, h1, h2⟩
  simp only [Expr.eval, Names.backend] at hq
  simp only [Expr.sort] at hs
  rcases he.lookup default n with ⟨h1, h2, _⟩ | ⟨t, r', h1, h2, h3, _, h5, h6⟩
  · have hv : ∀ I, innermost (envVals I s.table env) n = none := by
      intro I
      rcases he.lookup I n with ⟨_, _, h3⟩ | ⟨t, r', h1', _⟩
      · exact h3
      · rw [h1] at h1'; exact absurd h1' (by simp)
    rw [h2] at hs
    rw [h1] at hq
    by_cases ht : n = "true"
    · subst ht
      rw [if_pos rfl] at hq
      simp only [true_or, if_true] at hs
      obtain rfl := Option.some.inj hs
      refine hsame Tm.tt h.reach.wf.tt_bool (fun I M _ => ?_) (Option.some.inj hq).symm
      rw [h.reach.wf.den_bool h.reach.wf.tt_bool, h.reach.wf.denB_tt]
      simp [Expr.value, hv]
    · rw [if_neg ht] at hq
      by_cases hf : n = "false"
      · subst hf
        rw [if_pos rfl] at hq
        simp only [or_true, if_true] at hs
        obtain rfl := Option.some.inj hs
        refine hsame Tm.ff h.reach.wf.ff_bool (fun I M _ => ?_) (Option.some.inj hq).symm
        rw [h.reach.wf.den_bool h.reach.wf.ff_bool, h.reach.wf.denB_ff]
        simp [Expr.value, hv]
      · rw [if_neg hf] at hq
        simp only [ht, hf, or_self, if_false] at hs
        cases hΓ : innermost Γ n with
        | none => simp [hΓ] at hs
        | some d =>
          rw [hΓ] at hs
          obtain ⟨hd, rfl⟩ := if_some hs
          obtain ⟨as, r⟩ := d
          simp only at hd
          subst hd
          obtain ⟨t, h3, h4⟩ := h.const n r hΓ
          simp only [Option.none_or, h3, Option.map_some] at hq
          refine hsame t h4 (fun I M hA => ?_) (Option.some.inj hq).symm
          rw [hA.const n r t hΓ h3]
          simp [Expr.value, hv, ht, hf]
  · rw [h2] at hs
    obtain rfl := Option.some.inj hs
    rw [if_neg h5, if_neg h6, h1] at hq
    refine hsame t h3 (fun I M _ => ?_) (Option.some.inj hq).symm
    rcases he.lookup I n with ⟨h1', _⟩ | ⟨t', _, h1', _, _, h4, _⟩
    · rw [h1] at h1'; exact absurd h1' (by simp)
    · rw [h1] at h1'
      obtain rfl := Option.some.inj h1'
      simp [Expr.value, h4]

theorem made_rational {s : TermTable} (h : TReach H s) (x : ℚ) :
    Made H s (s.arithConstant H x) .real (fun _ => .q x) :=
  made_op h (op := .rational x) trivial rfl (fun _ => rfl) (fun _ => rfl)

theorem read_num {Γ : Sig} {s : Names} (h : NRel H Γ s) {n : String} (hn : isNum n = true)
    {q : Names × Tm} (hq : Names.mkNumeral H s n = some q) :
    ReadAs H Γ s q .real (fun _ _ => .q (numVal n)) := by
  obtain ⟨c, h1, h2⟩ := mkInteger_numVal hn
  unfold Names.mkNumeral at hq
  rw [h1] at hq
  obtain rfl := Option.some.inj hq
  rw [← h2]
  exact read_made (made_rational h.reach _)

theorem read_dec {Γ : Sig} {s : Names} (h : NRel H Γ s) {n : String} (hn : isDec n = true)
    {q : Names × Tm} (hq : Names.mkDecimal H s n = some q) :
    ReadAs H Γ s q .real (fun _ _ => .q (decVal n)) := by
  obtain ⟨c, h1, h2⟩ := mkRational_decVal hn
  unfold Names.mkDecimal at hq
  rw [h1] at hq
  obtain rfl := Option.some.inj hq
  rw [← h2]
  exact read_made (made_rational h.reach _)

theorem forall₂_mem_left {α β : Type} {R : α → β → Prop} {l : List α} {l' : List β}
    (h : List.Forall₂ R l l') {a : α} (ha : a ∈ l) : ∃ b ∈ l', R a b := by
  induction h with
  | nil => exact absurd ha List.not_mem_nil
  | cons h0 _ ih =>
    rcases List.mem_cons.mp ha with rfl | ha
    · exact ⟨_, List.mem_cons_self, h0⟩
    · obtain ⟨b, hb, hr⟩ := ih ha
      exact ⟨b, List.mem_cons_of_mem _ hb, hr⟩

/-- The term of an application, given the terms of the arguments. -/
theorem read_app {Γ : Sig} {s : Names} (h : NRel H Γ s) {f : String} {args : List Tm} {ss : List Srt}
    (hty : HasSrts s.table args ss) {r : Srt}
    (hs : (match theoryOp f with
      | some o => o.sort ss
      | none =>
        match innermost Γ f with
        | some r => if r.1 = ss ∧ ss ≠ [] then some r.2 else none
        | none => none) = some r) {q : Names × Tm} (hq : Names.resolve H s f args = some q) :
    ReadAs H Γ s q r (fun I M =>
      match theoryOp f with
      | some o => o.value (args.map (den I s.table))
      | none => M f (args.map (den I s.table))) := by
  cases ho : theoryOp f with
  | some o =>
    rw [ho] at hs
    rw [resolve_theory h ho] at hq
    obtain ⟨r', h1, rfl⟩ := map_some hq
    exact read_made (mkTermOp_made h.reach ho hty hs h1)
  | none =>
    rw [ho] at hs
    cases hΓ : innermost Γ f with
    | none => simp [hΓ] at hs
    | some d =>
      obtain ⟨as, r0⟩ := d
      simp only [hΓ] at hs
      obtain ⟨⟨rfl, hne⟩, rfl⟩ := if_some hs
      obtain ⟨h1, h2, t, h3, h4, h5, h6⟩ := h.fn f as r0 hΓ hne
      unfold Names.resolve at hq
      rw [h1, h2] at hq
      simp only [h3, Option.map_some] at hq
      obtain ⟨_, hq⟩ := if_some hq
      have hrun : (MgrOp.app t args).run H s.table = some (s.table.mkApp H r0.ty t args) := by
        show some (s.table.mkApp H (s.table.type t) t args) = _
        rw [h6.type]
      have hargs : ∀ a ∈ args, IsBool s.table a ∨ IsReal s.table a := by
        intro a ha
        obtain ⟨b, _, hb⟩ := forall₂_mem_left hty ha
        exact hb.typed
      have hmade : Made H s.table (s.table.mkApp H r0.ty t args) r0
          (fun I => fnVal I t r0 (args.map (den I s.table))) := by
        refine made_op h.reach (op := .app t args) ⟨h5, h4, hargs⟩ hrun (fun I => ?_) (fun I => ?_)
        · simp only [meaning, h6.type]
          cases r0 <;> simp [Srt.ty, fnVal]
        · cases r0 <;> rfl
      subst hq
      refine ⟨⟨hmade.reach, hmade.ext, rfl, rfl, rfl⟩, hmade.srt, fun I M hA => ?_⟩
      rw [hA.fn f as r0 t _ hΓ hne h3 (hty.den_srts h.reach.wf I)]
      exact hmade.val I

/-! ### Terms -/

/-- What is known about terms made from a list of syntax trees. -/
structure Reads (H : TermHash) (Γ : Sig) (s : Names) (q : Names × List Tm) (ss : List Srt)
    (w : Interp → Struct → List Val) : Prop where
  grow : Grow H s q.1
  srt : HasSrts q.1.table q.2 ss
  val : ∀ I M, AgreeM Γ s I M → q.2.map (den I q.1.table) = w I M

/-- What is known about the bindings of a `let`. -/
structure ReadBinds (H : TermHash) (Γ : Sig) (s : Names) (q : Names × List (String × Tm))
    (ss : List (String × Srt)) (w : Interp → Struct → List (String × Val)) : Prop where
  grow : Grow H s q.1
  env : EnvRel q.1.table q.2 ss
  val : ∀ I M, AgreeM Γ s I M → envVals I q.1.table q.2 = w I M

theorem HasSrts.ext {s s' : TermTable} (he : Ext s s') {as : List Tm} {ss : List Srt} (h : HasSrts s as ss) :
    HasSrts s' as ss := forall₂_imp h fun _ _ hp => hp.ext he

theorem HasSrts.dens {s s' : TermTable} (he : Ext s s') {as : List Tm} {ss : List Srt} (h : HasSrts s as ss)
    (I : Interp) : as.map (den I s') = as.map (den I s) := by
  induction h with
  | nil => rfl
  | cons h0 _ ih => rw [List.map_cons, List.map_cons, ih, h0.den_ext he]

theorem EnvRel.append {s : TermTable} {a b : List (String × Tm)} {c d : List (String × Srt)}
    (h : EnvRel s a c) (h' : EnvRel s b d) : EnvRel s (a.reverse ++ b) (c.reverse ++ d) := by
  refine ⟨List.rel_append (List.forall₂_reverse_iff.mpr h.rel) h'.rel, fun p hp => ?_⟩
  rcases List.mem_append.mp hp with hp | hp
  · exact h.fair p (List.mem_reverse.mp hp)
  · exact h'.fair p hp

mutual
/-- The term made for a well-sorted syntax tree has its sort and its value. -/
theorem read_expr {Γ : Sig} : ∀ (e : Expr) {s : Names} (_ : NRel H Γ s) {env : List (String × Tm)}
    {srts : List (String × Srt)} (_ : EnvRel s.table env srts) {r : Srt} (_ : e.sort Γ srts = some r)
    (_ : e.fair = true) {q : Names × Tm} (_ : e.eval (Names.backend H) env s = some q),
    ReadAs H Γ s q r (fun I M => e.value M (envVals I s.table env))
  | .sym n, s, h, env, srts, he, r, hs, _, q, hq => read_sym h he hs hq
  | .num n, s, h, env, srts, he, r, hs, _, q, hq => by
    simp only [Expr.sort] at hs
    obtain ⟨hn, rfl⟩ := if_some hs
    simp only [Expr.value]
    exact read_num h hn hq
  | .dec n, s, h, env, srts, he, r, hs, _, q, hq => by
    simp only [Expr.sort] at hs
    obtain ⟨hn, rfl⟩ := if_some hs
    simp only [Expr.value]
    exact read_dec h hn hq
  | .app f args, s, h, env, srts, he, r, hs, hf, q, hq => by
    simp only [Expr.sort] at hs
    obtain ⟨ss, h1, h2⟩ := bind_some hs
    simp only [Expr.eval] at hq
    obtain ⟨p, h3, h4⟩ := bind_some hq
    simp only [Expr.fair] at hf
    have ha := read_exprs args h he h1 hf h3
    have hr := h.grow ha.grow
    have hb := read_app hr ha.srt h2 h4
    refine ⟨ha.grow.trans hb.grow, hb.srt, fun I M hA => ?_⟩
    rw [hb.val I M (hA.grow h ha.grow), ha.val I M hA]
    simp only [Expr.value]
    cases theoryOp f <;> rfl
  | .letE bs body, s, h, env, srts, he, r, hs, hf, q, hq => by
    simp only [Expr.sort] at hs
    obtain ⟨ss, h1, h2⟩ := bind_some hs
    simp only [Expr.eval] at hq
    obtain ⟨p, h3, h4⟩ := bind_some hq
    simp only [Expr.fair, Bool.and_eq_true] at hf
    have ha := read_binds bs h he h1 hf.1 h3
    have hr := h.grow ha.grow
    have hb := read_expr body hr (ha.env.append (he.ext ha.grow.ext)) h2 hf.2 h4
    refine ⟨ha.grow.trans hb.grow, hb.srt, fun I M hA => ?_⟩
    rw [hb.val I M (hA.grow h ha.grow)]
    simp only [Expr.value]
    rw [← ha.val I M hA, ← he.vals ha.grow.ext]
    unfold envVals
    rw [List.map_append, List.map_reverse]
theorem read_exprs {Γ : Sig} : ∀ (es : Exprs) {s : Names} (_ : NRel H Γ s) {env : List (String × Tm)}
    {srts : List (String × Srt)} (_ : EnvRel s.table env srts) {ss : List Srt}
    (_ : es.sorts Γ srts = some ss) (_ : es.fair = true) {q : Names × List Tm}
    (_ : es.eval (Names.backend H) env s = some q),
    Reads H Γ s q ss (fun I M => es.values M (envVals I s.table env))
  | .nil, s, h, env, srts, he, ss, hs, _, q, hq => by
    simp only [Exprs.sorts] at hs
    simp only [Exprs.eval] at hq
    obtain rfl := Option.some.inj hs
    obtain rfl := Option.some.inj hq
    exact ⟨.refl h.reach, .nil, fun _ _ _ => by simp [Exprs.values]⟩
  | .cons e es, s, h, env, srts, he, ss, hs, hf, q, hq => by
    simp only [Exprs.sorts] at hs
    obtain ⟨r, h1, h2⟩ := bind_some hs
    obtain ⟨rs, h5, rfl⟩ := map_some h2
    simp only [Exprs.eval] at hq
    obtain ⟨p, h3, h4⟩ := bind_some hq
    obtain ⟨p', h6, rfl⟩ := map_some h4
    simp only [Exprs.fair, Bool.and_eq_true] at hf
    have ha := read_expr e h he h1 hf.1 h3
    have hr := h.grow ha.grow
    have hb := read_exprs es hr (he.ext ha.grow.ext) h5 hf.2 h6
    refine ⟨ha.grow.trans hb.grow, .cons (ha.srt.ext hb.grow.ext) hb.srt, fun I M hA => ?_⟩
    simp only [List.map_cons, Exprs.values]
    rw [hb.val I M (hA.grow h ha.grow), ha.srt.den_ext hb.grow.ext, ha.val I M hA, he.vals ha.grow.ext]
theorem read_binds {Γ : Sig} : ∀ (bs : Binds) {s : Names} (_ : NRel H Γ s) {env : List (String × Tm)}
    {srts : List (String × Srt)} (_ : EnvRel s.table env srts) {ss : List (String × Srt)}
    (_ : bs.sorts Γ srts = some ss) (_ : bs.fair = true) {q : Names × List (String × Tm)}
    (_ : bs.eval (Names.backend H) env s = some q),
    ReadBinds H Γ s q ss (fun I M => bs.values M (envVals I s.table env))
  | .nil, s, h, env, srts, he, ss, hs, _, q, hq => by
    simp only [Binds.sorts] at hs
    simp only [Binds.eval] at hq
    obtain rfl := Option.some.inj hs
    obtain rfl := Option.some.inj hq
    exact ⟨.refl h.reach, ⟨.nil, by simp⟩, fun _ _ _ => by simp [Binds.values, envVals]⟩
  | .cons n e bs, s, h, env, srts, he, ss, hs, hf, q, hq => by
    simp only [Binds.sorts] at hs
    obtain ⟨r, h1, h2⟩ := bind_some hs
    obtain ⟨rs, h5, rfl⟩ := map_some h2
    simp only [Binds.eval] at hq
    obtain ⟨p, h3, h4⟩ := bind_some hq
    obtain ⟨p', h6, rfl⟩ := map_some h4
    simp only [Binds.fair, Bool.and_eq_true, decide_eq_true_eq] at hf
    have ha := read_expr e h he h1 hf.1.2 h3
    have hr := h.grow ha.grow
    have hb := read_binds bs hr (he.ext ha.grow.ext) h5 hf.2 h6
    refine ⟨ha.grow.trans hb.grow, ⟨.cons ⟨rfl, ha.srt.ext hb.grow.ext⟩ hb.env.rel, ?_⟩, fun I M hA => ?_⟩
    · intro p hp
      rcases List.mem_cons.mp hp with rfl | hp
      · exact hf.1.1
      · exact hb.env.fair p hp
    · have h5 := hb.val I M (hA.grow h ha.grow)
      simp only [Binds.values]
      rw [he.vals ha.grow.ext] at h5
      rw [← h5, ← ha.val I M hA, ← ha.srt.den_ext hb.grow.ext]
      rfl
end

end Yaga
