/-
Terms of scripts whose functions take and return reals and have plain arguments.
-/
import Verif.Proofs.Accept
import Verif.Proofs.AppIn
import Verif.Spec.OneVar
import Verif.Spec.UfModel

namespace Yaga

open Spec TermTable

variable {H : TermHash} {s : TermTable}

/-- Applications are real, their arguments are real and neither products nor sums. -/
def RealApps (s : TermTable) : Prop :=
  ∀ e ∈ s.terms, e.kind = .app → e.type = .real ∧
    ∀ a ∈ (argsOf e).tail, IsReal s a ∧ s.kind a ≠ .product ∧ s.kind a ≠ .poly

theorem RealApps.kept {s' : TermTable} (he : Ext s s') (h : RealApps s) (hk : AppIn (· ∈ s.terms) s') :
    RealApps s' := by
  intro e hm hk'
  obtain ⟨h1, h2⟩ := h e (hk e hm hk') hk'
  refine ⟨h1, fun a ha => ?_⟩
  obtain ⟨h3, h4⟩ := h2 a ha
  rw [kind_ext he (Spec.IsReal.index_lt h3)]
  exact ⟨Spec.IsReal.ext he h3, h4⟩

theorem appIn_self (s : TermTable) : AppIn (· ∈ s.terms) s := fun _ h _ => h

theorem realApps_init : RealApps (TermTable.init H) := fun e he hk =>
  absurd hk fun hk => (AppIn.init (P := fun _ => False) e he hk)

theorem realApps_app (h : WF H s) (hA : RealApps s) {f : Tm} {args : List Tm} (hf : s.kind f = .uninterpreted)
    (hn : f.isNeg = false)
    (ha : ∀ a ∈ args, IsReal s a ∧ s.kind a ≠ .product ∧ s.kind a ≠ .poly) :
    RealApps (s.composite H .app .real (f :: args)).1 := by
  have hw := composite_wf (H := H) (k := .app) (ty := .real) (as := f :: args) h (by decide)
    ⟨nofun, f, args, rfl, ⟨hf, hn⟩, fun a h => Or.inr (ha a h).1⟩
  have he : Ext s (s.composite H .app .real (f :: args)).1 := hw.2.1
  intro e hm hk
  have key : e ∈ s.terms ∨ e = ⟨.app, .real, .comp (f :: args)⟩ := by
    unfold composite TermTable.get at hm
    split at hm
    · exact Or.inl hm
    · rcases List.mem_append.mp hm with hm | hm
      · exact Or.inl hm
      · exact Or.inr (List.mem_singleton.mp hm)
  have : e.type = .real ∧ ∀ a ∈ (argsOf e).tail, IsReal s a ∧ s.kind a ≠ .product ∧ s.kind a ≠ .poly := by
    rcases key with hm | rfl
    · exact hA e hm hk
    · exact ⟨rfl, ha⟩
  refine ⟨this.1, fun a ha => ?_⟩
  obtain ⟨h3, h4⟩ := this.2 a ha
  rw [kind_ext he (Spec.IsReal.index_lt h3)]
  exact ⟨Spec.IsReal.ext he h3, h4⟩

/-- The functions of a signature take and return reals. -/
def GReal (Γ : Sig) : Prop :=
  ∀ n as r, innermost Γ n = some (as, r) → as ≠ [] → r = .real ∧ ∀ a ∈ as, a = .real

theorem real_app {Γ : Sig} {s : Names} (h : NRel H Γ s) (hG : GReal Γ) (hA : RealApps s.table) {f : String}
    {args : List Tm} {ss : List Srt} (hty : HasSrts s.table args ss) {r : Srt}
    (hs : (match theoryOp f with
      | some o => o.sort ss
      | none =>
        match innermost Γ f with
        | some r => if r.1 = ss ∧ ss ≠ [] then some r.2 else none
        | none => none) = some r) {ls : List Lin} (hf : Forms s.table args ls)
    (hp : (theoryOp f).isSome = true ∨ ls.all Lin.isPrim = true) {q : Names × Tm} (hE : Ext s.table q.1.table)
    (hq : Names.resolve H s f args = some q) : RealApps q.1.table := by
  cases ho : theoryOp f with
  | some o =>
    rw [resolve_theory h ho] at hq
    obtain ⟨p, h1, rfl⟩ := map_some hq
    exact hA.kept hE ((appIn_self s.table).mkTermOp _ _ h1)
  | none =>
    rw [ho] at hs hp
    have hp := hp.resolve_left nofun
    cases hΓ : innermost Γ f with
    | none => simp [hΓ] at hs
    | some d =>
      obtain ⟨as, r0⟩ := d
      simp only [hΓ] at hs
      obtain ⟨⟨rfl, hne⟩, rfl⟩ := if_some hs
      obtain ⟨h1, h2, t, h3, h4, h5, h6⟩ := h.fn f as r0 hΓ hne
      obtain ⟨rfl, hreal⟩ := hG f as r0 hΓ hne
      unfold Names.resolve at hq
      rw [h1, h2] at hq
      simp only [h3, Option.map_some] at hq
      obtain ⟨_, rfl⟩ := if_some hq
      refine realApps_app h.reach.wf hA h5 h4 fun a ha => ?_
      obtain ⟨b, hb, h7⟩ := forall₂_mem_left hty ha
      obtain rfl := hreal b hb
      obtain ⟨l, hl, h8⟩ := forms_mem hf hp a ha
      have hr : IsReal s.table a := h7
      exact ⟨hr, h8.atomic hr hl⟩

mutual
theorem real_expr {Γ : Sig} (hG : GReal Γ) {Λ : List (String × Lin)} : ∀ (e : Expr) {s : Names} (_ : NRel H Γ s)
    {env : List (String × Tm)} {srts : List (String × Srt)} (_ : EnvRel s.table env srts) {r : Srt}
    (_ : e.sort Γ srts = some r) (_ : e.fair = true) (_ : LRel Γ s Λ) {ls : List (String × Lin)}
    (_ : EnvForms s.table env ls) {l : Lin} (_ : e.lin (ls ++ Λ) = some l) (_ : e.plain (ls ++ Λ) = true)
    (_ : RealApps s.table) {q : Names × Tm} (_ : e.eval (Names.backend H) env s = some q), RealApps q.1.table
  | .sym n, s, h, env, srts, he, r, hs, _, hL, ls, hE, l, hl, _, hA, q, hq => by
    unfold Expr.eval at hq
    by_cases h1 : n = "true"
    · rw [if_pos h1] at hq; cases hq; exact hA
    rw [if_neg h1] at hq
    by_cases h2 : n = "false"
    · rw [if_pos h2] at hq; cases hq; exact hA
    rw [if_neg h2] at hq
    obtain ⟨t, _, rfl⟩ := map_some hq
    exact hA
  | .num n, s, h, env, srts, he, r, hs, _, hL, ls, hE, l, hl, _, hA, q, hq => by
    unfold Expr.eval at hq
    obtain ⟨c, _, rfl⟩ := map_some hq
    exact hA.kept (arithConstant_wf h.reach.wf _).2.1 ((appIn_self s.table).arithConstant _)
  | .dec n, s, h, env, srts, he, r, hs, _, hL, ls, hE, l, hl, _, hA, q, hq => by
    unfold Expr.eval at hq
    obtain ⟨c, _, rfl⟩ := map_some hq
    exact hA.kept (arithConstant_wf h.reach.wf _).2.1 ((appIn_self s.table).arithConstant _)
  | .app f args, s, h, env, srts, he, r, hs, hf, hL, ls, hE, l, hl, hp, hA, q, hq => by
    have hs0 := hs
    have hf0 := hf
    simp only [Expr.sort] at hs
    obtain ⟨ss, h1, h2⟩ := bind_some hs
    simp only [Expr.lin] at hl
    obtain ⟨la, l1, l2⟩ := bind_some hl
    simp only [Expr.fair] at hf
    simp only [Expr.plain, l1, Bool.and_eq_true, Bool.or_eq_true] at hp
    obtain ⟨p, h3, h4⟩ := accept_exprs args h he h1 hf hL hE l1
    have ha := read_exprs args h he h1 hf h3
    have hA1 := real_exprs hG args h he h1 hf hL hE l1 hp.1 hA h3
    simp only [Expr.eval, h3, Option.bind_some] at hq
    have hn := h.grow ha.grow
    exact real_app hn hG hA1 ha.srt h2 h4 hp.2 (read_app hn ha.srt h2 hq).grow.ext hq
  | .letE bs body, s, h, env, srts, he, r, hs, hf, hL, ls, hE, l, hl, hp, hA, q, hq => by
    simp only [Expr.sort] at hs
    obtain ⟨ss, h1, h2⟩ := bind_some hs
    simp only [Expr.lin] at hl
    obtain ⟨la, l1, l2⟩ := bind_some hl
    simp only [Expr.fair, Bool.and_eq_true] at hf
    simp only [Expr.plain, l1, Bool.and_eq_true] at hp
    obtain ⟨p, h3, h4⟩ := accept_binds bs h he h1 hf.1 hL hE l1
    have ha := read_binds bs h he h1 hf.1 h3
    have hE' := EnvForms.ext h.reach.wf ha.grow.ext he hE
    have hA1 := real_binds hG bs h he h1 hf.1 hL hE l1 hp.1 hA h3
    simp only [Expr.eval, h3, Option.bind_some] at hq
    exact real_expr hG body (h.grow ha.grow) (ha.env.append (he.ext ha.grow.ext)) h2 hf.2
      (hL.grow h ha.grow) (ls := la.reverse ++ ls)
      (List.rel_append (List.forall₂_reverse_iff.mpr h4) hE') (by rw [List.append_assoc]; exact l2)
      (by rw [List.append_assoc]; exact hp.2) hA1 hq
theorem real_exprs {Γ : Sig} (hG : GReal Γ) {Λ : List (String × Lin)} : ∀ (es : Exprs) {s : Names} (_ : NRel H Γ s)
    {env : List (String × Tm)} {srts : List (String × Srt)} (_ : EnvRel s.table env srts) {ss : List Srt}
    (_ : es.sorts Γ srts = some ss) (_ : es.fair = true) (_ : LRel Γ s Λ) {ls : List (String × Lin)}
    (_ : EnvForms s.table env ls) {l : List Lin} (_ : es.lins (ls ++ Λ) = some l) (_ : es.plains (ls ++ Λ) = true)
    (_ : RealApps s.table) {q : Names × List Tm} (_ : es.eval (Names.backend H) env s = some q), RealApps q.1.table
  | .nil, s, h, env, srts, he, ss, hs, _, hL, ls, hE, l, hl, _, hA, q, hq => by
    unfold Exprs.eval at hq; cases hq; exact hA
  | .cons e es, s, h, env, srts, he, ss, hs, hf, hL, ls, hE, l, hl, hp, hA, q, hq => by
    simp only [Exprs.sorts] at hs
    obtain ⟨r, h1, h2⟩ := bind_some hs
    obtain ⟨rs, h3, rfl⟩ := map_some h2
    simp only [Exprs.lins] at hl
    obtain ⟨l1, k1, k2⟩ := bind_some hl
    obtain ⟨l2, k3, rfl⟩ := map_some k2
    simp only [Exprs.fair, Bool.and_eq_true] at hf
    simp only [Exprs.plains, Bool.and_eq_true] at hp
    unfold Exprs.eval at hq
    obtain ⟨p, h4, hq1⟩ := bind_some hq
    obtain ⟨p2, h5, rfl⟩ := map_some hq1
    have ha := read_expr e h he h1 hf.1 h4
    have hE' := EnvForms.ext h.reach.wf ha.grow.ext he hE
    exact (real_exprs hG es (h.grow ha.grow) (he.ext ha.grow.ext) h3 hf.2 (hL.grow h ha.grow) hE' k3 hp.2
      (real_expr hG e h he h1 hf.1 hL hE k1 hp.1 hA h4) h5 : RealApps p2.1.table)
theorem real_binds {Γ : Sig} (hG : GReal Γ) {Λ : List (String × Lin)} : ∀ (bs : Binds) {s : Names} (_ : NRel H Γ s)
    {env : List (String × Tm)} {srts : List (String × Srt)} (_ : EnvRel s.table env srts)
    {ss : List (String × Srt)} (_ : bs.sorts Γ srts = some ss) (_ : bs.fair = true) (_ : LRel Γ s Λ)
    {ls : List (String × Lin)} (_ : EnvForms s.table env ls) {l : List (String × Lin)}
    (_ : bs.lins (ls ++ Λ) = some l) (_ : bs.plains (ls ++ Λ) = true)
    (_ : RealApps s.table) {q : Names × List (String × Tm)} (_ : bs.eval (Names.backend H) env s = some q),
    RealApps q.1.table
  | .nil, s, h, env, srts, he, ss, hs, _, hL, ls, hE, l, hl, _, hA, q, hq => by
    unfold Binds.eval at hq; cases hq; exact hA
  | .cons n e bs, s, h, env, srts, he, ss, hs, hf, hL, ls, hE, l, hl, hp, hA, q, hq => by
    simp only [Binds.sorts] at hs
    obtain ⟨r, h1, h2⟩ := bind_some hs
    obtain ⟨rs, h3, rfl⟩ := map_some h2
    simp only [Binds.lins] at hl
    obtain ⟨l1, k1, k2⟩ := bind_some hl
    obtain ⟨l2, k3, rfl⟩ := map_some k2
    simp only [Binds.fair, Bool.and_eq_true] at hf
    simp only [Binds.plains, Bool.and_eq_true] at hp
    unfold Binds.eval at hq
    obtain ⟨p, h4, hq1⟩ := bind_some hq
    obtain ⟨p2, h5, rfl⟩ := map_some hq1
    have ha := read_expr e h he h1 hf.1.2 h4
    have hE' := EnvForms.ext h.reach.wf ha.grow.ext he hE
    exact (real_binds hG bs (h.grow ha.grow) (he.ext ha.grow.ext) h3 hf.2 (hL.grow h ha.grow) hE' k3 hp.2
      (real_expr hG e h he h1 hf.1.2 hL hE k1 hp.1 hA h4) h5 : RealApps p2.1.table)
end

theorem declare_table {s s' : Names} {uf : Bool} {n : String} {as : List Ty} {ty : Ty}
    (h : s.declare uf n as ty = some s') : s'.table = (s.table.fresh ty).1 := by
  unfold Names.declare at h
  by_cases ha : as = []
  · rw [if_pos ha] at h
    unfold Names.declareConst Names.setName at h
    dsimp only at h
    split at h
    · cases h
    · cases h; rfl
  · rw [if_neg ha] at h
    by_cases hu : uf = true
    · rw [if_pos hu] at h
      unfold Names.declareFun Names.setName at h
      dsimp only at h
      split at h
      · cases h
      · cases h; rfl
    · rw [if_neg hu] at h; cases h

theorem real_item {uf : Bool} {is : List Item} {c c' : FE} (h : SRel H is c) {Λ Λ' : List (String × Lin)}
    (hL : LRel (Spec.sigOf is) c.st Λ) {i : Item} (hi : i.Ok (Spec.sigOf is)) (hG : GReal (Spec.sigOf is))
    (hl : i.lin Λ = some Λ') (hp : i.plain Λ = true) (hA : RealApps c.st.table) (hc : c.item H uf i = some c') :
    RealApps c'.st.table := by
  cases i with
  | declare n as r =>
    obtain ⟨s, h3, rfl⟩ := map_some hc
    obtain ⟨t, hD⟩ := declared_of h.nrel.reach h3
    refine hA.kept hD.ext ?_
    rw [declare_table h3]
    exact (appIn_self _).fresh _
  | define n r e =>
    obtain ⟨hn, hs, hf⟩ : (Spec.sigOf is).fresh n ∧ e.sort (Spec.sigOf is) [] = some r ∧ e.fair = true := hi
    obtain ⟨l, h1, rfl⟩ := map_some hl
    obtain ⟨q, h3, h4⟩ := bind_some hc
    obtain ⟨_, rfl⟩ := if_some h4
    obtain ⟨r0, h5, rfl⟩ := map_some h3
    obtain ⟨p, h6, h7⟩ := bind_some h5
    obtain ⟨recs, _, h8⟩ := bind_some h7
    obtain ⟨s, h9, rfl⟩ := map_some h8
    have hrep : Rep c.recs.pushFrame ⟨[[]], []⟩ := by
      obtain ⟨r', hr1, hr2⟩ := h.recs.step .push
      obtain rfl := Option.some.inj hr1
      exact hr2
    have hev := (parse_eval hrep h6).1
    have := real_expr hG e h.nrel (envRel_nil _) hs hf hL (ls := []) .nil h1 hp hA hev
    unfold Names.storeDefined at h9
    split at h9
    · cases h9
    · cases h9; exact this
  | assert e =>
    obtain ⟨hs, hf⟩ : e.sort (Spec.sigOf is) [] = some .bool ∧ e.fair = true := hi
    obtain ⟨l, h1, rfl⟩ := map_some hl
    obtain ⟨q, h3, h4⟩ := bind_some hc
    obtain ⟨_, rfl⟩ := if_some h4
    obtain ⟨r, h5, rfl⟩ := map_some h3
    exact real_expr hG e h.nrel (envRel_nil _) hs hf hL (ls := []) .nil h1 hp hA (parse_eval h.recs h5).1

theorem greal_item {Γ : Sig} (hG : GReal Γ) {i : Item}
    (hr : ∀ n as r, i = .declare n as r → as ≠ [] → r = .real ∧ ∀ a ∈ as, a = .real) : GReal (i.sig Γ) := by
  have key : ∀ n d, (∀ as r, d = (as, r) → as ≠ [] → r = .real ∧ ∀ a ∈ as, a = .real) → GReal ((n, d) :: Γ) := by
    intro n d hd m as r hm hne
    by_cases he : m = n
    · subst he
      rw [innermost_cons_self] at hm
      exact hd as r (Option.some.inj hm) hne
    · rw [innermost_cons_ne he] at hm
      exact hG m as r hm hne
  cases i with
  | declare n as r =>
    refine key n (as, r) ?_
    rintro _ _ ⟨⟩ hne
    exact hr n as r rfl hne
  | define n r e =>
    refine key n ([], r) ?_
    rintro _ _ ⟨⟩ hne
    exact absurd rfl hne
  | assert e => exact hG

theorem real_items {uf : Bool} {is js : List Item} {c c' : FE} (h : SRel H is c) {Λ : List (String × Lin)}
    (hL : LRel (Spec.sigOf is) c.st Λ) (hw : wellFormed (Spec.sigOf is) js) (hl : linear Λ js = true)
    (hp : plainArgs Λ js = true) (hr : realFunctions js) (hG : GReal (Spec.sigOf is))
    (huf : uf = true ∨ ∀ n as r, Item.declare n as r ∈ js → as = [])
    (hA : RealApps c.st.table) (hc : c.items H uf js = some c') : RealApps c'.st.table := by
  induction js generalizing is c Λ with
  | nil => cases hc; exact hA
  | cons i js ih =>
    unfold linear at hl
    unfold plainArgs at hp
    cases hi : i.lin Λ with
    | none => rw [hi] at hl; exact absurd hl nofun
    | some Λ' =>
      rw [hi] at hl hp
      rw [Bool.and_eq_true] at hp
      obtain ⟨c1, h1, h2⟩ := bind_some hc
      obtain ⟨c2, h3, h4⟩ := accept_item (uf := uf) h hL hw.1
        (huf.imp_right fun h n as r e => h n as r (e ▸ List.mem_cons_self)) hi
      obtain rfl := Option.some.inj (h1.symm.trans h3)
      exact ih (h.item hw.1 h1) h4 (by rw [sigOf_snoc]; exact hw.2) hl hp.2
        (fun n as r hm => hr n as r (List.mem_cons_of_mem _ hm))
        (by rw [sigOf_snoc]; exact greal_item hG fun n as r e => hr n as r (e ▸ List.mem_cons_self))
        (huf.imp_right fun h n as r hm => h n as r (List.mem_cons_of_mem _ hm))
        (real_item h hL hw.1 hG hi hp.1 hA h1) h2

/-! ### The conversion -/

theorem RealApps.entry (h : RealApps s) {t : Tm} (hk : s.kind t = .app) :
    s.type t = .real ∧ ∀ a ∈ s.args t, IsReal s a ∧ s.kind a ≠ .product ∧ s.kind a ≠ .poly := by
  obtain ⟨e, he, hek⟩ := entry_of_kind (s := s) (t := t) (by rw [hk]; nofun)
  rw [hk] at hek
  obtain ⟨h1, h2⟩ := h e (List.mem_of_getElem? he) hek
  refine ⟨by rw [type_of_entry he]; exact h1, fun a ha => h2 a ?_⟩
  unfold args allArgs at ha
  rw [if_pos hk, descr_of_entry he] at ha
  unfold argsOf
  rw [← List.drop_one]
  exact ha

/-- An argument that is negated is Boolean and not the constant `false`. -/
theorem arg_neg (hw : WF H s) (h : RealApps s) {t a : Tm} (ha : a ∈ s.args t) :
    a.isNeg = false ∨ (IsBool s a ∧ a.index ≠ 1) := by
  by_cases hk : s.kind t = .app
  · exact Or.inl ((h.entry hk).2 a ha).1.2
  cases he : s.entry t with
  | none =>
    unfold args allArgs TermTable.descr at ha
    rw [if_neg hk, he] at ha
    exact absurd ha (by simp)
  | some e =>
    have ha : a ∈ argsOf e := by
      unfold args allArgs at ha
      rw [if_neg hk, descr_of_entry he] at ha
      exact ha
    rw [kind_of_entry he] at hk
    have hsh := hw.shape _ e he
    unfold Shape at hsh
    unfold argsOf at ha
    cases hke : e.kind with
    | reserved | constant | uninterpreted => rw [hke] at hsh; simp [hsh.2] at ha
    | arithConst =>
      rw [hke] at hsh
      obtain ⟨_, q, hq⟩ := hsh
      simp [hq] at ha
    | app => exact absurd hke hk
    | ite =>
      rw [hke] at hsh
      obtain ⟨_, c, x, y, hd, hc, hx, hy⟩ := hsh
      simp only [hd, List.mem_cons, List.not_mem_nil, or_false] at ha
      rcases ha with rfl | rfl | rfl
      · exact Or.inl hc.2.1
      · exact Or.inl hx.2
      · exact Or.inl hy.2
    | or =>
      rw [hke] at hsh
      obtain ⟨_, as, hd, h1, h2⟩ := hsh
      simp only [hd] at ha
      exact Or.inr ⟨h2 a ha, h1.2 a ha⟩
    | arithEq | arithGe =>
      rw [hke] at hsh
      obtain ⟨_, x, hd, hx, _⟩ := hsh
      simp only [hd, List.mem_cons, List.not_mem_nil, or_false] at ha
      subst ha
      exact Or.inl hx.2
    | arithBinEq =>
      rw [hke] at hsh
      obtain ⟨_, x, y, hd, hx, hy, _⟩ := hsh
      simp only [hd, List.mem_cons, List.not_mem_nil, or_false] at ha
      rcases ha with rfl | rfl
      · exact Or.inl hx.2
      · exact Or.inl hy.2
    | product =>
      rw [hke] at hsh
      obtain ⟨_, c, x, q, hd, hc, _, _, hx, _⟩ := hsh
      simp only [hd, List.mem_cons, List.not_mem_nil, or_false] at ha
      rcases ha with rfl | rfl
      · exact Or.inl hc
      · exact Or.inl hx.2
    | poly =>
      rw [hke] at hsh
      obtain ⟨_, as, p, hd, _, _, hm⟩ := hsh
      simp only [hd] at ha
      obtain ⟨m, _, hm⟩ := forall₂_mem_right hm ha
      unfold MonoTerm at hm
      split at hm
      · exact Or.inl hm.1
      · obtain ⟨hx, _, ⟨_, rfl⟩ | ⟨_, _, _, _, hn, _⟩⟩ := hm
        · exact Or.inl hx.2
        · exact Or.inl hn

theorem RealApps.supported (hw : WF H s) (h : RealApps s) {cfg : ICfg}
    (hd : cfg.dbg = false ∨ ∀ t, s.kind t ≠ .app) : Supported cfg s where
  app t a ha hk := (arg_neg hw h ha).resolve_right fun hb => by
    have := hb.1
    unfold IsBool at this
    rw [(h.entry hk).1] at this
    cases this
  ff t ha := by
    rcases arg_neg hw h ha with h1 | h1
    · exact absurd h1 (by decide)
    · exact absurd (by decide) h1.2
  eq hdb t _ a _ := hd.elim (fun h => absurd (h.symm.trans hdb) nofun) fun h => h a

theorem RealApps.realFns (h : RealApps s) : RealFns s := fun _ hk =>
  ⟨(h.entry hk).1, fun a ha => ((h.entry hk).2 a ha).1.1⟩

theorem RealApps.oneVar (h : RealApps s) : OneVar s := by
  intro t hk a ha
  obtain ⟨h1, h2, h3⟩ := (h.entry hk).2 a ha
  unfold atoms
  rw [if_neg h3]
  unfold monoAtoms
  split
  · simp
  · rename_i hp; exact absurd hp h2
  · simp

end Yaga
