/-
Scripts without function declarations have no applications of uninterpreted functions.
-/
import Verif.Proofs.AppIn

namespace Yaga

open Spec TermTable

variable {H : TermHash}

/-- No term of the table is an application. -/
abbrev NoApp (s : TermTable) : Prop := AppIn (fun _ => False) s

theorem NoApp.kind_ne {s : TermTable} (h : NoApp s) (t : Tm) : s.kind t ≠ .app := by
  unfold TermTable.kind TermTable.entry
  cases he : s.terms[t.index]? with
  | none => simp
  | some e => exact fun hk => h e (List.mem_of_getElem? he) hk

/-- Rewriting without substitution does not change the table. -/
theorem rewriteLoop_table {cfg : TermTable → Tm → Tm} (hcfg : ∀ s t, cfg s t = t) :
    ∀ (n : Nat) (st : RwState) {st' : RwState}, st.subst = [] → rewriteLoop H cfg n st = some st' →
      st'.table = st.table
  | 0, st, st', _, h => by cases h
  | n + 1, st, st', hs, h => by
    unfold rewriteLoop at h
    split at h
    · cases h; rfl
    · rename_i t next rest hst
      by_cases hp : t ∈ st.processed
      · rw [if_pos hp] at h; cases h
      rw [if_neg hp] at h
      dsimp only at h
      by_cases hl : next < (st.table.args t).length
      · rw [dif_pos hl] at h
        by_cases hq : (st.table.args t)[next] ∈ st.processed
        · rw [if_pos hq] at h; exact (rewriteLoop_table hcfg n _ (by exact hs) h :)
        · rw [if_neg hq] at h; exact (rewriteLoop_table hcfg n _ (by exact hs) h :)
      · rw [dif_neg hl] at h
        have hc : ((st.table.args t).any fun c => (substFind st.subst c).isSome) = false := by
          rw [hs]; simp [substFind]
        rw [hc] at h
        simp only [Bool.false_eq_true, if_false, Option.bind_some, hcfg, ne_eq, not_true_eq_false, or_self] at h
        exact (rewriteLoop_table hcfg n _ (by exact hs) h :)

theorem resolveApp_table {n : Nat} {s : TermTable} {body : Tm} {args : List Tm} {q : TermTable × Tm}
    (h : resolveApp H n s [] body args = some q) : q.1 = s := by
  unfold resolveApp at h
  by_cases hc : ([] : List Tm).length = args.length
  · rw [if_pos hc] at h
    obtain ⟨st, h1, rfl⟩ := map_some h
    refine rewriteLoop_table (fun s t => ?_) n _ rfl h1
    unfold varSubstitute
    simp [substFind]
  · rw [if_neg hc] at h; cases h

/-- No applications, no declared functions, and no defined functions with parameters. -/
structure Flat (s : Names) : Prop where
  table : NoApp s.table
  decls : s.decls = []
  defs : ∀ n d, assoc s.defs n = some d → d.1 = []

theorem Flat.with_table {s : Names} (h : Flat s) {t : TermTable} (ht : NoApp t) : Flat { s with table := t } :=
  ⟨ht, h.decls, h.defs⟩

theorem flat_resolve {s : Names} (h : Flat s) {n : String} {args : List Tm} {q : Names × Tm}
    (hq : Names.resolve H s n args = some q) : Flat q.1 := by
  unfold Names.resolve at hq
  split at hq
  · rename_i d hd
    obtain ⟨r, hr, rfl⟩ := map_some hq
    rw [h.defs n d hd] at hr
    exact h.with_table (by rw [resolveApp_table hr]; exact h.table)
  · have hd : assoc s.decls n = none := by rw [h.decls]; rfl
    rw [hd] at hq
    dsimp only at hq
    obtain ⟨r, hr, rfl⟩ := map_some hq
    exact h.with_table (h.table.mkTermOp _ _ hr)

mutual
theorem flat_expr : ∀ (e : Expr) {s : Names} (_ : Flat s) {env : List (String × Tm)} {q : Names × Tm}
    (_ : e.eval (Names.backend H) env s = some q), Flat q.1
  | .sym n, s, h, env, q, hq => by
    unfold Expr.eval at hq
    by_cases h1 : n = "true"
    · rw [if_pos h1] at hq; cases hq; exact h
    rw [if_neg h1] at hq
    by_cases h2 : n = "false"
    · rw [if_pos h2] at hq; cases hq; exact h
    rw [if_neg h2] at hq
    obtain ⟨t, _, rfl⟩ := map_some hq
    exact h
  | .num n, s, h, env, q, hq => by
    unfold Expr.eval at hq
    obtain ⟨c, _, rfl⟩ := map_some hq
    exact h.with_table (h.table.arithConstant _)
  | .dec n, s, h, env, q, hq => by
    unfold Expr.eval at hq
    obtain ⟨c, _, rfl⟩ := map_some hq
    exact h.with_table (h.table.arithConstant _)
  | .app f args, s, h, env, q, hq => by
    unfold Expr.eval at hq
    obtain ⟨r, hr, h1⟩ := bind_some hq
    exact flat_resolve (flat_exprs args h hr) h1
  | .letE bs body, s, h, env, q, hq => by
    unfold Expr.eval at hq
    obtain ⟨r, hr, h1⟩ := bind_some hq
    exact flat_expr body (flat_binds bs h hr) h1
theorem flat_exprs : ∀ (es : Exprs) {s : Names} (_ : Flat s) {env : List (String × Tm)} {q : Names × List Tm}
    (_ : es.eval (Names.backend H) env s = some q), Flat q.1
  | .nil, s, h, env, q, hq => by
    unfold Exprs.eval at hq; cases hq; exact h
  | .cons e es, s, h, env, q, hq => by
    unfold Exprs.eval at hq
    obtain ⟨r, hr, h1⟩ := bind_some hq
    obtain ⟨r2, hr2, rfl⟩ := map_some h1
    exact (flat_exprs es (flat_expr e h hr) hr2 : Flat r2.1)
theorem flat_binds : ∀ (bs : Binds) {s : Names} (_ : Flat s) {env : List (String × Tm)}
    {q : Names × List (String × Tm)} (_ : bs.eval (Names.backend H) env s = some q), Flat q.1
  | .nil, s, h, env, q, hq => by
    unfold Binds.eval at hq; cases hq; exact h
  | .cons n e bs, s, h, env, q, hq => by
    unfold Binds.eval at hq
    obtain ⟨r, hr, h1⟩ := bind_some hq
    obtain ⟨r2, hr2, rfl⟩ := map_some h1
    exact (flat_binds bs (flat_expr e h hr) hr2 : Flat r2.1)
end

theorem flat_init : Flat (Names.init H) := ⟨AppIn.init, rfl, fun _ _ h => by cases h⟩

theorem flat_declare {s s' : Names} (h : Flat s) {n : String} {args : List Ty} {ty : Ty}
    (hs : s.declare false n args ty = some s') : Flat s' := by
  unfold Names.declare at hs
  by_cases ha : args = []
  · rw [if_pos ha] at hs
    unfold Names.declareConst Names.setName at hs
    dsimp only at hs
    split at hs
    · cases hs
    · cases hs; exact ⟨h.table.fresh _, h.decls, h.defs⟩
  · rw [if_neg ha] at hs
    simp at hs

theorem flat_assert {c : FE} (h : Flat c.st) (hr : Rep c.recs ⟨[], []⟩) {e : Expr} {rest : List Tok} {q : FE × List Tok}
    (hq : c.assertCmd H (e.toks ++ rest) = some q) : Flat q.1.st := by
  obtain ⟨r, h1, rfl⟩ := map_some hq
  exact flat_expr e h (parse_eval hr h1).1

theorem flat_define {c : FE} (h : Flat c.st) (hr : Rep c.recs ⟨[], []⟩) {n : String} {ty : Ty} {e : Expr}
    {rest : List Tok} {q : FE × List Tok} (hq : c.defineCmd H n [] ty (e.toks ++ rest) = some q) : Flat q.1.st := by
  obtain ⟨r, h1, rfl⟩ := map_some hq
  obtain ⟨p, h2, h3⟩ := bind_some h1
  obtain ⟨recs, _, h4⟩ := bind_some h3
  obtain ⟨s, h5, rfl⟩ := map_some h4
  have hrep : Rep c.recs.pushFrame ⟨[[]], []⟩ := by
    obtain ⟨r', hr1, hr2⟩ := hr.step .push
    obtain rfl := Option.some.inj hr1
    exact hr2
  have hp : Flat p.2.2.2 := flat_expr e h (parse_eval hrep h2).1
  unfold Names.storeDefined at h5
  split at h5
  · cases h5
  · cases h5
    refine ⟨hp.table, hp.decls, fun m d hd => ?_⟩
    by_cases hm : n = m
    · subst hm
      rw [assoc_cons_self] at hd
      cases hd; rfl
    · rw [assoc_cons_ne (Ne.symm hm)] at hd
      exact hp.defs m d hd

end Yaga
