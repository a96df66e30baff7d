import Verif.Model.Analysis
import Verif.Spec.Reasons
import Verif.Spec.Sat
import Verif.Proofs.Trail
import Verif.Proofs.Std
import Verif.Proofs.Eval
import Mathlib.Data.List.Nodup
import Mathlib.Tactic.Linarith

namespace Yaga
open Spec
variable {R : Type}

/-! ### Literals in the trail's model -/

theorem evalLit_false_iff (m : PModel Bool) (l : Lit) :
    evalLit m l = some false ↔ m.defined l.ord = true ∧ l = Lit.ofVal l.ord (!m.value l.ord) := by
  unfold evalLit
  rw [Lit.ext_iff']
  cases m.defined l.ord <;> cases m.value l.ord <;> cases l.isNeg <;> simp

theorem evalLit_true_iff (m : PModel Bool) (l : Lit) :
    evalLit m l = some true ↔ m.defined l.ord = true ∧ l = Lit.ofVal l.ord (m.value l.ord) := by
  unfold evalLit
  rw [Lit.ext_iff']
  cases m.defined l.ord <;> cases m.value l.ord <;> cases l.isNeg <;> simp

theorem false_level {t : Trail R} (h : t.Inv) {l : Lit} (hl : evalLit t.bools l = some false) :
    ∃ n, t.level l.var = some n := by
  have := ((evalLit_false_iff _ _).1 hl).1
  exact (h.defined l.var).1 this

theorem false_unique {t : Trail R} {l m : Lit} (hl : evalLit t.bools l = some false)
    (hm : evalLit t.bools m = some false) (h : l.var = m.var) : l = m := by
  have ho : l.ord = m.ord := congrArg Var.ord h
  rw [((evalLit_false_iff _ _).1 hl).2, ((evalLit_false_iff _ _).1 hm).2, ho]

/-! ### `resolve` -/

theorem mem_resolveLoop (t : Trail R) (lit : Lit) (ls : List Lit) (c : CA) (l : Lit) :
    l ∈ (CA.resolveLoop t lit ls c).conflict ↔ l ∈ c.conflict ∨ (l ∈ ls ∧ l ≠ lit.neg) := by
  induction ls generalizing c with
  | nil => simp [CA.resolveLoop]
  | cons m ms ih =>
    unfold CA.resolveLoop
    by_cases h1 : m = lit.neg
    · simp only [h1, ne_eq, not_true_eq_false, if_false, ih, List.mem_cons]
      tauto
    · simp only [ne_eq, h1, not_false_eq_true, if_true]
      by_cases h2 : m ∈ c.conflict
      · simp only [h2, if_true, ih, List.mem_cons]
        constructor
        · rintro (h | h)
          · exact Or.inl h
          · exact Or.inr ⟨Or.inr h.1, h.2⟩
        · rintro (h | ⟨rfl | h, h'⟩)
          · exact Or.inl h
          · exact Or.inl h2
          · exact Or.inr ⟨h, h'⟩
      · simp only [h2, if_false, ih, List.mem_cons]
        constructor
        · rintro ((rfl | h) | h)
          · exact Or.inr ⟨Or.inl rfl, h1⟩
          · exact Or.inl h
          · exact Or.inr ⟨Or.inr h.1, h.2⟩
        · rintro (h | ⟨rfl | h, h'⟩)
          · exact Or.inl (Or.inr h)
          · exact Or.inl (Or.inl rfl)
          · exact Or.inr ⟨h, h'⟩

theorem top_resolveLoop (t : Trail R) (lit : Lit) (ls : List Lit) (c : CA) :
    (CA.resolveLoop t lit ls c).topLevel = c.topLevel := by
  induction ls generalizing c with
  | nil => rfl
  | cons m ms ih =>
    unfold CA.resolveLoop
    split
    · split <;> simp [ih]
    · exact ih c

/-- What the counters of the analysis mean. -/
structure CA.Ok (t : Trail R) (c : CA) : Prop where
  nodup : c.conflict.Nodup
  count : c.numTop = countLevel t c.conflict c.topLevel

theorem ok_resolveLoop (t : Trail R) (lit : Lit) (ls : List Lit) (c : CA) (h : c.Ok t) :
    (CA.resolveLoop t lit ls c).Ok t := by
  induction ls generalizing c with
  | nil => exact h
  | cons m ms ih =>
    unfold CA.resolveLoop
    split
    · split
      · exact ih c h
      · rename_i h2
        apply ih
        refine ⟨List.nodup_cons.2 ⟨h2, h.nodup⟩, ?_⟩
        simp only [countLevel, List.countP_cons, h.count, beq_iff_eq]
        split <;> simp
    · exact ih c h

theorem mem_resolve {t : Trail R} {c : CA} (h : c.Ok t) (other : Clause) (lit l : Lit) :
    l ∈ (c.resolve t other lit).conflict ↔
      l ≠ lit ∧ (l ∈ c.conflict ∨ (l ∈ other ∧ l ≠ lit.neg)) := by
  unfold CA.resolve
  simp only
  rw [(ok_resolveLoop t lit other c h).nodup.mem_erase_iff, mem_resolveLoop]

theorem ok_resolve {t : Trail R} {c : CA} (h : c.Ok t) (other : Clause) (lit : Lit)
    (hm : lit ∈ c.conflict) (hl : t.level lit.var = some c.topLevel) :
    (c.resolve t other lit).Ok t := by
  have h' := ok_resolveLoop t lit other c h
  have hmem : lit ∈ (CA.resolveLoop t lit other c).conflict :=
    (mem_resolveLoop t lit other c lit).2 (Or.inl hm)
  refine ⟨h'.nodup.erase lit, ?_⟩
  have hc := h'.count
  have hp := (List.perm_cons_erase hmem).countP_eq
    (fun l => t.level l.var == some (CA.resolveLoop t lit other c).topLevel)
  rw [List.countP_cons, if_pos (by rw [top_resolveLoop, hl]; simp)] at hp
  simp only [CA.resolve, countLevel] at *
  omega

theorem top_resolve (t : Trail R) (c : CA) (other : Clause) (lit : Lit) :
    (c.resolve t other lit).topLevel = c.topLevel := top_resolveLoop t lit other c

/-! ### `init` -/

theorem mem_setInsert (s : List Lit) (a l : Lit) : l ∈ setInsert s a ↔ l = a ∨ l ∈ s := by
  unfold setInsert
  split
  · constructor
    · exact Or.inr
    · rintro (rfl | h) <;> assumption
  · simp

theorem nodup_setInsert {s : List Lit} (h : s.Nodup) (a : Lit) : (setInsert s a).Nodup := by
  unfold setInsert
  split
  · exact h
  · rename_i hn; exact List.nodup_cons.2 ⟨hn, h⟩

theorem initLoop_spec (t : Trail R) (ls s : List Lit) (top : Nat) (s' : List Lit) (top' : Nat)
    (h : CA.initLoop t ls s top = some (s', top')) (hs : s.Nodup) :
    s'.Nodup ∧ (∀ l, l ∈ s' ↔ l ∈ s ∨ l ∈ ls) ∧ top ≤ top' ∧
    (∀ l ∈ ls, ∃ n, t.level l.var = some n ∧ n ≤ top') ∧
    (top' = top ∨ ∃ l ∈ ls, t.level l.var = some top') := by
  induction ls generalizing s top with
  | nil => simp only [CA.initLoop, Option.some.injEq, Prod.mk.injEq] at h; obtain ⟨rfl, rfl⟩ := h; simp [hs]
  | cons l ls ih =>
    unfold CA.initLoop at h
    rcases hl : t.level l.var with _ | n
    · rw [hl] at h; cases h
    · rw [hl] at h
      obtain ⟨a, b, c, d, e⟩ := ih _ _ h (nodup_setInsert hs l)
      refine ⟨a, ?_, by omega, ?_, ?_⟩
      · intro x; rw [b, mem_setInsert, List.mem_cons]; tauto
      · intro x hx
        rcases List.mem_cons.1 hx with rfl | hx
        · exact ⟨n, hl, by omega⟩
        · exact d x hx
      · rcases e with e | ⟨x, hx, hxl⟩
        · rcases Nat.le_total n top with hle | hle
          · left; rw [e]; exact Nat.max_eq_left hle
          · right; refine ⟨l, List.mem_cons_self, ?_⟩; rw [e, Nat.max_eq_right hle]; exact hl
        · exact Or.inr ⟨x, List.mem_cons_of_mem _ hx, hxl⟩

theorem initLoop_isSome (t : Trail R) (ls s : List Lit) (top : Nat)
    (h : ∀ l ∈ ls, ∃ n, t.level l.var = some n) : ∃ r, CA.initLoop t ls s top = some r := by
  induction ls generalizing s top with
  | nil => exact ⟨_, rfl⟩
  | cons l ls ih =>
    obtain ⟨n, hn⟩ := h l List.mem_cons_self
    unfold CA.initLoop
    rw [hn]
    exact ih _ _ fun x hx => h x (List.mem_cons_of_mem _ hx)

theorem init_ok {t : Trail R} {clause : Clause} {c : CA} (h : CA.init t clause = some c) :
    c.Ok t ∧ (∀ l, l ∈ c.conflict ↔ l ∈ clause) := by
  simp only [CA.init, Option.map_eq_some_iff] at h
  obtain ⟨⟨s, top⟩, h1, rfl⟩ := h
  obtain ⟨a, b, -, -, -⟩ := initLoop_spec t clause [] 0 s top h1 List.nodup_nil
  exact ⟨⟨a, rfl⟩, by simpa using b⟩

/-! ### Entailment -/

theorem litTrue_neg (σ : Assignment) (l : Lit) : litTrue σ l.neg ↔ ¬ litTrue σ l := by
  unfold litTrue
  rw [Lit.isNeg_neg, Lit.ord_neg]
  cases l.isNeg <;> cases σ l.ord <;> simp

theorem clauseTrue_resolve {t : Trail R} {c : CA} (h : c.Ok t) (other : Clause) (lit : Lit)
    (hno : lit ∉ other) (σ : Assignment) (h1 : clauseTrue σ c.conflict) (h2 : clauseTrue σ other) :
    clauseTrue σ (c.resolve t other lit).conflict := by
  obtain ⟨x, hx, hxt⟩ := h1
  by_cases e : x = lit
  · subst e
    obtain ⟨y, hy, hyt⟩ := h2
    refine ⟨y, (mem_resolve h other x y).2 ⟨?_, Or.inr ⟨hy, ?_⟩⟩, hyt⟩
    · rintro rfl; exact hno hy
    · rintro rfl; exact (litTrue_neg σ x).1 hyt hxt
  · exact ⟨x, (mem_resolve h other lit x).2 ⟨e, Or.inl hx⟩, hxt⟩

theorem loop_entails (deref : R → Clause) (t : Trail R) (σ : Assignment) (as : List (Asg R))
    (hno : ∀ a ∈ as, ∀ r, a.reason = some r →
      Lit.ofVal a.var.ord (!t.bools.value a.var.ord) ∉ deref r)
    (hr : ∀ a ∈ as, ∀ r, a.reason = some r → clauseTrue σ (deref r))
    (c : CA) (hok : c.Ok t) (hc : clauseTrue σ c.conflict) :
    clauseTrue σ (CA.loop deref t as c).conflict := by
  induction as generalizing c with
  | nil => exact hc
  | cons a as ih =>
    have ih' := fun c => ih (fun x hx => hno x (List.mem_cons_of_mem _ hx))
      (fun x hx => hr x (List.mem_cons_of_mem _ hx)) c
    unfold CA.loop
    split
    · exact hc
    · rcases har : a.reason with _ | r
      · exact ih' c hok hc
      · simp only
        split
        · rename_i hty
          split
          · rename_i hres
            have hin : Lit.ofVal a.var.ord (!t.bools.value a.var.ord) ∈ c.conflict := by
              simpa [CA.canResolve] using hres
            refine ih' _ (ok_resolve hok _ _ hin ?_)
              (clauseTrue_resolve hok _ _ (hno a List.mem_cons_self r har) σ hc
                (hr a List.mem_cons_self r har))
            have : (Lit.ofVal a.var.ord (!t.bools.value a.var.ord)).var = a.var := by
              have h1 := hty.1
              rcases hv : a.var with ⟨ty, o⟩
              rw [hv] at h1; simp only at h1; subst h1
              simp [Lit.var]
            rw [this]; exact hty.2
          · exact ih' c hok hc
        · exact ih' c hok hc

theorem finish_mem {t : Trail R} {c : CA} {c' : Clause} {lvl : Int}
    (h : c.finish t = some (c', lvl)) (l : Lit) : l ∈ c' ↔ l ∈ c.conflict := by
  unfold CA.finish at h
  by_cases he : c.conflict = []
  · rw [if_pos he] at h; simp only [Option.some.injEq, Prod.mk.injEq] at h; simp [← h.1, he]
  · rw [if_neg he] at h
    simp only at h
    have key : c' = sortBy (CA.before t) c.conflict := by
      split at h
      · simp only [Option.some.injEq, Prod.mk.injEq] at h; exact h.1.symm
      · split at h
        · simp only [Option.map_eq_some_iff, Prod.mk.injEq] at h
          obtain ⟨_, _, h, _⟩ := h; exact h.symm
        · simp only [Option.some.injEq, Prod.mk.injEq] at h; exact h.1.symm
    rw [key, mem_sortBy]

theorem split_unique {α : Type} {a : α} {xs ys xs' ys' : List α} (h1 : a ∉ xs) (h2 : a ∉ xs')
    (h : xs ++ a :: ys = xs' ++ a :: ys') : xs = xs' := by
  induction xs generalizing xs' with
  | nil =>
    cases xs' with
    | nil => rfl
    | cons b bs => simp at h; exact (h2 (by simp [h.1])).elim
  | cons x xs ih =>
    cases xs' with
    | nil => simp at h; exact (h1 (by simp [h.1])).elim
    | cons b bs =>
      simp only [List.cons_append, List.cons.injEq] at h
      rw [h.1, ih (fun hh => h1 (List.mem_cons_of_mem _ hh))
        (fun hh => h2 (List.mem_cons_of_mem _ hh)) h.2]

/-! ### The loop of `analyze` -/

/-- Invariant of the loop; `rest` are the assignments that are still to be visited. -/
structure CA.LI (deref : R → Clause) (t : Trail R) (rest : List (Asg R)) (c : CA) : Prop where
  ok : c.Ok t
  falsified : ∀ l ∈ c.conflict, evalLit t.bools l = some false
  le : ∀ l ∈ c.conflict, ∀ n, t.level l.var = some n → n ≤ c.topLevel
  open_ : ∀ l ∈ c.conflict, t.level l.var = some c.topLevel → t.reason l.var ≠ none →
    ∃ a ∈ rest, a.var = l.var
  pos : Tight deref t → 0 < c.topLevel → ∃ l ∈ c.conflict, t.level l.var = some c.topLevel

theorem loop_spec {deref : R → Clause} {t : Trail R} (hi : t.Inv) (hr : ReasonsOk deref t)
    (as done : List (Asg R)) (c : CA) (hd : t.assigned c.topLevel = as.reverse ++ done)
    (h : c.LI deref t as) :
    (CA.loop deref t as c).topLevel = c.topLevel ∧
    ((CA.loop deref t as c).LI deref t [] ∨
      ((CA.loop deref t as c).LI deref t as ∧ (CA.loop deref t as c).canBacktrack = true)) := by
  induction as generalizing done c with
  | nil => exact ⟨rfl, Or.inl h⟩
  | cons a as ih =>
    have hd' : t.assigned c.topLevel = as.reverse ++ a :: done := by simpa using hd
    have weaken : ∀ {c' : CA}, c'.LI deref t as → c'.LI deref t (a :: as) := fun h' =>
      ⟨h'.ok, h'.falsified, h'.le, fun l hl h1 h2 => by
        obtain ⟨b, hb, e⟩ := h'.open_ l hl h1 h2
        exact ⟨b, List.mem_cons_of_mem _ hb, e⟩, h'.pos⟩
    have fin : ∀ {c' : CA}, c'.topLevel = c.topLevel → c'.LI deref t as →
        (CA.loop deref t as c').topLevel = c.topLevel ∧
        ((CA.loop deref t as c').LI deref t [] ∨
        ((CA.loop deref t as c').LI deref t (a :: as) ∧
          (CA.loop deref t as c').canBacktrack = true)) := by
      intro c' htop hLI
      obtain ⟨h1, h2⟩ := ih (a :: done) c' (by rw [htop]; exact hd') hLI
      exact ⟨h1.trans htop, h2.imp id fun ⟨x, y⟩ => ⟨weaken x, y⟩⟩
    have hlist : t.levels[c.topLevel]? = some (as.reverse ++ a :: done) := by
      rw [Trail.assigned, List.getD_eq_getElem?_getD] at hd'
      rcases hx : t.levels[c.topLevel]? with _ | xs
      · rw [hx] at hd'; simp at hd'
      · rw [hx] at hd'; simpa using hd'
    obtain ⟨la, hla, hlale, hreas⟩ := hi.listed c.topLevel _ a hlist (by simp)
    -- the literal of `a` in the conflict is settled
    have skip : (∀ l ∈ c.conflict, l.var = a.var → t.level l.var = some c.topLevel →
        t.reason l.var ≠ none → False) → c.LI deref t as := fun hs =>
      ⟨h.ok, h.falsified, h.le, fun l hl h1 h2 => by
        obtain ⟨b, hb, e⟩ := h.open_ l hl h1 h2
        rcases List.mem_cons.1 hb with rfl | hb
        · exact (hs l hl e.symm h1 h2).elim
        · exact ⟨b, hb, e⟩, h.pos⟩
    unfold CA.loop
    split
    · rename_i hcb; exact ⟨rfl, Or.inr ⟨h, hcb⟩⟩
    · rcases har : a.reason with _ | r
      · refine fin rfl (skip ?_)
        intro l _ e _ h2; rw [e, hreas, har] at h2; exact h2 rfl
      · rw [har] at hreas
        simp only
        have hbool := hr.isBool _ _ hreas
        have hvar : a.var = .bool a.var.ord := by
          rcases hv : a.var with ⟨ty, o⟩
          rw [hv] at hbool; simp only at hbool; subst hbool; rfl
        by_cases hlv : t.level a.var = some c.topLevel
        · rw [if_pos ⟨hbool, hlv⟩]
          by_cases hres : c.canResolve (Lit.ofVal a.var.ord (!t.bools.value a.var.ord)) = true
          · rw [if_pos hres]
            set lit := Lit.ofVal a.var.ord (!t.bools.value a.var.ord) with hlit
            have hin : lit ∈ c.conflict := by simpa [CA.canResolve] using hres
            have hlitvar : lit.var = a.var := by rw [hlit]; rw [hvar]; simp [Lit.var]
            have hneg : lit.neg = trueLit t a.var := by
              rw [hlit, Lit.neg_ofVal, Bool.not_not]; rfl
            -- literals of the reason
            have hoth : ∀ m ∈ deref r, m ≠ lit.neg → evalLit t.bools m = some false ∧
                (∃ n, t.level m.var = some n ∧ n ≤ c.topLevel ∧
                  (n = c.topLevel → ∃ b ∈ as, b.var = m.var)) := by
              intro m hm hne
              rw [hneg] at hne
              obtain ⟨h1, lw, lv, h2, h3, h4⟩ := hr.others _ _ hreas m hm hne
              rw [hlv] at h3; cases h3
              refine ⟨h1, lw, h2, by omega, ?_⟩
              rintro rfl
              rcases h4 with h4 | ⟨-, xs, a', ys, e1, e2, b, hb, e3⟩
              · omega
              · have hnd := hi.nodup _ _ hlist
                have heq : as.reverse ++ a :: done = xs ++ a' :: ys := hd'.symm.trans e1
                have hxs : as.reverse.map Asg.var = xs.map Asg.var := by
                  have h5 : as.reverse.map Asg.var ++ a.var :: done.map Asg.var
                      = xs.map Asg.var ++ a.var :: ys.map Asg.var := by
                    have := congrArg (List.map Asg.var) heq
                    simpa [e2] using this
                  have hnd' : (as.reverse.map Asg.var ++ a.var :: done.map Asg.var).Nodup := by
                    simpa using hnd
                  have hnd2 := hnd'
                  rw [h5] at hnd2
                  have n1 : a.var ∉ as.reverse.map Asg.var := by
                    intro hc
                    exact (List.nodup_append.1 hnd').2.2 _ hc _ List.mem_cons_self rfl
                  have n2 : a.var ∉ xs.map Asg.var := by
                    intro hc
                    exact (List.nodup_append.1 hnd2).2.2 _ hc _ List.mem_cons_self rfl
                  exact split_unique n1 n2 h5
                have hbm : b.var ∈ as.reverse.map Asg.var := by
                  rw [hxs]; exact List.mem_map_of_mem hb
                obtain ⟨b', hb', e4⟩ := List.mem_map.1 hbm
                exact ⟨b', List.mem_reverse.1 hb', e4.trans e3⟩
            refine fin (top_resolve t c _ _) ?_
            refine ⟨ok_resolve h.ok _ _ hin (by rw [hlitvar]; exact hlv), ?_, ?_, ?_, ?_⟩
            · intro l hl
              obtain ⟨-, hl | ⟨hl, hn⟩⟩ := (mem_resolve h.ok _ _ _).1 hl
              · exact h.falsified l hl
              · exact (hoth l hl hn).1
            · intro l hl n hn
              rw [top_resolve]
              obtain ⟨-, hl | ⟨hl, hn'⟩⟩ := (mem_resolve h.ok _ _ _).1 hl
              · exact h.le l hl n hn
              · obtain ⟨-, n', e, hle, -⟩ := hoth l hl hn'
                rw [hn] at e; cases e; exact hle
            · intro l hl hlev hrn
              rw [top_resolve] at hlev
              obtain ⟨hne, hl' | ⟨hl', hn'⟩⟩ := (mem_resolve h.ok _ _ _).1 hl
              · obtain ⟨b, hb, e⟩ := h.open_ l hl' hlev hrn
                rcases List.mem_cons.1 hb with rfl | hb
                · exact (hne (false_unique (h.falsified l hl') (h.falsified lit hin)
                    (by rw [hlitvar, e]))).elim
                · exact ⟨b, hb, e⟩
              · obtain ⟨-, n', e, -, h5⟩ := hoth l hl' hn'
                rw [hlev] at e; cases e; exact h5 rfl
            · intro ht hpos
              rw [top_resolve] at hpos ⊢
              obtain ⟨m, hm, hne, hml⟩ := ht _ _ _ hreas hlv hpos
              refine ⟨m, (mem_resolve h.ok _ _ _).2 ⟨?_, Or.inr ⟨hm, by rw [hneg]; exact hne⟩⟩, hml⟩
              intro em
              -- `lit` itself is not in the reason: it would be assigned before itself
              obtain ⟨-, n', e, -, h5⟩ := hoth m hm (by rw [hneg]; exact hne)
              rw [hml] at e; cases e
              obtain ⟨b, hb, e⟩ := h5 rfl
              have hnd := hi.nodup _ _ hlist
              rw [List.map_append, List.nodup_append] at hnd
              exact hnd.2.2 b.var (List.mem_map_of_mem (List.mem_reverse.2 hb)) a.var
                (by simp) (by rw [e, em, hlitvar])
          · rw [if_neg hres]
            refine fin rfl (skip ?_)
            intro l hl e _ _
            apply hres
            have := ((evalLit_false_iff _ _).1 (h.falsified l hl)).2
            have ho : l.ord = a.var.ord := congrArg Var.ord e
            rw [ho] at this
            simpa [CA.canResolve, ← this] using hl
        · rw [if_neg (fun x => hlv x.2)]
          refine fin rfl (skip ?_)
          intro l _ e h1 _
          rw [e] at h1; exact hlv h1

end Yaga

namespace Yaga
open Spec
variable {R : Type}

/-! ### `finish` -/

theorem before_trans (t : Trail R) (a b c : Lit) (h1 : CA.before t b a = false)
    (h2 : CA.before t c b = false) : CA.before t c a = false := by
  simp only [CA.before, Bool.or_eq_false_iff, decide_eq_false_iff_not, Bool.and_eq_false_iff,
    beq_eq_false_iff_ne] at *
  omega

theorem before_asymm (t : Trail R) (a b : Lit) (h : CA.before t a b = true) :
    CA.before t b a = false := by
  simp only [CA.before, Bool.or_eq_false_iff, decide_eq_false_iff_not, Bool.and_eq_false_iff,
    beq_eq_false_iff_ne, Bool.or_eq_true, decide_eq_true_eq, Bool.and_eq_true, beq_iff_eq] at *
  omega

theorem levelOr_of_level {t : Trail R} {l : Lit} {n : Nat} (h : t.level l.var = some n) :
    levelOr t l = n := by simp [levelOr, h]

/-- The clause produced by `finish` is the sorted conflict. -/
theorem finish_sorted (t : Trail R) (xs : List Lit) :
    (sortBy (CA.before t) xs).Pairwise fun a b => levelOr t b ≤ levelOr t a := by
  refine (sortBy_pairwise (CA.before t) (before_trans t) (before_asymm t) xs).imp ?_
  intro a b h
  simp only [CA.before, Bool.or_eq_false_iff, decide_eq_false_iff_not] at h
  omega

/-! ### Literals after backtracking -/

theorem evalLit_backtrack_low {t : Trail R} (hi : t.Inv) {L n : Nat} (hL : L ≤ t.decisionLevel)
    {l : Lit} (h : t.level l.var = some n) (hn : n ≤ L) :
    evalLit (t.backtrack L).bools l = evalLit t.bools l := by
  obtain ⟨-, -, h3, h4, -⟩ := Trail.backtrack_spec hi L hL
  have h5 := (h3 l.var (by intro m hm; rw [h] at hm; cases hm; exact hn)).2.2
  have h6 := congrFun h4 l.var
  simp only [Trail.isDefined, Trail.valueOf, Lit.var, Val.b.injEq] at h5 h6
  unfold evalLit
  rw [h5, h6]

theorem evalLit_backtrack_high {t : Trail R} (hi : t.Inv) {L n : Nat} (hL : L ≤ t.decisionLevel)
    {l : Lit} (h : t.level l.var = some n) (hn : L < n) :
    evalLit (t.backtrack L).bools l = none := by
  obtain ⟨-, h2, -, -, -⟩ := Trail.backtrack_spec hi L hL
  have h5 := (h2 l.var n h hn).2.2
  simp only [Trail.isDefined, Lit.var] at h5
  unfold evalLit
  rw [h5]; rfl

/-- Complete description of the result of `analyze`. -/
theorem analyze_spec {deref : R → Clause} {t : Trail R} (hi : t.Inv) (hr : ReasonsOk deref t)
    (ht : Tight deref t) (hz : ZeroReason t) (c : Clause)
    (hf : ∀ l ∈ c, evalLit t.bools l = some false) :
    ∃ c' lvl, analyze deref t c = some (c', lvl) ∧ (∀ l ∈ c', evalLit t.bools l = some false) ∧
      c'.Nodup ∧ c'.Pairwise (fun a b => levelOr t b ≤ levelOr t a) ∧
      ((c' = [] ∧ lvl = -1) ∨ ∃ L : Nat, lvl = L ∧
        ((∃ x rest n, c' = x :: rest ∧ t.level x.var = some n ∧ L < n ∧
            (∀ m ∈ rest, ∃ k, t.level m.var = some k ∧ k ≤ L) ∧
            ((rest = [] ∧ L = 0) ∨ ∃ y ys, rest = y :: ys ∧ t.level y.var = some L)) ∨
         (∃ x y rest, c' = x :: y :: rest ∧ t.level x.var = some (L + 1) ∧
            t.level y.var = some (L + 1) ∧
            ∀ m ∈ c', t.level m.var = some (L + 1) → t.reason m.var = none))) := by
  obtain ⟨⟨s, top⟩, hs⟩ := initLoop_isSome t c [] 0 fun l hl => false_level hi (hf l hl)
  obtain ⟨i1, i2, -, i4, i5⟩ := initLoop_spec t c [] 0 s top hs List.nodup_nil
  have i2' : ∀ l, l ∈ s ↔ l ∈ c := by simpa using i2
  set c0 : CA := ⟨s, top, countLevel t s top⟩ with hc0
  have hinit : CA.init t c = some c0 := by simp [CA.init, hs, hc0]
  -- the assignments of the top level contain the open literals
  have hopen : c0.LI deref t (t.assigned top).reverse := by
    refine ⟨⟨i1, rfl⟩, fun l hl => hf l ((i2' l).1 hl), ?_, ?_, ?_⟩
    · intro l hl n hn
      obtain ⟨k, hk, hle⟩ := i4 l ((i2' l).1 hl)
      rw [hn] at hk; cases hk; exact hle
    · intro l hl h1 _
      obtain ⟨xs, hx, a, ha, e⟩ := hi.own _ _ h1
      refine ⟨a, ?_, e⟩
      simp only [hc0] at hx
      simp [Trail.assigned, List.getD_eq_getElem?_getD, hx, ha]
    · intro _ hpos
      rcases i5 with e | ⟨l, hl, e⟩
      · simp only [hc0] at hpos; omega
      · exact ⟨l, (i2' l).2 hl, e⟩
  obtain ⟨htop, hres⟩ := loop_spec hi hr (t.assigned top).reverse [] c0 (by simp [hc0]) hopen
  set c1 := CA.loop deref t (t.assigned top).reverse c0 with hc1
  have hLI : c1.LI deref t (t.assigned top).reverse := by
    rcases hres with h | h
    · exact ⟨h.ok, h.falsified, h.le, fun l hl h1 h2 => (by
        obtain ⟨a, ha, _⟩ := h.open_ l hl h1 h2; cases ha), h.pos⟩
    · exact h.1
  have hana : analyze deref t c = c1.finish t := by simp [analyze, hinit, hc1, hc0]
  have htop' : c1.topLevel = top := htop
  set cl := sortBy (CA.before t) c1.conflict with hcl
  have hmem : ∀ l, l ∈ cl ↔ l ∈ c1.conflict := fun l => mem_sortBy _ _ _
  have hnd : cl.Nodup := (sortBy_perm (CA.before t) c1.conflict).nodup_iff.2 hLI.ok.nodup
  have hsort := finish_sorted t c1.conflict
  rw [← hcl] at hsort
  have hfl : ∀ l ∈ cl, evalLit t.bools l = some false := fun l hl => hLI.falsified l ((hmem l).1 hl)
  have hcount : c1.numTop = countLevel t cl top := by
    rw [hLI.ok.count, htop']
    simp only [countLevel]
    rw [(sortBy_perm (CA.before t) c1.conflict).countP_eq]
  have hlev : ∀ l ∈ cl, ∃ n, t.level l.var = some n ∧ n ≤ top := by
    intro l hl
    obtain ⟨n, hn⟩ := false_level hi (hfl l hl)
    exact ⟨n, hn, htop' ▸ hLI.le l ((hmem l).1 hl) n hn⟩
  -- at level 0 the loop runs to the end and nothing is left
  have hclosed : c1.canBacktrack = false → ∀ l ∈ cl, t.level l.var = some top →
      t.reason l.var = none := by
    intro hcb l hl hlv
    rcases hres with h | h
    · by_contra hne
      obtain ⟨a, ha, _⟩ := h.open_ l ((hmem l).1 hl) (htop'.symm ▸ hlv) hne
      cases ha
    · rw [hcb] at h; exact absurd h.2 (by simp)
  have hlen : cl.length = c1.conflict.length := length_sortBy _ _
  have hcnt_le : countLevel t cl top ≤ cl.length := List.countP_le_length
  -- a nonempty result has its top level above 0
  have hpos : cl ≠ [] → 0 < top := by
    intro hne
    by_contra h0
    have h0' : top = 0 := by omega
    obtain ⟨x, hx⟩ := List.exists_mem_of_ne_nil cl hne
    have hall : ∀ l ∈ cl, t.level l.var = some top := by
      intro l hl
      obtain ⟨n, hn, hle⟩ := hlev l hl
      rw [hn, h0', show n = 0 by omega]
    have hc2 : countLevel t cl top = cl.length :=
      List.countP_eq_length.2 fun l hl => by simp [hall l hl]
    have hcb : c1.canBacktrack = false := by
      rw [Bool.eq_false_iff]
      intro hcb
      simp only [CA.canBacktrack, Bool.and_eq_true, beq_iff_eq, decide_eq_true_eq] at hcb
      omega
    have hxr := hclosed hcb x hx (hall x hx)
    exact hz x.ord (by have := hall x hx; rw [h0'] at this; exact this) hxr
  rw [hana]
  unfold CA.finish
  by_cases he : c1.conflict = []
  · rw [if_pos he]
    exact ⟨[], -1, rfl, by simp, by simp, by simp, Or.inl ⟨rfl, rfl⟩⟩
  · rw [if_neg he]
    simp only [← hcl]
    have hclne : cl ≠ [] := by
      intro e; apply he; rw [e] at hlen; exact List.length_eq_zero_iff.1 hlen.symm
    have htp := hpos hclne
    have hex : ∃ l ∈ cl, t.level l.var = some top := by
      obtain ⟨l, hl, e⟩ := hLI.pos ht (htop'.symm ▸ htp)
      exact ⟨l, (hmem l).2 hl, htop' ▸ e⟩
    obtain ⟨x, rest, hxr⟩ : ∃ x rest, cl = x :: rest := by
      cases hcc : cl with
      | nil => exact absurd hcc hclne
      | cons x rest => exact ⟨x, rest, rfl⟩
    have hxtop : t.level x.var = some top := by
      obtain ⟨n, hn, hle⟩ := hlev x (by simp [hxr])
      obtain ⟨l, hl, e⟩ := hex
      rw [hxr] at hl hsort
      rcases List.mem_cons.1 hl with rfl | hl
      · exact e
      · have := (List.pairwise_cons.1 hsort).1 l hl
        rw [levelOr_of_level e, levelOr_of_level hn] at this
        rw [hn, show n = top by omega]
    by_cases h2 : c1.numTop ≥ 2
    · rw [if_pos h2]
      refine ⟨cl, _, rfl, hfl, hnd, hsort, Or.inr ⟨top - 1, by rw [htop']; omega, Or.inr ?_⟩⟩
      have hcb : c1.canBacktrack = false := by
        rw [Bool.eq_false_iff]
        intro hcb
        simp only [CA.canBacktrack, Bool.and_eq_true, beq_iff_eq, decide_eq_true_eq] at hcb
        omega
      have htop1 : top - 1 + 1 = top := by omega
      rw [htop1]
      cases hrest : rest with
      | nil =>
        exfalso
        rw [hxr, hrest] at hcnt_le
        rw [hxr, hrest] at hcount
        simp at hcnt_le; omega
      | cons y ys =>
        refine ⟨x, y, ys, by rw [hxr, hrest], hxtop, ?_, hclosed hcb⟩
        -- otherwise only the first literal is at the top level
        by_contra hy
        have hlow : ∀ m ∈ y :: ys, t.level m.var ≠ some top := by
          intro m hm hmt
          obtain ⟨n, hn, hle⟩ := hlev y (by simp [hxr, hrest])
          rw [hxr, hrest] at hsort
          have hs2 := (List.pairwise_cons.1 hsort).2
          rcases List.mem_cons.1 hm with rfl | hm
          · exact hy hmt
          · have := (List.pairwise_cons.1 hs2).1 m hm
            rw [levelOr_of_level hmt, levelOr_of_level hn] at this
            exact hy (by rw [hn, show n = top by omega])
        have : countLevel t cl top = 1 := by
          rw [hxr, hrest]
          simp only [countLevel]
          rw [List.countP_cons, List.countP_eq_zero.2 (fun m hm => by simpa using hlow m hm)]
          simp [hxtop]
        omega
    · rw [if_neg h2]
      have hcnt : countLevel t cl top = 1 := by
        have : 0 < countLevel t cl top := by
          rw [countLevel, List.countP_pos_iff]
          obtain ⟨l, hl, e⟩ := hex
          exact ⟨l, hl, by simp [e]⟩
        omega
      have hlow : ∀ m ∈ rest, ∃ k, t.level m.var = some k ∧ k < top := by
        intro m hm
        obtain ⟨n, hn, hle⟩ := hlev m (by simp [hxr, hm])
        refine ⟨n, hn, ?_⟩
        rcases Nat.lt_or_ge n top with h | h
        · exact h
        · exfalso
          rw [hxr] at hcnt
          simp only [countLevel, List.countP_cons, hxtop] at hcnt
          have : 0 < List.countP (fun l => t.level l.var == some top) rest :=
            List.countP_pos_iff.2 ⟨m, hm, by simp [hn]; omega⟩
          simp at hcnt
          exact absurd (hn.trans (by rw [show n = top by omega])) (hcnt m hm)
      cases hrest : rest with
      | nil =>
        rw [hxr, hrest]
        rw [hxr, hrest] at hfl hnd hsort
        exact ⟨[x], 0, rfl, hfl, hnd, hsort, Or.inr ⟨0, rfl, Or.inl ⟨x, [], top, rfl, hxtop, htp,
          by simp, Or.inl ⟨rfl, rfl⟩⟩⟩⟩
      | cons y ys =>
        obtain ⟨k, hk, hkt⟩ := hlow y (by simp [hrest])
        rw [hxr, hrest]
        rw [hxr, hrest] at hfl hnd hsort
        simp only [hk]
        refine ⟨_, _, rfl, hfl, hnd, hsort, Or.inr ⟨k, rfl, Or.inl ⟨x, y :: ys, top, rfl, hxtop,
          hkt, ?_, Or.inr ⟨y, ys, rfl, hk⟩⟩⟩⟩
        intro m hm
        obtain ⟨n, hn, -⟩ := hlow m (by rw [hrest]; exact hm)
        refine ⟨n, hn, ?_⟩
        rcases List.mem_cons.1 hm with rfl | hm
        · rw [hk] at hn; cases hn; exact Nat.le_refl _
        · have hs2 := (List.pairwise_cons.1 hsort).2
          have := (List.pairwise_cons.1 hs2).1 m hm
          rw [levelOr_of_level hn, levelOr_of_level hk] at this
          omega

end Yaga
