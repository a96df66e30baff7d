import Verif.Model.Subsumption
import Verif.Proofs.Analysis
import Mathlib.Data.List.Sublists

namespace Yaga
open Spec
variable {R : Type}

/-! ### The order of assignments is well founded -/

/-- Position of a variable in the list of its level. -/
def posOf (t : Trail R) (v : Var) : Nat :=
  ((t.assigned ((t.level v).getD 0)).map Asg.var).idxOf v

theorem before_lex {t : Trail R} (hi : t.Inv) {w v : Var} (h : Before t w v) :
    (t.level w).getD 0 < (t.level v).getD 0 ∨
    ((t.level w).getD 0 = (t.level v).getD 0 ∧ posOf t w < posOf t v) := by
  obtain ⟨lw, lv, h1, h2, h3⟩ := h
  rw [h1, h2]
  simp only [Option.getD_some]
  refine h3.imp id ?_
  rintro ⟨rfl, xs, a, ys, e1, e2, b, hb, e3⟩
  refine ⟨rfl, ?_⟩
  simp only [posOf, h1, h2, Option.getD_some, e1, List.map_append, List.map_cons]
  obtain ⟨zs, hz, -⟩ := hi.own _ _ h1
  have hnd := hi.nodup _ _ hz
  simp only [Trail.assigned, List.getD_eq_getElem?_getD, hz, Option.getD_some] at e1
  rw [e1, List.map_append, List.nodup_append] at hnd
  have hw : w ∈ xs.map Asg.var := e3 ▸ List.mem_map_of_mem hb
  have hv : v ∉ xs.map Asg.var := by
    intro hv
    exact hnd.2.2 v hv a.var (by simp) e2.symm
  rw [List.idxOf_append_of_mem hw, List.idxOf_append_of_notMem hv]
  have := List.idxOf_lt_length_of_mem hw
  omega

/-- Induction along the order in which variables were assigned. -/
theorem before_induction {t : Trail R} (hi : t.Inv) {P : Var → Prop}
    (h : ∀ v, (∀ w, Before t w v → P w) → P v) (v : Var) : P v := by
  have key : ∀ n m v, (t.level v).getD 0 = n → posOf t v = m → P v := by
    intro n
    induction n using Nat.strongRecOn with
    | _ n ihn =>
      intro m
      induction m using Nat.strongRecOn with
      | _ m ihm =>
        intro v hn hm
        refine h v fun w hw => ?_
        rcases before_lex hi hw with h1 | ⟨h1, h2⟩
        · exact ihn _ (hn ▸ h1) _ w rfl rfl
        · exact ihm _ (hm ▸ h2) w (h1.trans hn) rfl
  exact key _ _ v rfl rfl

/-! ### `minimize` -/

/-- Everything known about the literals removed by the loop. -/
theorem minimizeLoop_spec (deref : R → Clause) (t : Trail R) (orig kept rest : List Lit)
    (hk : kept ⊆ orig) (hrest : rest ⊆ orig) :
    kept <+: minimizeLoop deref t orig kept rest ∧
    (minimizeLoop deref t orig kept rest).Sublist (kept ++ rest) ∧
    ∀ l ∈ rest, l ∉ minimizeLoop deref t orig kept rest →
      evalLit t.bools l.neg = some true ∧ ∃ r, t.reason l.var = some r ∧
        ∀ m ∈ deref r, m = l.neg ∨ m ∈ orig := by
  induction rest generalizing kept with
  | nil => simp [minimizeLoop]
  | cons l rest ih =>
    have hlo : l ∈ orig := hrest List.mem_cons_self
    have hrest' : rest ⊆ orig := fun x hx => hrest (List.mem_cons_of_mem _ hx)
    unfold minimizeLoop
    by_cases hr : isRedundant deref t (kept ++ orig.drop kept.length) l = true
    · rw [if_pos hr]
      obtain ⟨h1, h2, h3⟩ := ih kept hk hrest'
      refine ⟨h1, h2.trans (List.Sublist.append_left (List.sublist_cons_self _ _) _), ?_⟩
      intro x hx hxn
      rcases List.mem_cons.1 hx with rfl | hx
      · unfold isRedundant at hr
        split at hr
        · rename_i hev
          refine ⟨hev, ?_⟩
          rcases hre : t.reason x.var with _ | r
          · rw [hre] at hr; cases hr
          · rw [hre] at hr
            refine ⟨r, rfl, ?_⟩
            simp only [selfsubsumes, Bool.and_eq_true, List.all_eq_true, decide_eq_true_eq] at hr
            intro m hm
            refine (hr.2 m hm).imp id ?_
            intro hmm
            rcases List.mem_append.1 hmm with h | h
            · exact hk h
            · exact List.mem_of_mem_drop h
        · cases hr
      · exact h3 x hx hxn
    · rw [if_neg hr]
      obtain ⟨h1, h2, h3⟩ := ih (kept ++ [l]) (by
        intro x hx
        rcases List.mem_append.1 hx with h | h
        · exact hk h
        · rw [List.mem_singleton.1 h]; exact hlo) hrest'
      refine ⟨(List.prefix_append kept [l]).trans h1, by simpa using h2, ?_⟩
      intro x hx hxn
      rcases List.mem_cons.1 hx with rfl | hx
      · exact absurd (h1.subset (by simp)) hxn
      · exact h3 x hx hxn

theorem minimize_sublist (deref : R → Clause) (t : Trail R) (c : Clause) :
    (minimize deref t c).Sublist c := by
  simpa [minimize] using (minimizeLoop_spec deref t c [] c (by simp) (fun _ h => h)).2.1

theorem minimize_removed (deref : R → Clause) (t : Trail R) (c : Clause) (l : Lit) (hl : l ∈ c)
    (hn : l ∉ minimize deref t c) : evalLit t.bools l = some false ∧
      ∃ r, t.reason l.var = some r ∧ ∀ m ∈ deref r, m = l.neg ∨ m ∈ c := by
  obtain ⟨h1, h2⟩ := (minimizeLoop_spec deref t c [] c (by simp) (fun _ h => h)).2.2 l hl hn
  refine ⟨?_, h2⟩
  rw [evalLit_neg] at h1
  rcases h : evalLit t.bools l with _ | b
  · rw [h] at h1; cases h1
  · rw [h] at h1; cases b <;> simp_all

theorem false_neg_trueLit {t : Trail R} {l : Lit} (h : evalLit t.bools l = some false) :
    l.neg = trueLit t l.var := by
  have := ((evalLit_false_iff _ _).1 h).2
  conv_lhs => rw [this]
  rw [Lit.neg_ofVal, Bool.not_not]; rfl

theorem minimize_sound {deref : R → Clause} {t : Trail R} (hi : t.Inv) (hro : ReasonsOk deref t)
    (c : Clause) (σ : Assignment) (hc : clauseTrue σ c)
    (hr : ∀ v r, t.reason v = some r → clauseTrue σ (deref r)) :
    clauseTrue σ (minimize deref t c) := by
  by_contra hno
  have hall : ∀ v, ∀ l ∈ c, l.var = v → ¬ litTrue σ l := by
    intro v
    refine before_induction (P := fun v => ∀ l ∈ c, l.var = v → ¬ litTrue σ l) hi ?_ v
    intro v ih l hl hv
    by_cases hin : l ∈ minimize deref t c
    · intro ht; exact hno ⟨l, hin, ht⟩
    · obtain ⟨hf, r, hre, hsub⟩ := minimize_removed deref t c l hl hin
      obtain ⟨m, hm, hmt⟩ := hr _ _ hre
      by_cases e : m = l.neg
      · subst e; exact fun h => (litTrue_neg σ l).1 hmt h
      · have hb := hro.others _ _ hre m hm (by rw [← false_neg_trueLit hf]; exact e)
        have := ih m.var (hv ▸ hb.2) m ((hsub m hm).resolve_left e) rfl
        exact absurd hmt this
  obtain ⟨l, hl, ht⟩ := hc
  exact hall l.var l hl rfl ht

/-- Minimisation does not empty a decision level above 0. -/
theorem minimize_levels {deref : R → Clause} {t : Trail R} (hi : t.Inv) (hro : ReasonsOk deref t)
    (ht : Tight deref t) (c : Clause) (n : Nat) (hn : 0 < n)
    (h : ∃ l ∈ c, t.level l.var = some n) : ∃ l ∈ minimize deref t c, t.level l.var = some n := by
  by_contra hno
  have hall : ∀ v, ∀ l ∈ c, l.var = v → t.level l.var ≠ some n := by
    intro v
    refine before_induction (P := fun v => ∀ l ∈ c, l.var = v → t.level l.var ≠ some n) hi ?_ v
    intro v ih l hl hv hlev
    by_cases hin : l ∈ minimize deref t c
    · exact hno ⟨l, hin, hlev⟩
    · obtain ⟨hf, r, hre, hsub⟩ := minimize_removed deref t c l hl hin
      obtain ⟨m, hm, hne, hml⟩ := ht _ _ _ hre hlev hn
      have hb := hro.others _ _ hre m hm hne
      refine ih m.var (hv ▸ hb.2) m ((hsub m hm).resolve_left ?_) rfl hml
      rw [false_neg_trueLit hf]; exact hne
  obtain ⟨l, hl, hlev⟩ := h
  exact hall l.var l hl rfl hlev

/-! ### Removing subsumed clauses -/

/-- Relation between the clauses at the start and in the middle of the removal. -/
structure SubInv (learned db : List Clause) : Prop where
  len : db.length = learned.length
  same : ∀ k : Nat, db.getD k [] = learned.getD k [] ∨ db.getD k [] = []
  cover : ∀ j : Nat, learned.getD j [] ≠ [] → ∃ k : Nat, db.getD k [] ≠ [] ∧ db.getD k [] ⊆ learned.getD j []

theorem SubInv.refl (learned : List Clause) : SubInv learned learned :=
  ⟨rfl, fun _ => Or.inl rfl, fun j hj => ⟨j, hj, fun _ h => h⟩⟩

theorem getD_set_nil (db : List Clause) (j k : Nat) :
    (db.set j []).getD k [] = if k = j then [] else db.getD k [] := by
  simp only [List.getD_eq_getElem?_getD, List.getElem?_set]
  by_cases h : j = k
  · subst h; simp; split <;> rfl
  · rw [if_neg h, if_neg (fun e => h e.symm)]

theorem removeStep_inv {learned db : List Clause} (h : SubInv learned db) (i sig : Nat)
    (o : Nat × Nat) (hne : db.getD i [] ≠ []) :
    SubInv learned (removeStep i sig db o) ∧
    (removeStep i sig db o).getD i [] = db.getD i [] := by
  unfold removeStep
  split
  · rename_i hc
    obtain ⟨hij, hs⟩ := hc
    simp only [subsumes, Bool.and_eq_true, decide_eq_true_eq, List.all_eq_true] at hs
    refine ⟨⟨by simpa using h.len, ?_, ?_⟩, ?_⟩
    · intro k
      rw [getD_set_nil]
      split
      · exact Or.inr rfl
      · exact h.same k
    · intro j hj
      obtain ⟨k, hk, hsub⟩ := h.cover j hj
      by_cases e : k = o.1
      · refine ⟨i, ?_, ?_⟩
        · rw [getD_set_nil, if_neg (fun e => hij e.symm)]; exact hne
        · rw [getD_set_nil, if_neg (fun e => hij e.symm)]
          intro x hx
          exact hsub (e ▸ hs.2 x hx)
      · refine ⟨k, ?_, ?_⟩ <;> rw [getD_set_nil, if_neg e] <;> assumption
    · rw [getD_set_nil, if_neg (fun e => hij e.symm)]
  · exact ⟨h, rfl⟩

theorem removeSubsumedBy_inv {learned db : List Clause} (h : SubInv learned db) (occ : Occur)
    (i : Nat) : SubInv learned (removeSubsumedBy occ db i) := by
  unfold removeSubsumedBy
  split
  · exact h
  · rename_i l ls hd
    have hne : db.getD i [] ≠ [] := by rw [hd]; simp
    generalize sigOf (db.getD i []) = sig
    generalize occ (bestLit occ l ls) = os
    clear hd
    induction os generalizing db with
    | nil => exact h
    | cons o os ih =>
      obtain ⟨h1, h2⟩ := removeStep_inv h i sig o hne
      exact ih h1 (by rw [h2]; exact hne)

theorem foldl_removeSubsumedBy_inv {learned db : List Clause} (h : SubInv learned db) (occ : Occur)
    (is : List Nat) : SubInv learned (is.foldl (removeSubsumedBy occ) db) := by
  induction is generalizing db with
  | nil => exact h
  | cons i is ih => exact ih (removeSubsumedBy_inv h occ i)

theorem filter_sublist_of_same : ∀ {learned db : List Clause}, db.length = learned.length →
    (∀ k : Nat, db.getD k [] = learned.getD k [] ∨ db.getD k [] = []) →
    (db.filter fun c => !c.isEmpty).Sublist learned
  | [], [], _, _ => by simp
  | [], _ :: _, h, _ => by simp at h
  | _ :: _, [], h, _ => by simp at h
  | c :: cs, d :: ds, h, hs => by
    have ih := filter_sublist_of_same (learned := cs) (db := ds) (by simpa using h)
      (fun k => by simpa using hs (k + 1))
    have h0 := hs 0
    simp only [List.getD_cons_zero] at h0
    rw [List.filter_cons]
    split
    · rename_i hne
      rcases h0 with rfl | rfl
      · exact ih.cons_cons _
      · simp at hne
    · exact ih.trans (List.sublist_cons_self _ _)

theorem removeSubsumed_inv (learned : List Clause) (oldSize : Nat) :
    (removeSubsumed learned oldSize).Sublist learned ∧
    ∀ c ∈ learned, c ≠ [] → ∃ d ∈ removeSubsumed learned oldSize, d ⊆ c := by
  obtain ⟨db, hdb, h⟩ : ∃ db, removeSubsumed learned oldSize = db.filter (fun c => !c.isEmpty) ∧
      SubInv learned db :=
    ⟨_, rfl, foldl_removeSubsumedBy_inv (foldl_removeSubsumedBy_inv (SubInv.refl learned) _ _) _ _⟩
  rw [hdb]
  refine ⟨filter_sublist_of_same h.len h.same, ?_⟩
  intro c hc hne
  obtain ⟨j, hj, rfl⟩ := List.getElem_of_mem hc
  obtain ⟨k, hk, hsub⟩ := h.cover j (by
    rw [List.getD_eq_getElem?_getD, List.getElem?_eq_getElem hj]; exact hne)
  refine ⟨db.getD k [], ?_, ?_⟩
  · simp only [List.mem_filter]
    refine ⟨?_, by simpa [List.isEmpty_iff] using hk⟩
    rw [List.getD_eq_getElem?_getD] at hk ⊢
    rcases hx : db[k]? with _ | d
    · rw [hx] at hk; simp at hk
    · simpa using List.mem_of_getElem? hx
  · intro x hx
    have := hsub hx
    rwa [List.getD_eq_getElem?_getD, List.getElem?_eq_getElem hj] at this

end Yaga
