/-
The checked version of conflict analysis never reaches `none` and computes the same as the unchecked one.
-/
import Verif.Model.AnalysisChecked
import Verif.Proofs.Analysis
import Verif.Proofs.SubsumptionChecked
import Verif.Spec.StrictWeak

namespace Yaga
open Spec
variable {R : Type}

/-! ### Literals of false clauses and of reasons exist -/

theorem level_known {t : Trail R} (hi : t.Inv) {l : Lit} {n : Nat} (h : t.level l.var = some n) :
    l.ord < t.bools.num := by
  simpa [Trail.numVars, Lit.var] using hi.range l.var n h

theorem false_known {t : Trail R} (hi : t.Inv) {l : Lit} (h : evalLit t.bools l = some false) :
    l.ord < t.bools.num := by
  obtain ⟨n, hn⟩ := false_level hi h
  exact level_known hi hn

theorem knows_iff {t : Trail R} {c : Clause} : t.knows c = true ↔ ∀ l ∈ c, l.ord < t.bools.num := by
  simp [Trail.knows]

theorem false_knows {t : Trail R} (hi : t.Inv) {c : Clause} (h : ∀ l ∈ c, evalLit t.bools l = some false) :
    t.knows c = true := knows_iff.2 fun l hl => false_known hi (h l hl)

theorem reason_known {deref : R → Clause} {t : Trail R} (hi : t.Inv) (hr : ReasonsOk deref t) {v : Var} {r : R}
    (h : t.reason v = some r) : ∀ l ∈ deref r, l.ord < t.bools.num := by
  intro l hl
  by_cases e : l = trueLit t v
  · have hb := hr.isBool v r h
    have hlv : ∃ n, t.level v = some n := by
      rcases hx : t.level v with _ | n
      · rw [hi.noReason v hx] at h; cases h
      · exact ⟨n, rfl⟩
    obtain ⟨n, hn⟩ := hlv
    have hv := hi.range v n hn
    rw [hb] at hv
    subst e
    simpa [trueLit, Trail.numVars] using hv
  · exact false_known hi (hr.others v r h l hl e).1

/-! ### The parts of the analysis -/

theorem CA.initC_eq {t : Trail R} (hi : t.Inv) {c : Clause} (h : ∀ l ∈ c, evalLit t.bools l = some false) :
    CA.initC t c = CA.init t c := by
  obtain ⟨⟨s, top⟩, hs⟩ := initLoop_isSome t c [] 0 fun l hl => false_level hi (h l hl)
  obtain ⟨-, i2, -, -, -⟩ := initLoop_spec t c [] 0 s top hs List.nodup_nil
  unfold CA.initC CA.init
  rw [if_pos (false_knows hi h), hs]
  simp only [Option.bind_some, Option.map_some]
  rw [if_pos]
  rw [List.all_eq_true]
  intro l hl
  obtain ⟨n, hn⟩ := false_level hi (h l (by simpa using (i2 l).1 hl))
  rw [hn]; rfl

theorem CA.resolveC_eq {t : Trail R} {c : CA} {other : Clause} {lit : Lit} (h1 : c.canResolve lit = true)
    (h2 : t.knows other = true) (h3 : t.level lit.var = some c.topLevel) :
    c.resolveC t other lit = some (c.resolve t other lit) := by
  have hm : lit ∈ (CA.resolveLoop t lit other c).conflict :=
    (mem_resolveLoop t lit other c lit).2 (Or.inl (by simpa [CA.canResolve] using h1))
  unfold CA.resolveC CA.resolve
  rw [h1, h2]
  simp only [Bool.and_self, if_true]
  rw [if_pos h3, if_pos hm]

theorem CA.loopC_eq {deref : R → Clause} {t : Trail R} : ∀ (as : List (Asg R)) (c : CA),
    (∀ a ∈ as, ∃ n, t.level a.var = some n) →
    (∀ a ∈ as, ∀ r, a.reason = some r → t.knows (deref r) = true) →
    CA.loopC deref t as c = some (CA.loop deref t as c)
  | [], _, _, _ => rfl
  | a :: as, c, h1, h2 => by
    have ih := fun c => CA.loopC_eq (deref := deref) as c (fun x hx => h1 x (List.mem_cons_of_mem _ hx))
      (fun x hx => h2 x (List.mem_cons_of_mem _ hx))
    unfold CA.loopC CA.loop
    by_cases hb : c.canBacktrack = true
    · rw [if_pos hb, if_pos hb]
    · rw [if_neg hb, if_neg hb]
      rcases har : a.reason with _ | r
      · exact ih c
      · simp only
        obtain ⟨n, hn⟩ := h1 a List.mem_cons_self
        by_cases ht : a.var.type = .boolean
        · rw [if_pos ht, hn]
          simp only
          by_cases he : n = c.topLevel
          · have hand : a.var.type = .boolean ∧ some n = some c.topLevel := ⟨ht, by rw [he]⟩
            rw [if_pos he, if_pos hand]
            by_cases hc : c.canResolve (Lit.ofVal a.var.ord (!t.bools.value a.var.ord)) = true
            · rw [if_pos hc, if_pos hc, CA.resolveC_eq hc (h2 a List.mem_cons_self r har) ?_]
              · exact ih _
              · have : (Lit.ofVal a.var.ord (!t.bools.value a.var.ord)).var = a.var := by
                  rcases hv : a.var with ⟨ty, o⟩
                  rw [hv] at ht; simp only at ht; subst ht
                  simp [Lit.var]
                rw [this, hn, he]
            · rw [if_neg hc, if_neg hc]; exact ih c
          · rw [if_neg he, if_neg (fun h => he (by simpa using h.2))]; exact ih c
        · rw [if_neg ht, if_neg (fun h => ht h.1)]; exact ih c

theorem CA.finishC_eq {t : Trail R} (hi : t.Inv) {c : CA} (h : ∀ l ∈ c.conflict, evalLit t.bools l = some false) :
    ∃ r, CA.finishC t c = some r ∧ CA.finish t c = some r := by
  unfold CA.finishC CA.finish
  by_cases he : c.conflict = []
  · rw [if_pos he, if_pos he]; exact ⟨_, rfl, rfl⟩
  · rw [if_neg he, if_neg he]
    have hf : ∀ l ∈ sortBy (CA.before t) c.conflict, evalLit t.bools l = some false :=
      fun l hl => h l ((mem_sortBy _ _ _).1 hl)
    simp only
    rw [if_pos (by rw [false_knows hi hf, (evalClause_false_iff _ _).2 hf]; rfl)]
    by_cases hn : c.numTop ≥ 2
    · rw [if_pos hn, if_pos hn]; exact ⟨_, rfl, rfl⟩
    · rw [if_neg hn, if_neg hn]
      rcases hs : sortBy (CA.before t) c.conflict with _ | ⟨x, _ | ⟨y, ys⟩⟩
      · exact ⟨_, rfl, rfl⟩
      · exact ⟨_, rfl, rfl⟩
      · obtain ⟨n, hn⟩ := false_level hi (hf y (by rw [hs]; simp))
        simp only [hn]
        exact ⟨_, rfl, rfl⟩

theorem analyzeC_eq {deref : R → Clause} {t : Trail R} (hi : t.Inv) (hr : ReasonsOk deref t) {c : Clause}
    (hf : ∀ l ∈ c, evalLit t.bools l = some false) :
    ∃ r, analyzeC deref t c = some r ∧ analyze deref t c = some r ∧
      ∀ l ∈ r.1, evalLit t.bools l = some false := by
  obtain ⟨⟨s, top⟩, hs⟩ := initLoop_isSome t c [] 0 fun l hl => false_level hi (hf l hl)
  obtain ⟨i1, i2, -, i4, i5⟩ := initLoop_spec t c [] 0 s top hs List.nodup_nil
  have i2' : ∀ l, l ∈ s ↔ l ∈ c := by simpa using i2
  set c0 : CA := ⟨s, top, countLevel t s top⟩ with hc0
  have hinit : CA.init t c = some c0 := by simp [CA.init, hs, hc0]
  have hLI : c0.LI deref t (t.assigned top).reverse := by
    refine ⟨⟨i1, rfl⟩, fun l hl => hf l ((i2' l).1 hl), ?_, ?_, ?_⟩
    · intro l hl n hn
      obtain ⟨k, hk, hle⟩ := i4 l ((i2' l).1 hl)
      rw [hn] at hk; cases hk; exact hle
    · intro l hl h1 _
      obtain ⟨xs, hx, a, ha, e⟩ := hi.own _ _ h1
      refine ⟨a, ?_, e⟩
      simp only [hc0] at hx
      simp [Trail.assigned, List.getD_eq_getElem?_getD, hx, ha]
    · intro _ hpos
      rcases i5 with e | ⟨l, hl, e⟩
      · simp only [hc0] at hpos; omega
      · exact ⟨l, (i2' l).2 hl, e⟩
  obtain ⟨-, hres⟩ := loop_spec hi hr (t.assigned top).reverse [] c0 (by simp [hc0]) hLI
  have hfin : ∀ l ∈ (CA.loop deref t (t.assigned top).reverse c0).conflict, evalLit t.bools l = some false := by
    rcases hres with h | h
    · exact h.falsified
    · exact h.1.falsified
  have htop : top < t.levels.length := by
    rcases i5 with e | ⟨l, _, e⟩
    · rw [e]; exact hi.length_pos
    · have h1 := hi.bound _ _ e
      have h2 := hi.length_pos
      unfold Trail.decisionLevel at h1; omega
  have hlisted : ∀ a ∈ (t.assigned top).reverse, ∃ n, t.level a.var = some n ∧ t.reason a.var = a.reason := by
    intro a ha
    have hx : t.levels[top]? = some (t.assigned top) := by
      simp [Trail.assigned, List.getD_eq_getElem?_getD, htop]
    obtain ⟨n, hn, -, he⟩ := hi.listed top _ a hx (List.mem_reverse.1 ha)
    exact ⟨n, hn, he⟩
  obtain ⟨r, f1, f2⟩ := CA.finishC_eq hi hfin
  refine ⟨r, ?_, ?_, ?_⟩
  · unfold analyzeC
    rw [if_pos (by rw [false_knows hi hf, (evalClause_false_iff _ _).2 hf]; rfl), CA.initC_eq hi hf, hinit]
    simp only [Option.bind_some]
    rw [if_pos htop, CA.loopC_eq]
    · exact f1
    · exact fun a ha => (hlisted a ha).imp fun n h => h.1
    · intro a ha r hr'
      obtain ⟨n, -, h2⟩ := hlisted a ha
      exact knows_iff.2 (reason_known hi hr (h2.trans hr'))
  · unfold analyze
    rw [hinit]
    exact f2
  · intro l hl
    exact hfin l ((finish_mem (c' := r.1) (lvl := r.2) f2 l).1 hl)

theorem analyzeOneC_eq {deref : R → Clause} {t : Trail R} (hi : t.Inv) (hr : ReasonsOk deref t) {c : Clause}
    (hf : ∀ l ∈ c, evalLit t.bools l = some false) :
    ∃ r, analyzeOneC (t.bools.num * 2) deref t c = some r ∧ analyzeOne deref t c = some r ∧
      ∀ l ∈ r.1, evalLit t.bools l = some false := by
  obtain ⟨r, h1, h2, h3⟩ := analyzeC_eq hi hr hf
  unfold analyzeOneC analyzeOne
  rw [h1, h2]
  by_cases he : r.1 = []
  · exact ⟨r, by simp [he], by rcases r with ⟨x, y⟩; simp at he; simp [he], h3⟩
  · have hm : Subs.minimizeC (t.bools.num * 2) deref t r.1 = some (minimize deref t r.1) :=
      Subs.minimizeLoopC_eq hr (fun v q hq => reason_known hi hr hq) (fun l hl => false_known hi (h3 l hl))
        r.1 [] (List.suffix_refl _) (by simp) (fun _ h => by cases h)
    refine ⟨(minimize deref t r.1, r.2), ?_, ?_, fun l hl => h3 l ((minimize_sublist deref t r.1).subset hl)⟩
    · simp [he, hm]
    · rcases r with ⟨x, y⟩; simp at he; simp [he]

theorem mapM_eq {α β : Type} {f g : α → Option β} {P : β → Prop} : ∀ (xs : List α),
    (∀ x ∈ xs, ∃ r, f x = some r ∧ g x = some r ∧ P r) →
    ∃ rs, xs.mapM f = some rs ∧ xs.mapM g = some rs ∧ ∀ r ∈ rs, P r
  | [], _ => ⟨[], rfl, rfl, fun _ h => by cases h⟩
  | x :: xs, h => by
    obtain ⟨r, h1, h2, h3⟩ := h x List.mem_cons_self
    obtain ⟨rs, g1, g2, g3⟩ := mapM_eq xs fun y hy => h y (List.mem_cons_of_mem _ hy)
    refine ⟨r :: rs, by simp [List.mapM_cons, h1, g1], by simp [List.mapM_cons, h2, g2], fun y hy => ?_⟩
    rcases List.mem_cons.1 hy with rfl | hy
    · exact h3
    · exact g3 y hy

theorem mem_selectLowest : ∀ (rs : List (Clause × Int)) (acc : List Clause × Option Int) (c : Clause),
    c ∈ (selectLowest rs acc).1 → c ∈ acc.1 ∨ ∃ r ∈ rs, r.1 = c
  | [], acc, c, h => Or.inl h
  | (d, l) :: rs, (cs, none), c, h => by
    unfold selectLowest at h
    rcases mem_selectLowest rs _ c h with h | ⟨r, hr, e⟩
    · exact Or.inr ⟨(d, l), List.mem_cons_self, (List.mem_singleton.1 h).symm⟩
    · exact Or.inr ⟨r, List.mem_cons_of_mem _ hr, e⟩
  | (d, l) :: rs, (cs, some lvl), c, h => by
    unfold selectLowest at h
    split at h
    · rcases mem_selectLowest rs _ c h with h | ⟨r, hr, e⟩
      · exact Or.inr ⟨(d, l), List.mem_cons_self, (List.mem_singleton.1 h).symm⟩
      · exact Or.inr ⟨r, List.mem_cons_of_mem _ hr, e⟩
    · split at h
      · rcases mem_selectLowest rs _ c h with h | ⟨r, hr, e⟩
        · rcases List.mem_append.1 h with h | h
          · exact Or.inl h
          · exact Or.inr ⟨(d, l), List.mem_cons_self, (List.mem_singleton.1 h).symm⟩
        · exact Or.inr ⟨r, List.mem_cons_of_mem _ hr, e⟩
      · rcases mem_selectLowest rs _ c h with h | ⟨r, hr, e⟩
        · exact Or.inl h
        · exact Or.inr ⟨r, List.mem_cons_of_mem _ hr, e⟩

theorem analyzeConflictsC_eq {deref : R → Clause} {t : Trail R} (hi : t.Inv) (hr : ReasonsOk deref t)
    {cs : List Clause} (hf : ∀ c ∈ cs, ∀ l ∈ c, evalLit t.bools l = some false) :
    ∃ r, analyzeConflictsC (t.bools.num * 2) deref t cs = some r ∧ analyzeConflicts deref t cs = some r ∧
      ∀ c ∈ r.1, ∀ l ∈ c, evalLit t.bools l = some false := by
  obtain ⟨rs, h1, h2, h3⟩ := mapM_eq (P := fun r : Clause × Int => ∀ l ∈ r.1, evalLit t.bools l = some false) cs
    fun c hc => analyzeOneC_eq hi hr (hf c hc)
  refine ⟨selectLowest rs ([], none), by simp [analyzeConflictsC, h1], by simp [analyzeConflicts, h2], ?_⟩
  intro c hc
  rcases mem_selectLowest rs _ c hc with h | ⟨r, hr', rfl⟩
  · cases h
  · exact h3 r hr'

/-! ### `learn` -/

theorem isSemanticSplitC_eq {t : Trail R} {c : Clause} (h : ∀ l ∈ c, ∃ n, t.level l.var = some n) :
    isSemanticSplitC t c = some (isSemanticSplit t c) := by
  rcases c with _ | ⟨a, _ | ⟨b, c⟩⟩
  · rfl
  · rfl
  · obtain ⟨m, hm⟩ := h a (by simp)
    obtain ⟨n, hn⟩ := h b (by simp)
    simp [isSemanticSplitC, isSemanticSplit, hm, hn]

theorem anyUipC_eq {t : Trail R} : ∀ (cs : List Clause), (∀ c ∈ cs, ∀ l ∈ c, ∃ n, t.level l.var = some n) →
    anyUipC t cs = some (cs.any fun c => !isSemanticSplit t c)
  | [], _ => rfl
  | c :: cs, h => by
    unfold anyUipC
    rw [isSemanticSplitC_eq (h c List.mem_cons_self)]
    rcases hs : isSemanticSplit t c with _ | _
    · simp [hs]
    · simp [hs, anyUipC_eq cs fun d hd => h d (List.mem_cons_of_mem _ hd)]

theorem filterUipC_eq {t : Trail R} : ∀ (cs : List Clause), (∀ c ∈ cs, ∀ l ∈ c, ∃ n, t.level l.var = some n) →
    filterUipC t cs = some (cs.filter fun c => !isSemanticSplit t c)
  | [], _ => rfl
  | c :: cs, h => by
    unfold filterUipC
    rw [isSemanticSplitC_eq (h c List.mem_cons_self),
      filterUipC_eq cs fun d hd => h d (List.mem_cons_of_mem _ hd)]
    rcases hs : isSemanticSplit t c with _ | _ <;> simp [hs]

theorem learnSelectC_eq {t : Trail R} {cs : List Clause} (h : ∀ c ∈ cs, ∀ l ∈ c, ∃ n, t.level l.var = some n) :
    learnSelectC t cs = some (learnSelect t cs) := by
  have h' : ∀ c ∈ uniq (sortBy clauseLt cs), ∀ l ∈ c, ∃ n, t.level l.var = some n := fun c hc =>
    h c ((mem_sortBy _ _ _).1 ((mem_uniq _ _).1 hc))
  unfold learnSelectC learnSelect
  simp only
  rw [anyUipC_eq _ h', filterUipC_eq _ h']
  simp only [Option.bind_some]
  split <;> rfl

/-! ### The comparisons given to `std::sort` -/

theorem before_strictWeak (t : Trail R) : StrictWeak (CA.before t) := by
  refine ⟨fun a => by simp [CA.before], fun a b c => ?_, fun a b c => ?_⟩
  · simp only [CA.before, Bool.or_eq_true, Bool.and_eq_true, decide_eq_true_eq, beq_iff_eq]; omega
  · simp only [CA.before, Bool.or_eq_true, Bool.and_eq_true, decide_eq_true_eq, beq_iff_eq]; omega

theorem lexLt_irrefl : ∀ a : Clause, clauseLexLt a a = false
  | [] => rfl
  | a :: as => by simp [clauseLexLt, lexLt_irrefl as]

theorem lexLt_trans : ∀ a b c : Clause, clauseLexLt a b = true → clauseLexLt b c = true →
    clauseLexLt a c = true
  | [], [], _, h, _ => by simp [clauseLexLt] at h
  | [], _ :: _, [], _, h => by simp [clauseLexLt] at h
  | [], _ :: _, _ :: _, _, _ => rfl
  | _ :: _, [], _, h, _ => by simp [clauseLexLt] at h
  | _ :: _, _ :: _, [], _, h => by simp [clauseLexLt] at h
  | a :: as, b :: bs, c :: cs, h1, h2 => by
    simp only [clauseLexLt, Bool.or_eq_true, Bool.and_eq_true, decide_eq_true_eq, beq_iff_eq] at *
    rcases h1 with h1 | ⟨h1, h1'⟩ <;> rcases h2 with h2 | ⟨h2, h2'⟩
    · left; omega
    · left; omega
    · left; omega
    · exact Or.inr ⟨by omega, lexLt_trans as bs cs h1' h2'⟩

theorem lexLt_between : ∀ a b c : Clause, clauseLexLt a c = true → clauseLexLt a b = true ∨
    clauseLexLt b c = true
  | [], [], c, h => Or.inr h
  | [], _ :: _, _, _ => Or.inl rfl
  | _ :: _, _, [], h => by simp [clauseLexLt] at h
  | _ :: _, [], _ :: _, _ => Or.inr rfl
  | a :: as, b :: bs, c :: cs, h => by
    simp only [clauseLexLt, Bool.or_eq_true, Bool.and_eq_true, decide_eq_true_eq, beq_iff_eq] at *
    rcases h with h | ⟨h, h'⟩
    · omega
    · rcases lexLt_between as bs cs h' with g | g
      · rcases Nat.lt_trichotomy a.index b.index with k | k | k
        · exact Or.inl (Or.inl k)
        · exact Or.inl (Or.inr ⟨k, g⟩)
        · exact Or.inr (Or.inl (by omega))
      · rcases Nat.lt_trichotomy a.index b.index with k | k | k
        · exact Or.inl (Or.inl k)
        · exact Or.inr (Or.inr ⟨by omega, g⟩)
        · exact Or.inr (Or.inl (by omega))

theorem clauseLt_strictWeak : StrictWeak clauseLt := by
  refine ⟨fun a => by simp [clauseLt, lexLt_irrefl], fun a b c => ?_, fun a b c => ?_⟩
  · simp only [clauseLt, Bool.or_eq_true, Bool.and_eq_true, decide_eq_true_eq, beq_iff_eq]
    rintro (h1 | ⟨h1, h1'⟩) (h2 | ⟨h2, h2'⟩)
    · left; omega
    · left; omega
    · left; omega
    · exact Or.inr ⟨by omega, lexLt_trans a b c h1' h2'⟩
  · simp only [clauseLt, Bool.or_eq_true, Bool.and_eq_true, decide_eq_true_eq, beq_iff_eq]
    rintro (h | ⟨h, h'⟩)
    · omega
    · rcases Nat.lt_trichotomy a.length b.length with k | k | k
      · exact Or.inl (Or.inl k)
      · rcases lexLt_between a b c h' with g | g
        · exact Or.inl (Or.inr ⟨k, g⟩)
        · exact Or.inr (Or.inr ⟨by omega, g⟩)
      · exact Or.inr (Or.inl (by omega))

end Yaga
