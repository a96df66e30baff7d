/-
The checked version of `src/Subsumption.cpp` never reaches `none` and computes the same as the
unchecked one.
-/
import Verif.Model.SubsumptionChecked
import Verif.Proofs.Subsumption
import Verif.Proofs.Literal

namespace Yaga
open Spec

variable {R : Type}

namespace Subs

theorem index_lt {l : Lit} {n : Nat} (h : l.ord < n) : l.index < n * 2 := by
  unfold Lit.index; split <;> omega

theorem index_eq_iff {a b : Lit} : a.index = b.index ↔ a = b :=
  ⟨Lit.index_inj, fun h => by rw [h]⟩

theorem setBits_spec : ∀ (ls : List Lit) (b : List Bool), (∀ l ∈ ls, l.index < b.length) →
    ∃ b', setBits ls b = some b' ∧ b'.length = b.length ∧
      ∀ m : Lit, m.index < b.length →
        b'[m.index]? = some (decide (m ∈ ls) || b.getD m.index false)
  | [], b, _ => ⟨b, rfl, rfl, fun m hm => by simp [hm]⟩
  | l :: ls, b, h => by
    obtain ⟨b', h1, h2, h3⟩ := setBits_spec ls (b.set l.index true)
      (fun x hx => by simpa using h x (List.mem_cons_of_mem _ hx))
    refine ⟨b', ?_, by simpa using h2, fun m hm => ?_⟩
    · unfold setBits; rw [if_pos (h l List.mem_cons_self)]; exact h1
    · rw [h3 m (by simpa using hm)]
      by_cases hml : m = l
      · subst hml; simp [hm]
      · have : l.index ≠ m.index := fun hh => hml (index_eq_iff.1 hh.symm)
        simp [hml, List.getD_eq_getElem?_getD, List.getElem?_set_ne this]

theorem allBits_spec (b : List Bool) (f : Lit → Bool) : ∀ (ls : List Lit),
    (∀ l ∈ ls, b[l.index]? = some (f l)) → allBits b ls = some (ls.all f)
  | [], _ => rfl
  | l :: ls, h => by
    have ih := allBits_spec b f ls fun x hx => h x (List.mem_cons_of_mem _ hx)
    unfold allBits
    rw [h l List.mem_cons_self]
    rcases hf : f l with _ | _ <;> simp [hf, ih]

/-- All literals are about variables below `n`. -/
def Below (n : Nat) (c : Clause) : Prop := ∀ l ∈ c, l.ord < n

theorem bits_spec {n : Nat} {first second : Clause} (h1 : Below n first) (h2 : Below n second) :
    ((setBits second (List.replicate (n * 2) false)).bind fun b => allBits b first) =
      some (first.all fun l => decide (l ∈ second)) := by
  obtain ⟨b, hb, _, hg⟩ := setBits_spec second (List.replicate (n * 2) false)
    (fun l hl => by simpa using index_lt (h2 l hl))
  rw [hb]
  refine allBits_spec b _ first fun l hl => ?_
  have := index_lt (h1 l hl)
  rw [hg l (by simpa using this)]
  simp [List.getD_eq_getElem?_getD, this]

theorem subsumesC_eq {n : Nat} {first second : Clause} (h1 : Below n first) (h2 : Below n second)
    (sig1 sig2 : Nat) :
    subsumesC (n * 2) first sig1 second sig2 = some (subsumes first sig1 second sig2) := by
  unfold subsumesC subsumes
  rw [bits_spec h1 h2]
  rcases sigSubset sig1 sig2 with _ | _
  · simp
  · by_cases hl : second.length ≤ first.length
    · simp [hl]
    · simp [hl, Nat.lt_of_not_le hl]

theorem selfsubsumesC_eq {n : Nat} {first second : Clause} {lit : Lit} (h1 : Below n first)
    (h2 : Below n second) (hf : lit ∈ first) (hs : lit.neg ∈ second) :
    selfsubsumesC (n * 2) first second lit = some (selfsubsumes first second lit) := by
  unfold selfsubsumesC selfsubsumes
  have h2' : Below n (lit :: second) := fun l hl => by
    rcases List.mem_cons.1 hl with rfl | hl
    · exact h1 _ hf
    · exact h2 _ hl
  rw [if_pos hf, if_pos hs, bits_spec h1 h2']
  by_cases hl : second.length < first.length
  · simp [hl]
  · simp [hl, Nat.le_of_not_lt hl]

/-! ### `minimize` -/

theorem minimizeLoopC_eq {n : Nat} {deref : R → Clause} {t : Trail R} (hro : ReasonsOk deref t)
    (hd : ∀ v r, t.reason v = some r → Below n (deref r)) {orig : Clause} (ho : Below n orig) :
    ∀ (rest kept : List Lit), rest <:+ orig → kept.length + rest.length ≤ orig.length →
      Below n kept →
      minimizeLoopC (n * 2) deref t orig kept rest = some (minimizeLoop deref t orig kept rest)
  | [], kept, _, _, _ => rfl
  | l :: rest, kept, hs, hlen, hk => by
    have hs' : rest <:+ orig := (List.suffix_cons l rest).trans hs
    have hlo : l ∈ orig := hs.subset List.mem_cons_self
    have hmem : l ∈ orig.drop kept.length := by
      obtain ⟨xs, hx⟩ := hs
      have : kept.length ≤ xs.length := by
        have := congrArg List.length hx
        simp at this hlen; omega
      rw [← hx, List.drop_append_of_le_length this]
      simp
    have hcur : Below n (kept ++ orig.drop kept.length) := fun x hx => by
      rcases List.mem_append.1 hx with h | h
      · exact hk x h
      · exact ho x (List.mem_of_mem_drop h)
    have hr : isRedundantC (n * 2) deref t (kept ++ orig.drop kept.length) l =
        some (isRedundant deref t (kept ++ orig.drop kept.length) l) := by
      unfold isRedundantC isRedundant
      by_cases he : evalLit t.bools l.neg = some true
      · rw [if_pos he, if_pos he]
        rcases hre : t.reason l.var with _ | r
        · rfl
        · refine selfsubsumesC_eq (hd _ _ hre) hcur ?_ ?_
          · have hf : evalLit t.bools l = some false := by
              simpa [evalLit_neg] using he
            rw [false_neg_trueLit hf]
            exact hro.mem _ _ hre
          · rw [Lit.neg_neg]
            exact List.mem_append.2 (Or.inr hmem)
      · rw [if_neg he, if_neg he]
    unfold minimizeLoopC minimizeLoop
    rw [hr]
    simp only [Option.bind_some]
    by_cases hb : isRedundant deref t (kept ++ orig.drop kept.length) l = true
    · rw [if_pos hb, if_pos hb]
      exact minimizeLoopC_eq hro hd ho rest kept hs' (by simp at hlen; omega) hk
    · rw [if_neg hb, if_neg hb]
      refine minimizeLoopC_eq hro hd ho rest (kept ++ [l]) hs' (by simp at hlen ⊢; omega) ?_
      intro x hx
      rcases List.mem_append.1 hx with h | h
      · exact hk x h
      · rw [List.mem_singleton.1 h]; exact ho l hlo

/-! ### The table of occurrences -/

theorem pushAll_spec (p : Nat × Nat) : ∀ (ls : List Lit) (t : Table),
    (∀ l ∈ ls, l.index < t.length) →
    ∃ t', pushAll p ls t = some t' ∧ t'.length = t.length ∧
      ∀ m : Lit, m.index < t.length →
        t'.getD m.index [] = t.getD m.index [] ++ (ls.filter (· = m)).map fun _ => p
  | [], t, _ => ⟨t, rfl, rfl, fun m hm => by simp⟩
  | l :: ls, t, h => by
    have hl := h l List.mem_cons_self
    obtain ⟨t', h1, h2, h3⟩ := pushAll_spec p ls (t.set l.index (t[l.index] ++ [p]))
      (fun x hx => by simpa using h x (List.mem_cons_of_mem _ hx))
    refine ⟨t', ?_, by simpa using h2, fun m hm => ?_⟩
    · unfold pushAll; rw [List.getElem?_eq_getElem hl]; exact h1
    · rw [h3 m (by simpa using hm)]
      by_cases hml : l = m
      · subst hml; simp [List.getD_eq_getElem?_getD, hm]
      · have : l.index ≠ m.index := fun hh => hml (index_eq_iff.1 hh)
        simp [hml, List.getD_eq_getElem?_getD, List.getElem?_set_ne this]

theorem indexFrom_spec (db : List Clause) {n : Nat} (hdb : ∀ c ∈ db, Below n c) :
    ∀ (is : List Nat) (t : Table), (∀ i ∈ is, i < db.length) → t.length = n * 2 →
    ∃ t', indexFrom db is t = some t' ∧ t'.length = n * 2 ∧
      ∀ m : Lit, m.ord < n → t'.getD m.index [] = t.getD m.index [] ++
        is.flatMap fun i => ((db.getD i []).filter (· = m)).map fun _ => (i, sigOf (db.getD i []))
  | [], t, _, ht => ⟨t, rfl, ht, fun m _ => by simp⟩
  | i :: is, t, hi, ht => by
    have hil := hi i List.mem_cons_self
    obtain ⟨t1, h1, h2, h3⟩ := pushAll_spec (i, sigOf db[i]) db[i] t
      (fun l hl => by rw [ht]; exact index_lt (hdb _ (List.getElem_mem hil) l hl))
    obtain ⟨t2, g1, g2, g3⟩ := indexFrom_spec db hdb is t1
      (fun x hx => hi x (List.mem_cons_of_mem _ hx)) (h2.trans ht)
    refine ⟨t2, ?_, g2, fun m hm => ?_⟩
    · unfold indexFrom; rw [List.getElem?_eq_getElem hil]; simp only; rw [h1]; exact g1
    · rw [g3 m hm, h3 m (by rw [ht]; exact index_lt hm)]
      have : db.getD i [] = db[i] := by simp [List.getD_eq_getElem?_getD, hil]
      simp only [List.flatMap_cons, this, List.append_assoc]

/-- The vector holds the occurrence lists. -/
def OccRel (n : Nat) (t : Table) (occ : Occur) : Prop :=
  ∀ m : Lit, m.ord < n → t[m.index]? = some (occ m)

theorem flatMap_drop_range {α : Type} (f : Nat → List α) (lo hi : Nat) :
    ((List.range hi).drop lo).flatMap f =
      (List.range hi).flatMap fun i => if lo ≤ i then f i else [] := by
  induction hi with
  | zero => simp
  | succ k ih =>
    rw [List.range_succ, List.flatMap_append, ← ih]
    by_cases h : lo ≤ k
    · rw [List.drop_append_of_le_length (by simpa using h), List.flatMap_append]
      simp [h]
    · have h1 : (List.range k ++ [k]).drop lo = [] := by
        apply List.drop_eq_nil_of_le; simp; omega
      have h2 : (List.range k).drop lo = [] := by
        apply List.drop_eq_nil_of_le; simp; omega
      rw [h1, h2]; simp [h]

theorem indexC_spec {db : List Clause} {n lo hi : Nat} (hdb : ∀ c ∈ db, Below n c)
    (h1 : lo ≤ hi) (h2 : hi ≤ db.length) :
    ∃ t, indexC (n * 2) db lo hi = some t ∧ OccRel n t (occurIndex db lo hi) := by
  obtain ⟨t, ht, hl, hg⟩ := indexFrom_spec db hdb ((List.range hi).drop lo)
    (List.replicate (n * 2) []) (fun i hi' => by
      have := List.mem_range.1 (List.mem_of_mem_drop hi'); omega) (by simp)
  refine ⟨t, ?_, fun m hm => ?_⟩
  · unfold indexC; rw [if_pos ⟨h1, h2⟩]; exact ht
  · have hx := index_lt hm
    have := hg m hm
    rw [flatMap_drop_range] at this
    have hlt : m.index < t.length := by omega
    rw [List.getElem?_eq_getElem hlt]
    simp only [List.getD_eq_getElem?_getD, List.getElem?_eq_getElem hlt, Option.getD_some] at this
    rw [this]
    simp [hx, occurIndex]

/-- Every listed position exists. -/
theorem occurIndex_lt {db : List Clause} {lo hi : Nat} {l : Lit} {o : Nat × Nat}
    (h : o ∈ occurIndex db lo hi l) : o.1 < hi := by
  unfold occurIndex at h
  obtain ⟨i, hi', h⟩ := List.mem_flatMap.1 h
  split at h
  · obtain ⟨_, _, rfl⟩ := List.mem_map.1 h
    exact List.mem_range.1 hi'
  · cases h

theorem bestLitC_eq {n : Nat} {t : Table} {occ : Occur} (hr : OccRel n t occ) :
    ∀ (ls : List Lit) (best : Lit), Below n ls →
      bestLitC t best (occ best).length ls = some (bestLit occ best ls)
  | [], _, _ => rfl
  | l :: ls, best, h => by
    have h' : Below n ls := fun x hx => h x (List.mem_cons_of_mem _ hx)
    unfold bestLitC bestLit
    rw [hr l (h l List.mem_cons_self)]
    simp only
    split
    · exact bestLitC_eq hr ls l h'
    · exact bestLitC_eq hr ls best h'

theorem bestLit_mem (occ : Occur) : ∀ (ls : List Lit) (best : Lit),
    bestLit occ best ls ∈ best :: ls
  | [], best => by simp [bestLit]
  | l :: ls, best => by
    unfold bestLit
    split
    · exact List.mem_cons_of_mem _ (bestLit_mem occ ls l)
    · rcases List.mem_cons.1 (bestLit_mem occ ls best) with h | h
      · rw [h]; simp
      · exact List.mem_cons_of_mem _ (List.mem_cons_of_mem _ h)

/-- The clauses during `remove_subsumed`: as many as before, literals about known variables. -/
def Db (n len : Nat) (db : List Clause) : Prop := db.length = len ∧ ∀ c ∈ db, Below n c

theorem Db.set_nil {n len : Nat} {db : List Clause} (h : Db n len db) (j : Nat) :
    Db n len (db.set j []) := by
  refine ⟨by simpa using h.1, fun c hc => ?_⟩
  rcases List.mem_or_eq_of_mem_set hc with h' | rfl
  · exact h.2 c h'
  · intro l hl; cases hl

theorem removeStepC_eq {n len : Nat} {db : List Clause} (h : Db n len db) {i sig : Nat}
    (hi : i < len) {o : Nat × Nat} (ho : o.1 < len) :
    removeStepC (n * 2) i sig db o = some (removeStep i sig db o) ∧
      Db n len (removeStep i sig db o) := by
  have hi' : i < db.length := by rw [h.1]; exact hi
  have ho' : o.1 < db.length := by rw [h.1]; exact ho
  constructor
  · unfold removeStepC removeStep
    by_cases he : o.1 = i
    · rw [if_pos he, if_neg (fun hh => hh.1 he)]
    · rw [if_neg he, List.getElem?_eq_getElem hi', List.getElem?_eq_getElem ho']
      simp only
      rw [subsumesC_eq (h.2 _ (List.getElem_mem hi')) (h.2 _ (List.getElem_mem ho'))]
      simp [List.getD_eq_getElem?_getD, hi', ho', he]
  · unfold removeStep
    split
    · exact h.set_nil _
    · exact h

theorem foldlM_removeStep {n len i sig : Nat} (hi : i < len) :
    ∀ (os : List (Nat × Nat)) (db : List Clause), Db n len db → (∀ o ∈ os, o.1 < len) →
      os.foldlM (removeStepC (n * 2) i sig) db = some (os.foldl (removeStep i sig) db) ∧
        Db n len (os.foldl (removeStep i sig) db)
  | [], db, h, _ => ⟨rfl, h⟩
  | o :: os, db, h, ho => by
    obtain ⟨h1, h2⟩ := removeStepC_eq (sig := sig) h hi (ho o List.mem_cons_self)
    obtain ⟨g1, g2⟩ := foldlM_removeStep hi os _ h2 fun x hx => ho x (List.mem_cons_of_mem _ hx)
    refine ⟨?_, g2⟩
    rw [List.foldlM_cons, h1]
    exact g1

theorem removeSubsumedByC_eq {n len : Nat} {t : Table} {occ : Occur} (hr : OccRel n t occ)
    (hocc : ∀ l, ∀ o ∈ occ l, o.1 < len) {db : List Clause} (h : Db n len db) {i : Nat}
    (hi : i < len) :
    removeSubsumedByC (n * 2) t db i = some (removeSubsumedBy occ db i) ∧
      Db n len (removeSubsumedBy occ db i) := by
  have hi' : i < db.length := by rw [h.1]; exact hi
  have hg : db.getD i [] = db[i] := by simp [List.getD_eq_getElem?_getD, hi']
  unfold removeSubsumedByC removeSubsumedBy
  rw [List.getElem?_eq_getElem hi', hg]
  have hb := h.2 _ (List.getElem_mem hi')
  rcases hc : db[i] with _ | ⟨l, ls⟩
  · exact ⟨rfl, h⟩
  · rw [hc] at hb
    simp only
    rw [hr l (hb l List.mem_cons_self)]
    simp only
    rw [bestLitC_eq hr ls l fun x hx => hb x (List.mem_cons_of_mem _ hx)]
    simp only [Option.bind_some]
    rw [hr _ (hb _ (bestLit_mem occ ls l))]
    exact foldlM_removeStep hi _ db h (hocc _)

theorem foldlM_removeSubsumedBy {n len : Nat} {t : Table} {occ : Occur} (hr : OccRel n t occ)
    (hocc : ∀ l, ∀ o ∈ occ l, o.1 < len) :
    ∀ (is : List Nat) (db : List Clause), Db n len db → (∀ i ∈ is, i < len) →
      is.foldlM (removeSubsumedByC (n * 2) t) db = some (is.foldl (removeSubsumedBy occ) db) ∧
        Db n len (is.foldl (removeSubsumedBy occ) db)
  | [], db, h, _ => ⟨rfl, h⟩
  | i :: is, db, h, hi => by
    obtain ⟨h1, h2⟩ := removeSubsumedByC_eq hr hocc h (hi i List.mem_cons_self)
    obtain ⟨g1, g2⟩ := foldlM_removeSubsumedBy hr hocc is _ h2
      fun x hx => hi x (List.mem_cons_of_mem _ hx)
    refine ⟨?_, g2⟩
    rw [List.foldlM_cons, h1]
    exact g1

end Subs

namespace SubsMem
open Subs

theorem removeSubsumedC_eq {s : SubsMem} {n : Nat} (h1 : s.occSize = n * 2)
    (h2 : s.bitSize = n * 2) (h3 : s.oldSize ≤ s.learned.length)
    (h4 : ∀ c ∈ s.learned, Below n c) :
    s.removeSubsumedC = some { s with
      learned := removeSubsumed s.learned s.oldSize
      oldSize := (removeSubsumed s.learned s.oldSize).length } := by
  unfold removeSubsumedC removeSubsumed
  rw [if_pos h3, h1, h2]
  obtain ⟨t1, e1, r1⟩ := indexC_spec h4 (Nat.zero_le _) h3
  rw [e1]
  obtain ⟨e2, d2⟩ := foldlM_removeSubsumedBy (len := s.learned.length) r1
    (fun l o ho => lt_of_lt_of_le (occurIndex_lt ho) h3)
    ((List.range s.learned.length).drop s.oldSize) s.learned ⟨rfl, h4⟩
    (fun i hi => List.mem_range.1 (List.mem_of_mem_drop hi))
  simp only [Option.bind_some]
  rw [e2]
  simp only [Option.bind_some]
  obtain ⟨t3, e3, r3⟩ := indexC_spec d2.2 (h3.trans_eq d2.1.symm) le_rfl
  rw [e3]
  simp only [Option.bind_some]
  rw [d2.1] at r3 ⊢
  obtain ⟨e4, d4⟩ := foldlM_removeSubsumedBy (len := s.learned.length) r3
    (fun l o ho => occurIndex_lt ho) (List.range s.learned.length) _ d2
    (fun i hi => List.mem_range.1 hi)
  rw [e4]
  rfl

theorem removeSubsumed_below {learned : List Clause} {k n : Nat} (h : ∀ c ∈ learned, Below n c) :
    ∀ c ∈ removeSubsumed learned k, Below n c :=
  fun c hc => h c ((removeSubsumed_inv learned k).1.subset hc)

end SubsMem

end Yaga
