/-
C46: reading DIMACS files.
-/
import Verif.Proofs.Dimacs

namespace Yaga

open Spec

theorem forall₂_lits {cls : List (List Int)} (h : ∀ c ∈ cls, ∀ i ∈ c, i ≠ 0) :
    List.Forall₂ (List.Forall₂ IsLit) cls (cls.map fun c => c.map dimacsLit) := by
  rw [List.forall₂_map_right_iff]
  rw [List.forall₂_same]
  intro c hc
  rw [List.forall₂_map_right_iff, List.forall₂_same]
  exact fun i hi => isLit_dimacsLit (h c hc i hi)

/-- C46: on any layout of a file with `n` variables and the clauses `cls` — blank lines and comments before
the header, comments anywhere, clauses broken over lines or several on a line — the solver gets exactly
the clauses of the file, in order, over `n` variables; if one of them is empty the answer is "unsat". -/
theorem C46_reads {lines : List (List Char)} {pre post : List LineKind} {n : Nat} {cls : List (List Int)}
    (ht : List.Forall₂ LineText lines (pre ++ .header n cls.length :: post))
    (hpre : ∀ k ∈ pre, k.isHeader = false) (hip : ints pre = []) (hpost : ∀ k ∈ post, k.isHeader = false)
    (hcls : ints post = clauseInts cls) (hlit : ∀ c ∈ cls, ∀ i ∈ c, i ≠ 0 ∧ |i| ≤ n)
    (hn : n ≤ 2147483647) (hm : cls.length ≤ 2147483647) :
    if [] ∈ cls then readDimacs lines = .unsat
    else ∃ out, readDimacs lines = .solve n out ∧ List.Forall₂ (List.Forall₂ IsLit) cls out := by
  have hpf : ∀ k ∈ pre, KindFits k := by
    intro k hk
    cases k with
    | comment => trivial
    | header a b => exact absurd (hpre _ hk) (by simp [LineKind.isHeader])
    | data is =>
      have : is = [] := by
        clear ht hpre
        induction pre with
        | nil => cases hk
        | cons k pre ih =>
          rcases List.mem_cons.mp hk with rfl | hk'
          · exact (List.append_eq_nil_iff.mp hip).1
          · cases k with
            | comment => exact ih hip hk'
            | header a b => exact ih hip hk'
            | data js => exact ih (List.append_eq_nil_iff.mp hip).2 hk'
      rw [this]
      intro i hi
      cases hi
  have hfit : ∀ i ∈ ints post, Fits i := by
    intro i hi
    rw [hcls] at hi
    unfold clauseInts at hi
    obtain ⟨l, hl, hil⟩ := List.mem_flatten.mp hi
    obtain ⟨c, hc, rfl⟩ := List.mem_map.mp hl
    rcases List.mem_append.mp hil with hil | hil
    · have := abs_le.mp (hlit c hc i hil).2
      unfold Fits
      omega
    · rw [List.mem_singleton.mp hil]
      unfold Fits
      omega
  have hpof : ∀ k ∈ post, KindFits k := by
    intro k hk
    cases k with
    | comment => trivial
    | header a b => exact absurd (hpost _ hk) (by simp [LineKind.isHeader])
    | data is =>
      intro i hi
      apply hfit
      clear ht hpost hcls hfit
      induction post with
      | nil => cases hk
      | cons k post ih =>
        rcases List.mem_cons.mp hk with rfl | hk'
        · exact List.mem_append_left _ hi
        · cases k with
          | comment => exact ih hk'
          | header a b => exact ih hk'
          | data js => exact List.mem_append_right _ (ih hk')
  have hf : ∀ k ∈ pre ++ .header n cls.length :: post, KindFits k := by
    intro k hk
    rcases List.mem_append.mp hk with hk | hk
    · exact hpf k hk
    · rcases List.mem_cons.mp hk with rfl | hk
      · exact ⟨⟨by omega, by omega⟩, by omega, by omega⟩
      · exact hpof k hk
  unfold readDimacs
  rw [foldlM_lines ht hf, List.foldlM_append, foldlM_data pre hpre, hip]
  have e : ((LineKind.header n cls.length :: post).foldlM kindStep ⟨false, 0, 0, [], []⟩ : Except Dimacs DState) =
      (clauseInts cls).foldlM dimacsInt ⟨true, n, (0 + cls.length : Nat), [], []⟩ := by
    rw [List.foldlM_cons, ← hcls, Nat.zero_add]
    exact foldlM_data post hpost _
  show if [] ∈ cls then
      (match (LineKind.header n cls.length :: post).foldlM kindStep ⟨false, 0, 0, [], []⟩ with
        | .error r => r
        | .ok s => if !s.ready then Dimacs.error else if s.numClauses > 0 then .error
            else .solve s.numVars.toNat s.clauses) = .unsat
    else ∃ out, (match (LineKind.header n cls.length :: post).foldlM kindStep ⟨false, 0, 0, [], []⟩ with
        | .error r => r
        | .ok s => if !s.ready then Dimacs.error else if s.numClauses > 0 then .error
            else .solve s.numVars.toNat s.clauses) = .solve n out ∧ _
  rw [e, foldlM_clauses cls hlit 0 []]
  by_cases h : [] ∈ cls
  · simp only [if_pos h]
  · simp only [if_neg h]
    refine ⟨cls.map fun c => c.map dimacsLit, ?_, forall₂_lits fun c hc i hi => (hlit c hc i hi).1⟩
    simp

/-- C46, conversely: the solver is only called on a file with exactly one header, with no numbers before
it, whose numbers are all in the declared range and which has at least the declared number of clauses, none
of them empty; it gets these clauses. Missing for C46: a number that does not fit into an `int` (see
`C46_false`). -/
theorem C46_solve_partial {lines : List (List Char)} {ks : List LineKind}
    (ht : List.Forall₂ LineText lines ks) (hf : ∀ k ∈ ks, KindFits k) {n : Nat} {out : List (List Lit)}
    (h : readDimacs lines = .solve n out) :
    ∃ pre m post cls extra, ks = pre ++ .header n m :: post ∧ (∀ k ∈ pre ++ post, k.isHeader = false) ∧
      ints pre = [] ∧ (∀ i ∈ ints post, |i| ≤ n) ∧ ints post = clauseInts cls ++ extra ∧
      (∀ c ∈ cls, c ≠ [] ∧ 0 ∉ c) ∧ cls.length = m ∧ List.Forall₂ (List.Forall₂ IsLit) cls out := by
  have hr := read_lines ks (done := []) (s := ⟨false, 0, 0, [], []⟩) (.inl ⟨rfl, by simp, rfl⟩)
  unfold readDimacs at h
  rw [foldlM_lines ht hf] at h
  revert hr h
  cases ks.foldlM kindStep ⟨false, 0, 0, [], []⟩ with
  | error r =>
    rintro h (rfl | ⟨rfl, _⟩) <;> cases h
  | ok s =>
    intro h hr
    simp only [List.nil_append] at hr
    rcases hr with ⟨rfl, _, _⟩ | ⟨pre, n', m, post, ⟨h1, h2, h3⟩, h4, cs, tl, g1, g2, g3, g4, g5, rfl⟩
    · cases h
    · simp only [Bool.not_true, Bool.false_eq_true, if_false] at h
      split at h
      · cases h
      · rename_i hm
        simp only [Int.toNat_natCast, Dimacs.solve.injEq] at h
        obtain ⟨rfl, rfl⟩ := h
        refine ⟨pre, m, post, cs.take m, clauseInts (cs.drop m) ++ tl, h1, ?_, h3, g4, ?_, ?_, ?_, ?_⟩
        · intro k hk
          rcases List.mem_append.mp hk with hk | hk
          · exact h2 k hk
          · exact h4 k hk
        · rw [g1, ← List.append_assoc]
          congr 1
          unfold clauseInts
          rw [← List.flatten_append, ← List.map_append, List.take_append_drop]
        · intro c hc
          exact ⟨fun e => g5 (e ▸ hc), g2 c (List.mem_of_mem_take hc)⟩
        · rw [List.length_take]
          omega
        · apply forall₂_lits
          intro c hc i hi e
          exact g2 c (List.mem_of_mem_take hc) (e ▸ hi)

/-- C46: "unsat" without calling the solver is only answered when one of the declared clauses is empty. -/
theorem C46_unsat_partial {lines : List (List Char)} {ks : List LineKind}
    (ht : List.Forall₂ LineText lines ks) (hf : ∀ k ∈ ks, KindFits k) (h : readDimacs lines = .unsat) :
    ∃ pre n m post cls extra, ks = pre ++ .header n m :: post ∧ (∀ k ∈ pre, k.isHeader = false) ∧
      ints pre = [] ∧ ints post = clauseInts cls ++ 0 :: extra ∧ (∀ c ∈ cls, 0 ∉ c) ∧ cls.length < m := by
  have hr := read_lines ks (done := []) (s := ⟨false, 0, 0, [], []⟩) (.inl ⟨rfl, by simp, rfl⟩)
  unfold readDimacs at h
  rw [foldlM_lines ht hf] at h
  revert hr h
  cases ks.foldlM kindStep ⟨false, 0, 0, [], []⟩ with
  | error r =>
    rintro h (rfl | ⟨rfl, hr⟩)
    · cases h
    · obtain ⟨pre, n, m, post, ⟨h1, h2, h3⟩, cs, extra, g1, g2, g3⟩ := hr
      exact ⟨pre, n, m, post, cs, extra, h1, h2, h3, g1, g2, g3⟩
  | ok s =>
    intro h _
    simp only at h
    split at h
    · cases h
    · split at h <;> cases h

/-- C46: files without header, with a second header, with a number out of range or with too few clauses are
not given to the solver; without an empty clause they are rejected. -/
theorem C46_rejects_partial {lines : List (List Char)} {ks : List LineKind}
    (ht : List.Forall₂ LineText lines ks) (hf : ∀ k ∈ ks, KindFits k)
    (hbad : (∀ k ∈ ks, k.isHeader = false) ∨
      (∃ a n m b n' m' c, ks = a ++ .header n m :: (b ++ .header n' m' :: c)) ∨
      (∃ (a : List LineKind) (n m : Nat) (b : List LineKind), ks = a ++ .header n m :: b ∧ (∀ k ∈ a, k.isHeader = false) ∧
        ((∃ i ∈ ints b, |i| > n) ∨ (ints b).count 0 < m))) :
    readDimacs lines = .error ∨ (readDimacs lines = .unsat ∧
      ∃ (a : List LineKind) (n m : Nat) (b : List LineKind) (cls : List (List Int)) (extra : List Int), ks = a ++ .header n m :: b ∧ ints b = clauseInts cls ++ 0 :: extra ∧
        (∀ c ∈ cls, 0 ∉ c) ∧ cls.length < m) := by
  have uniq : ∀ {a a' : List LineKind} {n m n' m' : Nat} {b b' : List LineKind},
      a ++ .header n m :: b = a' ++ .header n' m' :: b' → (∀ k ∈ a, k.isHeader = false) →
      (∀ k ∈ a', k.isHeader = false) → a = a' ∧ n = n' ∧ m = m' ∧ b = b' := by
    intro a
    induction a with
    | nil =>
      intro a' n m n' m' b b' h _ h2
      cases a' with
      | nil => injection h with h1 h3; injection h1 with h4 h5; exact ⟨rfl, h4, h5, h3⟩
      | cons k a' =>
        injection h with h1 h3
        have := h2 k (by simp)
        rw [← h1] at this
        cases this
    | cons k a ih =>
      intro a' n m n' m' b b' h h1 h2
      cases a' with
      | nil =>
        injection h with g1 g3
        have := h1 k (by simp)
        rw [g1] at this
        cases this
      | cons k' a' =>
        injection h with g1 g3
        obtain ⟨e1, e2, e3, e4⟩ := ih g3 (fun x hx => h1 x (by simp [hx])) (fun x hx => h2 x (by simp [hx]))
        exact ⟨by rw [g1, e1], e2, e3, e4⟩
  cases hres : readDimacs lines with
  | error => exact .inl rfl
  | unsat =>
    refine .inr ⟨rfl, ?_⟩
    obtain ⟨pre, n, m, post, cls, extra, h1, _, _, h4, h5, h6⟩ := C46_unsat_partial ht hf hres
    exact ⟨pre, n, m, post, cls, extra, h1, h4, h5, h6⟩
  | solve n out =>
    exfalso
    obtain ⟨pre, m, post, cls, extra, h1, h2, h3, h4, h5, h6, h7, _⟩ := C46_solve_partial ht hf hres
    have hpre : ∀ k ∈ pre, k.isHeader = false := fun k hk => h2 k (List.mem_append_left _ hk)
    have hpost : ∀ k ∈ post, k.isHeader = false := fun k hk => h2 k (List.mem_append_right _ hk)
    rcases hbad with hb | ⟨a, n1, m1, b, n2, m2, c, hb⟩ | ⟨a, n1, m1, b, hb, ha, hb2⟩
    · have := hb (.header n m) (by rw [h1]; simp)
      cases this
    · have hcount : (ks.filter LineKind.isHeader).length = 1 := by
        rw [h1, List.filter_append, List.filter_cons, List.filter_eq_nil_iff.mpr fun k hk => by rw [hpre k hk]; simp,
          List.filter_eq_nil_iff.mpr fun k hk => by rw [hpost k hk]; simp]
        rfl
      rw [hb] at hcount
      simp only [List.filter_append, List.filter_cons, LineKind.isHeader, if_true, List.length_append,
        List.length_cons] at hcount
      omega
    · rw [h1] at hb
      obtain ⟨_, rfl, rfl, rfl⟩ := uniq hb hpre ha
      rcases hb2 with ⟨i, hi, hgt⟩ | hlt
      · exact absurd (h4 i hi) (not_le.mpr hgt)
      · rw [h5, List.count_append] at hlt
        have : ∀ cls : List (List Int), cls.length ≤ (clauseInts cls).count 0 := by
          intro cls
          induction cls with
          | nil => simp
          | cons c cls ih =>
            have e : clauseInts (c :: cls) = (c ++ [0]) ++ clauseInts cls := rfl
            rw [e, List.count_append, List.count_append]
            simp only [List.length_cons, List.count_singleton_self]
            omega
        have := this cls
        omega

/-- C46 is false as stated: `1 99999999999 0` has a literal that is out of range, but reading the number
fails, the rest of the line is skipped without a message, and the next line completes the clause: the
solver gets the clause `1 2` instead of an error. -/
theorem C46_false : ∃ lines ks, List.Forall₂ LineText lines ks ∧
    (∃ n m post, ks = .header n m :: post ∧ (∀ k ∈ post, k.isHeader = false) ∧ ∃ i ∈ ints post, |i| > n) ∧
    readDimacs lines = .solve 2 [[Lit.pos 0, Lit.pos 1]] := by
  have hb : Blank [' '] := by unfold Blank; decide
  have h0 : Blank [] := by unfold Blank; decide
  have nt : ∀ ds : List (Fin 10), ds ≠ [] → NatText (ds.map digitChar) (natVal ds) := fun ds h => ⟨ds, h, rfl, rfl⟩
  refine ⟨["p cnf 2 1".toList, "1 99999999999 0".toList, "2 0".toList],
    [.header 2 1, .data [1, 99999999999, 0], .data [2, 0]], ?_, ?_, by decide⟩
  · refine .cons ?_ (.cons ?_ (.cons ?_ .nil))
    · exact LineText.header (ws := []) (w1 := [' ']) (t1 := ['2']) (w2 := [' ']) (t2 := ['1']) (w3 := []) h0 hb (by simp)
        (nt [2] (by simp)) hb (by simp) (nt [1] (by simp)) h0
    · refine .data (.cons (ws := []) (t := ['1']) (c := ' ') h0 (.inl ⟨1, nt [1] (by simp), rfl⟩) hb ?_)
      refine .cons (ws := [' ']) (t := "99999999999".toList) (c := ' ') (rest := ['0']) hb
        (.inl ⟨99999999999, nt [9, 9, 9, 9, 9, 9, 9, 9, 9, 9, 9] (by simp), rfl⟩) hb ?_
      exact .last (ws := [' ']) (t := ['0']) hb (.inl ⟨0, nt [0] (by simp), rfl⟩)
    · refine .data (.cons (ws := []) (t := ['2']) (c := ' ') (rest := ['0']) h0 (.inl ⟨2, nt [2] (by simp), rfl⟩) hb ?_)
      exact .last (ws := [' ']) (t := ['0']) hb (.inl ⟨0, nt [0] (by simp), rfl⟩)
  · refine ⟨2, 1, _, rfl, by decide, 99999999999, by decide, by decide⟩

/-- Clauses broken over lines, a comment in between, two clauses on a line. -/
example : readDimacs ["c test".toList, "p cnf 3 3".toList, "1 -2".toList, "  c comment".toList,
    "3 0 -1 0".toList, "".toList, "\t2 3 0 ".toList] =
    .solve 3 [[.pos 0, (Lit.pos 1).neg, .pos 2], [(Lit.pos 0).neg], [.pos 1, .pos 2]] := by decide

/-- Hypotheses of `C46_reads` for such a file. -/
example : let pre : List LineKind := [.comment]
    let post : List LineKind := [.data [1, -2], .comment, .data [3, 0, -1, 0]]
    let cls : List (List Int) := [[1, -2, 3], [-1]]
    (∀ k ∈ pre, k.isHeader = false) ∧ ints pre = [] ∧ (∀ k ∈ post, k.isHeader = false) ∧
      ints post = clauseInts cls ∧ (∀ c ∈ cls, ∀ i ∈ c, i ≠ 0 ∧ |i| ≤ (3 : Nat)) := by decide

/-- Rejected: too few clauses, a number out of range, a second header, numbers before the header. -/
example : readDimacs ["p cnf 2 2".toList, "1 2 0".toList] = .error ∧
    readDimacs ["p cnf 2 1".toList, "1 3 0".toList] = .error ∧
    readDimacs ["p cnf 2 1".toList, "p cnf 2 1".toList, "1 0".toList] = .error ∧
    readDimacs ["1 0".toList, "p cnf 2 1".toList] = .error ∧ readDimacs ["c".toList] = .error := by decide

#print axioms C46_reads
#print axioms C46_solve_partial
#print axioms C46_unsat_partial
#print axioms C46_rejects_partial
#print axioms C46_false

end Yaga
