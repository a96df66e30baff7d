/-
C78: the program `sat` answers every file, and the answer for a file in the DIMACS format is right.
-/
import Verif.Model.SatMain
import Verif.Props.C46
import Verif.Props.C65

namespace Yaga
open Spec BS Check SatMain

variable {S : Type} [LinearOrder S] [ScoreOps S]

/-! ### What is read -/

theorem err_fold {α : Type} {f : DState → α → Except Dimacs DState}
    (h : ∀ s a n out, f s a ≠ .error (.solve n out)) (as : List α) :
    ∀ s n out, as.foldlM f s ≠ .error (.solve n out) := by
  induction as with
  | nil => intro s n out e; simp only [List.foldlM_nil] at e; cases e
  | cons a as ih =>
    intro s n out e
    rw [List.foldlM_cons] at e
    rcases hd : f s a with x | s1
    · rw [hd] at e
      cases e
      exact h _ _ _ _ hd
    · rw [hd] at e
      exact ih _ _ _ e

theorem err_int (s : DState) (v : Int) (n : Nat) (out : List (List Lit)) :
    dimacsInt s v ≠ .error (.solve n out) := by
  unfold dimacsInt
  repeat' split
  all_goals simp

theorem err_line (s : DState) (line : List Char) (n : Nat) (out : List (List Lit)) :
    dimacsLine s line ≠ .error (.solve n out) := by
  unfold dimacsLine
  simp only
  split
  · simp
  · split
    · unfold dimacsHeader
      repeat' split
      all_goals simp
    · exact err_fold err_int _ _ _ _

/-- The literals are those of the variables declared in the header. -/
structure DOk (s : DState) : Prop where
  pos : 0 ≤ s.numVars
  buf : ∀ l ∈ s.buffer, (l.ord : Int) < s.numVars
  cls : ∀ c ∈ s.clauses, c ≠ [] ∧ ∀ l ∈ c, (l.ord : Int) < s.numVars
  fresh : s.ready = false → s.buffer = [] ∧ s.clauses = []

theorem dok_int {s s' : DState} {v : Int} (h : DOk s) (e : dimacsInt s v = .ok s') : DOk s' := by
  unfold dimacsInt at e
  by_cases h1 : s.ready = true
  case neg => simp [h1] at e
  rw [if_neg (by simp [h1])] at e
  by_cases h2 : (v > s.numVars || v < -s.numVars) = true
  · rw [if_pos h2] at e; simp at e
  rw [if_neg h2] at e
  simp only [Bool.or_eq_true, decide_eq_true_eq, not_or, not_lt] at h2
  by_cases h3 : v = 0
  · rw [if_pos h3] at e
    by_cases h4 : (s.numClauses > 0 && s.buffer.isEmpty) = true
    · rw [if_pos h4] at e; simp at e
    rw [if_neg h4] at e
    simp only [Except.ok.injEq] at e
    subst e
    refine ⟨h.pos, by simp, ?_, by simp [h1]⟩
    intro c hc
    by_cases h5 : s.numClauses > 0
    · simp only [if_pos h5, List.mem_append, List.mem_singleton] at hc
      rcases hc with hc | rfl
      · exact h.cls c hc
      · refine ⟨fun e => h4 ?_, h.buf⟩
        simp [h5, e]
    · simp only [if_neg h5] at hc
      exact h.cls c hc
  · rw [if_neg h3] at e
    simp only [Except.ok.injEq] at e
    subst e
    refine ⟨h.pos, ?_, h.cls, by simp [h1]⟩
    intro l hl
    simp only [List.mem_append, List.mem_singleton] at hl
    rcases hl with hl | rfl
    · exact h.buf l hl
    · obtain ⟨-, g, -⟩ := isLit_dimacsLit h3
      have : |v| ≤ s.numVars := abs_le.2 ⟨by omega, by omega⟩
      show ((dimacsLit v).ord : Int) < s.numVars
      omega

theorem dok_ints {is : List Int} : ∀ {s s' : DState}, DOk s → is.foldlM dimacsInt s = .ok s' → DOk s' := by
  induction is with
  | nil => intro s s' h e; simp only [List.foldlM_nil] at e; cases e; exact h
  | cons i is ih =>
    intro s s' h e
    rw [List.foldlM_cons] at e
    rcases hd : dimacsInt s i with x | s1
    · rw [hd] at e; cases e
    · rw [hd] at e
      exact ih (dok_int h hd) e

theorem dok_line {s s' : DState} {line : List Char} (h : DOk s) (e : dimacsLine s line = .ok s') : DOk s' := by
  unfold dimacsLine at e
  simp only at e
  split at e
  · cases e; exact h
  · split at e
    · unfold dimacsHeader at e
      split at e
      · cases e
      · rename_i hr
        split at e
        · cases e
        · split at e
          · cases e
          · split at e
            · cases e
            · rename_i hn
              cases e
              obtain ⟨h1, h2⟩ := h.fresh (by simpa using hr)
              exact ⟨by simpa using hn, by simp [h1], by simp [h2], by simp⟩
    · exact dok_ints h e

theorem dok_lines {lines : List (List Char)} :
    ∀ {s s' : DState}, DOk s → lines.foldlM dimacsLine s = .ok s' → DOk s' := by
  induction lines with
  | nil => intro s s' h e; simp only [List.foldlM_nil] at e; cases e; exact h
  | cons i is ih =>
    intro s s' h e
    rw [List.foldlM_cons] at e
    rcases hd : dimacsLine s i with x | s1
    · rw [hd] at e; cases e
    · rw [hd] at e
      exact ih (dok_line h hd) e

theorem read_ok {lines : List (List Char)} {n : Nat} {out : List (List Lit)}
    (h : readDimacs lines = .solve n out) : ∀ c ∈ out, c ≠ [] ∧ ∀ l ∈ c, l.ord < n := by
  unfold readDimacs at h
  split at h
  · rename_i r hr
    subst h
    exfalso
    exact err_fold err_line _ _ _ _ hr
  · rename_i s hs
    have hd : DOk s := dok_lines ⟨by simp, by simp, by simp, by simp⟩ hs
    split at h
    · cases h
    · split at h
      · cases h
      · cases h
        intro c hc
        refine ⟨(hd.cls c hc).1, fun l hl => ?_⟩
        have := (hd.cls c hc).2 l hl
        omega

/-! ### The start of the solver -/

theorem main_start {n : Nat} {cls : List Clause} (h : ∀ c ∈ cls, c ≠ [] ∧ ∀ l ∈ c, l.ord < n) :
    PropStart cls (start S n cls) := by
  refine ⟨⟨rfl, rfl, rfl, rfl, ⟨?_, ?_⟩⟩, rfl⟩
  · intro r hr
    exact (h _ (clause_mem hr)).1
  · intro r hr l hl
    exact (h _ (clause_mem hr)).2 l hl

theorem satisfying_true {A : List Clause} {c0 : CS (Evsids S)} (h : PropStart A c0) {s : BS}
    (hr : Returns (propEnv S) c0 (.sat s)) : isSatisfying s = true := by
  obtain ⟨h1, h2⟩ := C16_sat_sound h hr
  obtain ⟨c, g1, g2⟩ := hr
  obtain ⟨hs, -⟩ := (pgood_iter (pgood_reach h g1) g2).1 s rfl
  unfold isSatisfying
  rw [List.all_eq_true]
  intro a ha
  obtain ⟨r, hr, rfl⟩ := List.getElem_of_mem ha
  have hr' : r < A.length := by
    rw [List.length_take, hs.asr.na] at hr
    omega
  have hlen : r < s.cls.length := lt_of_lt_of_le hr' hs.asr.le
  have e : (s.cls.take s.na)[r] = s.clause r := by
    simp [BS.clause, hlen]
  obtain ⟨l, hl, ht⟩ := h2 _ (List.getElem_mem hr')
  have hl' : l ∈ s.clause r := (hs.asr.perm r hr').mem_iff.2 hl
  rw [List.any_eq_true, e]
  refine ⟨l, hl', ?_⟩
  have hd : s.t.bools.defined l.ord = true := by
    apply h1
    have := hs.good.base.db.range r hlen l hl'
    rwa [hs.num] at this
  unfold litTrue at ht
  rcases hn : l.isNeg with _ | _ <;> simp_all

/-! ### The theorems -/

/-- C78. Every file whatsoever is answered: the program does not go on for ever and can end, and it ends in
one of three ways, with the exit code that belongs to the answer. "ERROR" is never printed. -/
theorem C78_total (lines : List (List Char)) :
    ¬ Endless S lines ∧ (∃ o, Prints S lines o) ∧
    ∀ o, Prints S lines o → o = (none, -1) ∨ o = (some "UNSAT", 0) ∨ o = (some "SAT", 1) := by
  refine ⟨?_, ?_, ?_⟩
  · rintro ⟨n, cls, hr, hf⟩
    exact C65_terminates (main_start (read_ok hr)) hf
  · rcases hr : readDimacs lines with _ | _ | ⟨n, cls⟩
    · exact ⟨_, .error hr⟩
    · exact ⟨_, .empty hr⟩
    · have hs := main_start (S := S) (read_ok hr)
      rcases C65_answers hs .refl with h | ⟨s, h⟩
      · exact ⟨_, .unsat hr h⟩
      · exact ⟨_, .sat hr h (satisfying_true hs h)⟩
  · intro o ho
    cases ho with
    | error _ => exact .inl rfl
    | empty _ => exact .inr (.inl rfl)
    | sat _ _ _ => exact .inr (.inr rfl)
    | wrong hr h hf =>
      rw [satisfying_true (main_start (read_ok hr)) h] at hf
      cases hf
    | unsat _ _ => exact .inr (.inl rfl)

theorem intTrue_lit {σ : Nat → Bool} {i : Int} {l : Lit} (h : IsLit i l) :
    IntTrue (fun k => σ (k - 1)) i ↔ litTrue σ l := by
  obtain ⟨h1, h2, h3⟩ := h
  have e : i.natAbs - 1 = l.ord := by
    rw [Int.abs_eq_natAbs] at h2
    omega
  unfold IntTrue litTrue
  simp only [e]
  rcases hn : l.isNeg with _ | _
  · have : ¬ i < 0 := fun h => by rw [h3.2 h] at hn; cases hn
    simp only [Bool.false_eq_true, if_false]
    constructor
    · rintro (⟨h, -⟩ | ⟨-, h⟩)
      · exact h
      · exact absurd h this
    · exact fun h => .inl ⟨h, by omega⟩
  · have : i < 0 := h3.1 hn
    simp only [if_true]
    constructor
    · rintro (⟨-, h⟩ | ⟨h, -⟩)
      · omega
      · exact h
    · exact fun h => .inr ⟨h, this⟩

theorem cnfSat_iff {cls : List (List Int)} {out : List (List Lit)}
    (h : List.Forall₂ (List.Forall₂ IsLit) cls out) : CnfSat cls ↔ ∃ m, allTrue m out := by
  have hc : ∀ {c : List Int} {d : List Lit}, List.Forall₂ IsLit c d → ∀ σ : Nat → Bool,
      ((∃ i ∈ c, IntTrue (fun k => σ (k - 1)) i) ↔ clauseTrue σ d) := by
    intro c d h σ
    unfold clauseTrue
    induction h with
    | nil => simp
    | cons h1 _ ih => simp only [List.mem_cons, exists_eq_or_imp, ih, intTrue_lit h1]
  have ha : ∀ σ : Nat → Bool, (∀ c ∈ cls, ∃ i ∈ c, IntTrue (fun k => σ (k - 1)) i) ↔ allTrue σ out := by
    intro σ
    unfold allTrue
    induction h with
    | nil => simp
    | cons h1 _ ih => simp only [List.mem_cons, forall_eq_or_imp, ih, hc h1 σ]
  constructor
  · rintro ⟨m, hm⟩
    refine ⟨fun k => m (k + 1), (ha _).1 fun c hcm => ?_⟩
    obtain ⟨i, hi, ht⟩ := hm c hcm
    refine ⟨i, hi, ?_⟩
    have : 0 < i.natAbs := by
      rcases ht with ⟨-, h⟩ | ⟨-, h⟩ <;> omega
    have e : i.natAbs - 1 + 1 = i.natAbs := by omega
    unfold IntTrue at ht ⊢
    simpa only [e] using ht
  · rintro ⟨m, hm⟩
    exact ⟨_, (ha m).2 hm⟩

/-- C78. For a file with a header that declares `n` variables and the number of the clauses `cls`, in any
layout, the program prints "SAT" and exits with code 1 if the clauses are satisfiable, and prints "UNSAT" and
exits with code 0 if not. (That it does print an answer is `C78_total`.) -/
theorem C78_answer {lines : List (List Char)} {pre post : List LineKind} {n : Nat} {cls : List (List Int)}
    (ht : List.Forall₂ LineText lines (pre ++ .header n cls.length :: post))
    (hpre : ∀ k ∈ pre, k.isHeader = false) (hip : ints pre = []) (hpost : ∀ k ∈ post, k.isHeader = false)
    (hcls : ints post = clauseInts cls) (hlit : ∀ c ∈ cls, ∀ i ∈ c, i ≠ 0 ∧ |i| ≤ n)
    (hn : n ≤ 2147483647) (hm : cls.length ≤ 2147483647) (o : SatMain.Out) :
    Prints S lines o ↔ (CnfSat cls ∧ o = (some "SAT", 1)) ∨ (¬ CnfSat cls ∧ o = (some "UNSAT", 0)) := by
  have hread := C46_reads ht hpre hip hpost hcls hlit hn hm
  by_cases he : [] ∈ cls
  · rw [if_pos he] at hread
    have hu : ¬ CnfSat cls := by
      rintro ⟨m, hm⟩
      obtain ⟨i, hi, -⟩ := hm [] he
      simp at hi
    constructor
    · intro h
      cases h with
      | empty _ => exact .inr ⟨hu, rfl⟩
      | error h => rw [hread] at h; cases h
      | sat h _ _ => rw [hread] at h; cases h
      | wrong h _ _ => rw [hread] at h; cases h
      | unsat h _ => rw [hread] at h; cases h
    · rintro (⟨h, -⟩ | ⟨-, rfl⟩)
      · exact absurd h hu
      · exact .empty hread
  · rw [if_neg he] at hread
    obtain ⟨out, hr, hf⟩ := hread
    have hs := main_start (S := S) (read_ok hr)
    obtain ⟨d1, d2⟩ := C65_decides hs
    rw [← cnfSat_iff hf] at d1 d2
    constructor
    · intro h
      cases h with
      | empty h => rw [hr] at h; cases h
      | error h => rw [hr] at h; cases h
      | sat h h' _ => rw [hr] at h; cases h; exact .inl ⟨d2.1 ⟨_, h'⟩, rfl⟩
      | wrong h h' hw => rw [hr] at h; cases h; rw [satisfying_true hs h'] at hw; cases hw
      | unsat h h' => rw [hr] at h; cases h; exact .inr ⟨d1.1 h', rfl⟩
    · rintro (⟨h, rfl⟩ | ⟨h, rfl⟩)
      · obtain ⟨s, h'⟩ := d2.2 h
        exact .sat hr h' (satisfying_true hs h')
      · exact .unsat hr (d1.2 h)

/-- A file with a clause broken over two lines; its clauses are satisfiable, and "SAT" is the only answer. -/
example : ∀ o, Prints Int ["c x".toList, "p cnf 2 2".toList, "1 -2".toList, "0 -1 0".toList] o ↔
    o = (some "SAT", 1) := by
  have hb : Blank [' '] := by unfold Blank; decide
  have h0 : Blank [] := by unfold Blank; decide
  have nt : ∀ ds : List (Fin 10), ds ≠ [] → NatText (ds.map digitChar) (natVal ds) := fun ds h => ⟨ds, h, rfl, rfl⟩
  have hs : CnfSat [[1, -2], [-1]] := by
    refine ⟨fun _ => false, ?_⟩
    unfold IntTrue
    decide
  intro o
  rw [C78_answer (S := Int) (pre := [.comment]) (n := 2) (cls := [[1, -2], [-1]])
    (post := [.data [1, -2], .data [0, -1, 0]]) ?_ (by decide) (by decide) (by decide) (by decide) (by decide)
    (by decide) (by decide)]
  · simp [hs]
  · refine .cons (.comment (ws := []) h0) (.cons ?_ (.cons ?_ (.cons ?_ .nil)))
    · exact LineText.header (ws := []) (w1 := [' ']) (t1 := ['2']) (w2 := [' ']) (t2 := ['2']) (w3 := []) h0 hb (by simp)
        (nt [2] (by simp)) hb (by simp) (nt [2] (by simp)) h0
    · refine .data (.cons (ws := []) (t := ['1']) (c := ' ') h0 (.inl ⟨1, nt [1] (by simp), rfl⟩) hb ?_)
      exact .last (ws := [' ']) (t := "-2".toList) hb (.inr ⟨['2'], 2, rfl, nt [2] (by simp), rfl⟩)
    · refine .data (.cons (ws := []) (t := ['0']) (c := ' ') h0 (.inl ⟨0, nt [0] (by simp), rfl⟩) hb ?_)
      refine .cons (ws := [' ']) (t := "-1".toList) (c := ' ') (rest := ['0']) hb
        (.inr ⟨['1'], 1, rfl, nt [1] (by simp), rfl⟩) hb ?_
      exact .last (ws := [' ']) (t := ['0']) hb (.inl ⟨0, nt [0] (by simp), rfl⟩)

/-- A satisfiable set of clauses and one that is not. -/
example : CnfSat [[1, 2], [-1]] ∧ ¬ CnfSat [[1, 2], [-1], [-2]] := by
  refine ⟨⟨fun k => k == 2, by unfold IntTrue; decide⟩, ?_⟩
  rintro ⟨m, hm⟩
  obtain ⟨i, hi, h⟩ := hm [-1] (by simp)
  obtain ⟨j, hj, h'⟩ := hm [-2] (by simp)
  obtain ⟨k, hk, h''⟩ := hm [1, 2] (by simp)
  simp only [List.mem_cons, List.not_mem_nil, or_false] at hi hj hk
  subst hi hj
  rcases hk with rfl | rfl <;> simp_all [IntTrue]

#print axioms C78_total
#print axioms C78_answer

end Yaga
