/-
Reading DIMACS files.
-/
import Verif.Model.Dimacs
import Verif.Spec.Dimacs
import Mathlib.Tactic.Ring
import Mathlib.Algebra.Order.Group.Abs

namespace Yaga

open Spec

theorem isDig_digitChar (d : Fin 10) : isDig (digitChar d) = true := by revert d; decide

theorem digitChar_toNat (d : Fin 10) : (digitChar d).toNat - 48 = d.val := by revert d; decide

theorem isSpace_digitChar (d : Fin 10) : isSpace (digitChar d) = false := by revert d; decide

theorem digitChar_ne (d : Fin 10) : digitChar d ≠ '-' ∧ digitChar d ≠ '+' ∧ digitChar d ≠ 'c' ∧
    digitChar d ≠ 'p' := by revert d; decide

theorem digitsNat_aux (ds : List (Fin 10)) : ∀ a : Nat,
    (ds.map digitChar).foldl (fun n c => 10 * n + (c.toNat - 48)) a = a * 10 ^ ds.length + natVal ds := by
  induction ds with
  | nil => intro a; simp [natVal]
  | cons d ds ih =>
    intro a
    rw [List.map_cons, List.foldl_cons, ih, digitChar_toNat, natVal, List.length_cons]
    ring

theorem digitsNat_eq (ds : List (Fin 10)) : digitsNat (ds.map digitChar) = natVal ds := by
  unfold digitsNat
  rw [digitsNat_aux]
  simp

theorem blank_space {c : Char} (h : c = ' ' ∨ c = '\t' ∨ c = '\r') : isSpace c = true ∧ isDig c = false := by
  rcases h with rfl | rfl | rfl <;> decide

theorem dropWhile_blank {ws : List Char} (h : Blank ws) (cs : List Char) :
    (ws ++ cs).dropWhile isSpace = cs.dropWhile isSpace := by
  induction ws with
  | nil => rfl
  | cons c ws ih =>
    rw [List.cons_append, List.dropWhile_cons_of_pos (blank_space (h c (by simp))).1]
    exact ih fun d hd => h d (by simp [hd])

/-- What may follow a number. -/
def Ends (cs : List Char) : Prop := ∀ c, cs.head? = some c → isDig c = false

theorem takeDigits (ds : List (Fin 10)) {rest : List Char} (h : Ends rest) :
    (ds.map digitChar ++ rest).takeWhile isDig = ds.map digitChar ∧
      (ds.map digitChar ++ rest).dropWhile isDig = rest := by
  induction ds with
  | nil =>
    cases rest with
    | nil => exact ⟨rfl, rfl⟩
    | cons c cs =>
      have := h c rfl
      simp [this]
  | cons d ds ih =>
    simp only [List.map_cons, List.cons_append, List.takeWhile_cons, List.dropWhile_cons, isDig_digitChar,
      if_true, ih.1, ih.2, and_self]

/-- The numbers an `int` can hold. -/
def Fits (i : Int) : Prop := -2147483648 ≤ i ∧ i ≤ 2147483647

theorem readInt_text {ws t : List Char} {i : Int} (hw : Blank ws) (ht : IntText t i) (hf : Fits i)
    {rest : List Char} (hr : Ends rest) : readInt (ws ++ (t ++ rest)) = some (i, rest) := by
  unfold readInt
  rw [dropWhile_blank hw]
  rcases ht with ⟨n, ⟨ds, h1, rfl, h3⟩, rfl⟩ | ⟨t, n, rfl, ⟨ds, h1, rfl, h3⟩, rfl⟩
  · cases ds with
    | nil => exact absurd rfl h1
    | cons d ds =>
      have e : (List.map digitChar (d :: ds) ++ rest).dropWhile isSpace = List.map digitChar (d :: ds) ++ rest := by
        rw [List.map_cons, List.cons_append, List.dropWhile_cons_of_neg (by rw [isSpace_digitChar]; simp)]
      rw [e]
      have hn : ((List.map digitChar (d :: ds) ++ rest).head? == some '-') = false := by
        simpa using (digitChar_ne d).1
      have hp : ((List.map digitChar (d :: ds) ++ rest).head? == some '+') = false := by
        simpa using (digitChar_ne d).2.1
      simp only [hn, hp, Bool.or_self, Bool.false_eq_true, if_false]
      rw [(takeDigits (d :: ds) hr).1, (takeDigits (d :: ds) hr).2, digitsNat_eq, h3, if_neg (by simp)]
      rw [if_neg]
      simp only [Bool.or_eq_true, decide_eq_true_eq]
      unfold Fits at hf
      omega
  · have e : (('-' :: List.map digitChar ds) ++ rest).dropWhile isSpace = '-' :: (List.map digitChar ds ++ rest) := by
      rw [List.cons_append, List.dropWhile_cons_of_neg (by decide)]
    rw [e]
    have hn : (('-' :: (List.map digitChar ds ++ rest)).head? == some '-') = true := by simp
    simp only [hn, Bool.true_or, if_true, List.drop_succ_cons, List.drop_zero]
    rw [(takeDigits ds hr).1, (takeDigits ds hr).2, digitsNat_eq, h3, if_neg (by simpa using h1)]
    rw [if_neg]
    simp only [Bool.or_eq_true, decide_eq_true_eq]
    unfold Fits at hf
    omega

theorem readInt_blank {ws : List Char} (hw : Blank ws) : readInt ws = none := by
  unfold readInt
  have := dropWhile_blank hw []
  rw [List.append_nil, List.dropWhile_nil] at this
  rw [this]
  rfl

theorem ends_blank {c : Char} (h : Blank [c]) (rest : List Char) : Ends (c :: rest) := by
  intro d hd
  rw [List.head?_cons] at hd
  cases hd
  exact (blank_space (h _ (by simp))).2

theorem intText_length {t : List Char} {i : Int} (h : IntText t i) : 1 ≤ t.length := by
  rcases h with ⟨n, ⟨ds, h1, rfl, h3⟩, rfl⟩ | ⟨t, n, rfl, _, rfl⟩
  · rw [List.length_map]
    exact List.length_pos_iff.mpr h1
  · simp

theorem readInts_text {cs : List Char} {is : List Int} (h : DataText cs is) :
    (∀ i ∈ is, Fits i) → ∀ fuel, cs.length ≤ fuel → readInts fuel cs = is := by
  induction h with
  | blank hw =>
    intro _ fuel _
    cases fuel with
    | zero => rfl
    | succ n => rw [readInts, readInt_blank hw]
  | last hw ht =>
    intro hf fuel hl
    rename_i ws t i
    have := intText_length ht
    rw [List.length_append] at hl
    cases fuel with
    | zero => omega
    | succ n =>
      have e := readInt_text hw ht (hf i (by simp)) (rest := []) (by intro c hc; cases hc)
      rw [List.append_nil] at e
      rw [readInts, e]
      cases n with
      | zero => rfl
      | succ n => rfl
  | cons hw ht hc _ ih =>
    intro hf fuel hl
    rename_i ws t c rest i is _
    have := intText_length ht
    rw [List.length_append, List.length_append] at hl
    cases fuel with
    | zero => omega
    | succ n =>
      have e := readInt_text hw ht (hf i (by simp)) (ends_blank hc rest)
      rw [readInts, e]
      simp only
      rw [ih (fun j hj => hf j (by simp [hj])) n (by omega)]

theorem dropWhile_data {cs : List Char} {is : List Int} (h : DataText cs is) :
    DataText (cs.dropWhile isSpace) is ∧ (cs.dropWhile isSpace).head? ≠ some 'c' ∧
      (cs.dropWhile isSpace).head? ≠ some 'p' := by
  have key : ∀ {t : List Char} {i : Int}, IntText t i → ∀ rest, (t ++ rest).dropWhile isSpace = t ++ rest ∧
      (t ++ rest).head? ≠ some 'c' ∧ (t ++ rest).head? ≠ some 'p' := by
    intro t i ht rest
    rcases ht with ⟨n, ⟨ds, h1, rfl, h3⟩, rfl⟩ | ⟨t, n, rfl, _, rfl⟩
    · cases ds with
      | nil => exact absurd rfl h1
      | cons d ds =>
        refine ⟨?_, by simpa using (digitChar_ne d).2.2.1, by simpa using (digitChar_ne d).2.2.2⟩
        rw [List.map_cons, List.cons_append, List.dropWhile_cons_of_neg (by rw [isSpace_digitChar]; simp)]
    · refine ⟨?_, by simp, by simp⟩
      rw [List.cons_append, List.dropWhile_cons_of_neg (by decide)]
  have hnil : Blank [] := by intro c hc; cases hc
  cases h with
  | blank hw =>
    have := dropWhile_blank hw []
    rw [List.append_nil, List.dropWhile_nil] at this
    rw [this]
    exact ⟨.blank hnil, by simp, by simp⟩
  | last hw ht =>
    rename_i ws t i
    rw [dropWhile_blank hw]
    have := key ht []
    rw [List.append_nil] at this
    rw [this.1]
    exact ⟨DataText.last (ws := []) hnil ht, this.2⟩
  | cons hw ht hc hd =>
    rw [dropWhile_blank hw, (key ht _).1]
    exact ⟨DataText.cons (ws := []) hnil ht hc hd, (key ht _).2⟩

theorem isHeader_head {cs : List Char} (h : cs.head? ≠ some 'p') : isHeader cs = false := by
  cases cs with
  | nil => rfl
  | cons c cs =>
    have : c ≠ 'p' := by simpa using h
    simp [isHeader, this]

/-- The effect of a line of some kind. -/
def kindStep (s : DState) : LineKind → Except Dimacs DState
  | .comment => .ok s
  | .header n m =>
    if s.ready then .error .error else .ok { s with ready := true, numVars := n, numClauses := m }
  | .data is => is.foldlM dimacsInt s

/-- The numbers of a line fit. -/
def KindFits : LineKind → Prop
  | .comment => True
  | .header n m => Fits n ∧ Fits m
  | .data is => ∀ i ∈ is, Fits i

theorem dimacsLine_text {cs : List Char} {k : LineKind} (h : LineText cs k) (hf : KindFits k) (s : DState) :
    dimacsLine s cs = kindStep s k := by
  unfold dimacsLine
  cases h with
  | comment hw =>
    rw [dropWhile_blank hw, List.dropWhile_cons_of_neg (by decide)]
    simp [kindStep]
  | header hw h1 hn1 ht1 h2 hn2 ht2 h3 =>
    rename_i ws w1 t1 w2 t2 w3 n m
    rw [dropWhile_blank hw, List.dropWhile_cons_of_neg (by decide)]
    have e1 : Ends (w2 ++ (t2 ++ w3)) := by
      cases w2 with
      | nil => exact absurd rfl hn2
      | cons c w2 => exact ends_blank (fun d hd => by simp at hd; exact h2 d (by simp [hd])) _
    have e2 : Ends w3 := by
      cases w3 with
      | nil => intro c hc; cases hc
      | cons c w3 => exact ends_blank (fun d hd => by simp at hd; exact h3 d (by simp [hd])) _
    have r1 := readInt_text h1 (.inl ⟨n, ht1, rfl⟩) hf.1 e1
    have r2 := readInt_text h2 (.inl ⟨m, ht2, rfl⟩) hf.2 e2
    have hneg : ¬ ((n : Int) < 0) := by omega
    simp only [List.head?_cons, isHeader, dimacsHeader, List.drop_succ_cons, List.drop_zero, r1, r2, if_neg hneg]
    simp [kindStep]
  | data hd =>
    have := dropWhile_data hd
    have h1 : ((cs.dropWhile isSpace).head? == some 'c') = false := by simpa using this.2.1
    simp only [h1, isHeader_head this.2.2, Bool.false_eq_true, if_false]
    rw [readInts_text this.1 hf _ (le_refl _)]
    rfl

theorem foldlM_lines {lines : List (List Char)} {ks : List LineKind} (h : List.Forall₂ LineText lines ks)
    (hf : ∀ k ∈ ks, KindFits k) : ∀ s, lines.foldlM dimacsLine s = ks.foldlM kindStep s := by
  induction h with
  | nil => intro s; rfl
  | cons h1 _ ih =>
    intro s
    rw [List.foldlM_cons, List.foldlM_cons, dimacsLine_text h1 (hf _ (by simp)) s]
    congr 1
    funext s'
    exact ih (fun k hk => hf k (by simp [hk])) s'

/-- Lines without header after the header are a fold over their numbers. -/
theorem foldlM_data (ks : List LineKind) (hk : ∀ k ∈ ks, k.isHeader = false) :
    ∀ s, ks.foldlM kindStep s = (ints ks).foldlM dimacsInt s := by
  induction ks with
  | nil => intro s; rfl
  | cons k ks ih =>
    intro s
    have ih := ih fun k hk' => hk k (by simp [hk'])
    cases k with
    | comment => rw [List.foldlM_cons]; exact ih s
    | header n m => have := hk _ (List.mem_cons_self ..); cases this
    | data is =>
      rw [List.foldlM_cons, ints, List.foldlM_append]
      congr 1
      funext s'
      exact ih s'

/-- Literals of a clause. -/
theorem foldlM_lits {n : Nat} (c : List Int) (hc : ∀ i ∈ c, i ≠ 0 ∧ |i| ≤ n) :
    ∀ (m : Int) (b : List Lit) (cls : List (List Lit)), c.foldlM dimacsInt ⟨true, n, m, b, cls⟩ =
      .ok ⟨true, n, m, b ++ c.map dimacsLit, cls⟩ := by
  induction c with
  | nil => intro m b cls; simp; rfl
  | cons i c ih =>
    intro m b cls
    have hi := hc i (by simp)
    have hb := abs_le.mp hi.2
    rw [List.foldlM_cons]
    have : dimacsInt ⟨true, n, m, b, cls⟩ i = .ok ⟨true, n, m, b ++ [dimacsLit i], cls⟩ := by
      unfold dimacsInt
      simp only [Bool.not_true, Bool.false_eq_true, if_false]
      rw [if_neg (by simp; omega), if_neg hi.1]
    rw [this]
    show c.foldlM dimacsInt _ = _
    rw [ih (fun j hj => hc j (by simp [hj])), List.append_assoc]
    rfl

theorem foldlM_clause {n : Nat} (c : List Int) (hc : ∀ i ∈ c, i ≠ 0 ∧ |i| ≤ n) (m : Nat)
    (cls : List (List Lit)) :
    (c ++ [0]).foldlM dimacsInt ⟨true, n, (m + 1 : Nat), [], cls⟩ =
      if c = [] then .error .unsat else .ok ⟨true, n, m, [], cls ++ [c.map dimacsLit]⟩ := by
  rw [List.foldlM_append, foldlM_lits c hc]
  show [0].foldlM dimacsInt _ = _
  rw [List.foldlM_cons]
  have hm : ((m + 1 : Nat) : Int) > 0 := by omega
  have hz : (decide ((0 : Int) > n) || decide ((0 : Int) < -n)) = false := by simp
  cases c with
  | nil =>
    simp only [dimacsInt, hz, hm]
    simp
  | cons i c =>
    simp only [dimacsInt, hz, hm]
    simp

theorem foldlM_clauses {n : Nat} (cs : List (List Int)) (hc : ∀ c ∈ cs, ∀ i ∈ c, i ≠ 0 ∧ |i| ≤ n) :
    ∀ (m : Nat) (cls : List (List Lit)),
    (clauseInts cs).foldlM dimacsInt ⟨true, n, (m + cs.length : Nat), [], cls⟩ =
      if [] ∈ cs then .error .unsat else .ok ⟨true, n, m, [], cls ++ cs.map fun c => c.map dimacsLit⟩ := by
  induction cs with
  | nil => intro m cls; simp [clauseInts]; rfl
  | cons c cs ih =>
    intro m cls
    have e : clauseInts (c :: cs) = (c ++ [0]) ++ clauseInts cs := rfl
    rw [e, List.foldlM_append, List.length_cons, ← Nat.add_assoc, foldlM_clause c (hc c (by simp))]
    by_cases h : c = []
    · simp [h]; rfl
    · rw [if_neg h]
      show (clauseInts cs).foldlM dimacsInt _ = _
      rw [ih (fun d hd => hc d (by simp [hd]))]
      have : ([] ∈ c :: cs) ↔ [] ∈ cs := by
        rw [List.mem_cons]
        exact ⟨fun g => g.resolve_left (fun e => h e.symm), .inr⟩
      simp only [this, List.map_cons, List.append_assoc, List.singleton_append]

theorem isLit_dimacsLit {i : Int} (h : i ≠ 0) : IsLit i (dimacsLit i) := by
  refine ⟨h, ?_, ?_⟩
  · unfold dimacsLit Lit.ord Lit.neg Lit.pos
    split
    · rename_i g
      rw [abs_of_neg g]
      simp only
      omega
    · rw [abs_of_nonneg (by omega)]
      simp only
      omega
  · unfold dimacsLit Lit.isNeg Lit.neg Lit.pos
    split
    · simp only [decide_eq_true_eq]
      omega
    · simp only [decide_eq_true_eq]
      omega

/-- What has been read of the numbers after the header. -/
def Inv (n m : Nat) (done : List Int) (s : DState) : Prop :=
  ∃ (cs : List (List Int)) (tl : List Int), done = clauseInts cs ++ tl ∧ (∀ c ∈ cs, 0 ∉ c) ∧ 0 ∉ tl ∧
    (∀ i ∈ done, |i| ≤ n) ∧ [] ∉ cs.take m ∧
    s = ⟨true, n, (m : Int) - cs.length, tl.map dimacsLit, (cs.take m).map fun c => c.map dimacsLit⟩

/-- An empty clause among the first `m`. -/
def EmptyAt (m : Nat) (is : List Int) : Prop :=
  ∃ (cs : List (List Int)) (extra : List Int), is = clauseInts cs ++ 0 :: extra ∧ (∀ c ∈ cs, 0 ∉ c) ∧
    cs.length < m

theorem inv_step {n m : Nat} {done : List Int} {s : DState} (h : Inv n m done s) (v : Int) :
    match dimacsInt s v with
    | .ok s' => Inv n m (done ++ [v]) s'
    | .error r => r = .error ∨ (r = .unsat ∧ EmptyAt m (done ++ [v])) := by
  obtain ⟨cs, tl, h1, h2, h3, h4, h5, rfl⟩ := h
  unfold dimacsInt
  simp only [Bool.not_true, Bool.false_eq_true, if_false]
  by_cases hv : (decide (v > (n : Int)) || decide (v < -(n : Int))) = true
  · rw [if_pos hv]; exact .inl rfl
  rw [if_neg hv]
  simp only [Bool.or_eq_true, decide_eq_true_eq, not_or, not_lt] at hv
  have hva : |v| ≤ n := abs_le.mpr ⟨by omega, by omega⟩
  have h4' : ∀ i ∈ done ++ [v], |i| ≤ n := by
    intro i hi
    rcases List.mem_append.mp hi with hi | hi
    · exact h4 i hi
    · rw [List.mem_singleton.mp hi]; exact hva
  by_cases h0 : v = 0
  · subst h0
    rw [if_pos rfl]
    have hcl : clauseInts (cs ++ [tl]) = clauseInts cs ++ (tl ++ [0]) := by simp [clauseInts]
    by_cases hb : (decide ((m : Int) - cs.length > 0) && (tl.map dimacsLit).isEmpty) = true
    · rw [if_pos hb]
      simp only [Bool.and_eq_true, decide_eq_true_eq, List.isEmpty_iff, List.map_eq_nil_iff] at hb
      refine .inr ⟨rfl, cs, [], ?_, h2, by omega⟩
      rw [h1, hb.2]
      simp
    · rw [if_neg hb]
      simp only [Bool.and_eq_true, decide_eq_true_eq, List.isEmpty_iff, List.map_eq_nil_iff, not_and] at hb
      refine ⟨cs ++ [tl], [], ?_, ?_, by simp, h4', ?_, ?_⟩
      · rw [hcl, h1]; simp
      · intro c hc
        rcases List.mem_append.mp hc with hc | hc
        · exact h2 c hc
        · rw [List.mem_singleton.mp hc]; exact h3
      · by_cases hm : cs.length < m
        · have ht : cs.take m = cs := List.take_of_length_le (by omega)
          rw [List.take_of_length_le (by simp; omega)]
          rw [ht] at h5
          simp only [List.mem_append, List.mem_singleton, not_or]
          exact ⟨h5, fun e => hb (by omega) e.symm⟩
        · rw [List.take_append_of_le_length (by omega)]
          exact h5
      · by_cases hm : cs.length < m
        · have ht : cs.take m = cs := List.take_of_length_le (by omega)
          rw [List.take_of_length_le (l := cs ++ [tl]) (by simp; omega), ht, if_pos (by omega)]
          simp
          omega
        · rw [List.take_append_of_le_length (by omega), if_neg (by omega)]
          simp
          omega
  · rw [if_neg h0]
    refine ⟨cs, tl ++ [v], ?_, h2, ?_, h4', h5, ?_⟩
    · rw [h1, List.append_assoc]
    · simp only [List.mem_append, List.mem_singleton, not_or]
      exact ⟨h3, fun e => h0 e.symm⟩
    · simp

theorem emptyAt_append {m : Nat} {is : List Int} (h : EmptyAt m is) (more : List Int) :
    EmptyAt m (is ++ more) := by
  obtain ⟨cs, extra, rfl, h2, h3⟩ := h
  exact ⟨cs, extra ++ more, by simp, h2, h3⟩

theorem inv_ints {n m : Nat} (is : List Int) : ∀ {done : List Int} {s : DState}, Inv n m done s →
    match is.foldlM dimacsInt s with
    | .ok s' => Inv n m (done ++ is) s'
    | .error r => r = .error ∨ (r = .unsat ∧ EmptyAt m (done ++ is)) := by
  induction is with
  | nil => intro done s h; rw [List.append_nil]; exact h
  | cons v is ih =>
    intro done s h
    have hs := inv_step h v
    rw [List.foldlM_cons]
    cases hd : dimacsInt s v with
    | error r =>
      rw [hd] at hs
      show r = .error ∨ (r = .unsat ∧ _)
      rcases hs with hs | ⟨hs, he⟩
      · exact .inl hs
      · refine .inr ⟨hs, ?_⟩
        have := emptyAt_append he is
        rwa [List.append_assoc] at this
    | ok s' =>
      rw [hd] at hs
      have := ih hs
      rw [List.append_assoc] at this
      exact this

theorem ints_append (a b : List LineKind) : ints (a ++ b) = ints a ++ ints b := by
  induction a with
  | nil => rfl
  | cons k a ih => cases k <;> simp [ints, ih]

/-- A list of lines with its first header. -/
def Split (ks pre : List LineKind) (n m : Nat) (post : List LineKind) : Prop :=
  ks = pre ++ .header n m :: post ∧ (∀ k ∈ pre, k.isHeader = false) ∧ ints pre = []

/-- What has been read of a file. -/
def Read (done : List LineKind) (s : DState) : Prop :=
  (s = ⟨false, 0, 0, [], []⟩ ∧ (∀ k ∈ done, k.isHeader = false) ∧ ints done = []) ∨
    ∃ pre n m post, Split done pre n m post ∧ (∀ k ∈ post, k.isHeader = false) ∧ Inv n m (ints post) s

/-- An empty clause has been found. -/
def Found (ks : List LineKind) : Prop := ∃ pre n m post, Split ks pre n m post ∧ EmptyAt m (ints post)

theorem Split.append {ks pre : List LineKind} {n m : Nat} {post : List LineKind} (h : Split ks pre n m post)
    (more : List LineKind) : Split (ks ++ more) pre n m (post ++ more) := by
  obtain ⟨rfl, h2, h3⟩ := h
  exact ⟨by simp, h2, h3⟩

theorem Found.append {ks : List LineKind} (h : Found ks) (more : List LineKind) : Found (ks ++ more) := by
  obtain ⟨pre, n, m, post, h1, h2⟩ := h
  exact ⟨pre, n, m, post ++ more, h1.append more, by rw [ints_append]; exact emptyAt_append h2 _⟩

theorem read_step {done : List LineKind} {s : DState} (h : Read done s) (k : LineKind) :
    match kindStep s k with
    | .ok s' => Read (done ++ [k]) s'
    | .error r => r = .error ∨ (r = .unsat ∧ Found (done ++ [k])) := by
  have app : ∀ {l : List LineKind} {k : LineKind}, (∀ k ∈ l, k.isHeader = false) → k.isHeader = false →
      ∀ k' ∈ l ++ [k], k'.isHeader = false := by
    intro l k h1 h2 k' hk
    rcases List.mem_append.mp hk with hk | hk
    · exact h1 k' hk
    · rw [List.mem_singleton.mp hk]; exact h2
  rcases h with ⟨rfl, h2, h3⟩ | ⟨pre, n, m, post, h1, h2, h3⟩
  · cases k with
    | comment => exact .inl ⟨rfl, app h2 rfl, by rw [ints_append, h3]; rfl⟩
    | header n m =>
      refine .inr ⟨done, n, m, [], ⟨rfl, h2, h3⟩, by simp, [], [], rfl, by simp, by simp, by simp [ints], by simp, ?_⟩
      simp
    | data is =>
      cases is with
      | nil => exact .inl ⟨rfl, app h2 rfl, by rw [ints_append, h3]; rfl⟩
      | cons v is => exact .inl rfl
  · cases k with
    | comment =>
      refine .inr ⟨pre, n, m, post ++ [.comment], h1.append _, app h2 rfl, ?_⟩
      rw [ints_append]
      simpa [ints] using h3
    | header n' m' =>
      obtain ⟨cs, tl, _, _, _, _, _, rfl⟩ := h3
      exact .inl rfl
    | data is =>
      have := inv_ints is h3
      have e : ints (post ++ [.data is]) = ints post ++ is := by rw [ints_append]; simp [ints]
      show match is.foldlM dimacsInt s with
        | .ok s' => Read (done ++ [.data is]) s'
        | .error r => r = .error ∨ (r = .unsat ∧ Found (done ++ [.data is]))
      revert this
      cases is.foldlM dimacsInt s with
      | ok s' => exact fun this => .inr ⟨pre, n, m, _, h1.append _, app h2 rfl, by rw [e]; exact this⟩
      | error r =>
        rintro (h | ⟨h, h'⟩)
        · exact .inl h
        · exact .inr ⟨h, pre, n, m, _, h1.append _, by rw [e]; exact h'⟩

theorem read_lines (ks : List LineKind) : ∀ {done : List LineKind} {s : DState}, Read done s →
    match ks.foldlM kindStep s with
    | .ok s' => Read (done ++ ks) s'
    | .error r => r = .error ∨ (r = .unsat ∧ Found (done ++ ks)) := by
  induction ks with
  | nil => intro done s h; rw [List.append_nil]; exact h
  | cons k ks ih =>
    intro done s h
    have hs := read_step h k
    rw [List.foldlM_cons]
    cases hd : kindStep s k with
    | error r =>
      rw [hd] at hs
      show r = .error ∨ (r = .unsat ∧ _)
      rcases hs with hs | ⟨hs, he⟩
      · exact .inl hs
      · refine .inr ⟨hs, ?_⟩
        have := he.append ks
        rwa [List.append_assoc] at this
    | ok s' =>
      rw [hd] at hs
      have := ih hs
      rw [List.append_assoc] at this
      exact this

end Yaga
