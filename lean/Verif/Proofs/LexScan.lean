/-
Lemmas for C70: the tokens of a text.
-/
import Verif.Proofs.LexToken

namespace Yaga

open Spec Regex

namespace Lexer

theorem pick_total {cs : List Char} (h : cs ≠ []) : ∃ n a, pick cs rules = some (n, a) := by
  cases hp : pick cs rules with
  | some r => exact ⟨r.1, r.2, rfl⟩
  | none =>
    exfalso
    cases cs with
    | nil => exact h rfl
    | cons c cs =>
      have h1 := pick_none hp
      by_cases hc : c = '\n'
      · have := h1 (newLine, .skip) (by unfold rules; exact List.mem_append_right _ (by simp)) [c] ⟨cs, rfl⟩
          ((plus_cls _ _).mpr ⟨by simp, by simp [hc]⟩)
        cases this
      · have := h1 (.cls (· != '\n'), .fail)
          (by unfold rules; exact List.mem_append_right _ (by simp)) [c] ⟨cs, rfl⟩
          ⟨c, rfl, by simpa using hc⟩
        cases this

theorem munch_total {cs : List Char} (h : cs ≠ []) : ∃ w a, Munch rules cs w a := by
  obtain ⟨n, a, hp⟩ := pick_total h
  exact ⟨_, a, (pick_some hp).1⟩

theorem next_skip {cs w : List Char} {f : Nat} (h : Munch rules cs w .skip) :
    next (f + 1) cs = next f (cs.drop w.length) := by
  have hp := (pick_iff.mp h).1
  cases cs with
  | nil => exact absurd (List.prefix_nil.mp h.1) h.2.1
  | cons c cs => simp only [next, hp]

theorem next_ret {cs w : List Char} {f : Nat} {k : Kind} (h : Munch rules cs w (.ret k)) :
    next (f + 1) cs = some ((k, w), cs.drop w.length) := by
  have hp := (pick_iff.mp h).1
  have hw := (prefix_take h.1).2
  cases cs with
  | nil => exact absurd (List.prefix_nil.mp h.1) h.2.1
  | cons c cs => simp only [next, hp]; rw [hw]

theorem next_fail {cs w : List Char} {f : Nat} (h : Munch rules cs w .fail) : next (f + 1) cs = none := by
  have hp := (pick_iff.mp h).1
  cases cs with
  | nil => exact absurd (List.prefix_nil.mp h.1) h.2.1
  | cons c cs => simp only [next, hp]

theorem munch_pos {cs w : List Char} {a : Act} (h : Munch rules cs w a) : 0 < w.length ∧ w.length ≤ cs.length := by
  exact ⟨List.length_pos_of_ne_nil h.2.1, h.1.length_le⟩

theorem next_fuel : ∀ (n : Nat) {cs : List Char} {f : Nat}, cs.length ≤ n → cs.length ≤ f → next f cs = next cs.length cs := by
  intro n
  induction n with
  | zero =>
    intro cs f h1 _
    cases cs with
    | nil => cases f <;> rfl
    | cons c cs => simp at h1
  | succ n ih =>
    intro cs f h1 h2
    cases cs with
    | nil => cases f <;> rfl
    | cons c cs =>
      obtain ⟨w, a, hm⟩ := munch_total (cs := c :: cs) (by simp)
      have hpos := munch_pos hm
      obtain ⟨f, rfl⟩ : ∃ g, f = g + 1 := ⟨f - 1, by simp at h2; omega⟩
      have hl : (c :: cs).length = cs.length + 1 := rfl
      rw [hl]
      rw [hl] at h1 h2 hpos
      cases a with
      | ret k => rw [next_ret hm, next_ret hm]
      | fail => rw [next_fail hm, next_fail hm]
      | skip =>
        rw [next_skip hm, next_skip hm]
        have : ((c :: cs).drop w.length).length ≤ n := by rw [List.length_drop, hl]; omega
        rw [ih this (f := f) (by rw [List.length_drop, hl]; omega),
          ih this (f := cs.length) (by rw [List.length_drop, hl]; omega)]

theorem nextToken_skip {cs w : List Char} (h : Munch rules cs w .skip) : nextToken cs = nextToken (cs.drop w.length) := by
  have := munch_pos h
  unfold nextToken
  obtain ⟨n, hn⟩ : ∃ n, cs.length = n + 1 := ⟨cs.length - 1, by omega⟩
  rw [hn, next_skip h, next_fuel _ (Nat.le_refl _)]
  rw [List.length_drop]; omega

theorem nextToken_ret {cs w : List Char} {k : Kind} (h : Munch rules cs w (.ret k)) :
    nextToken cs = some ((k, w), cs.drop w.length) := by
  have := munch_pos h
  unfold nextToken
  obtain ⟨n, hn⟩ : ∃ n, cs.length = n + 1 := ⟨cs.length - 1, by omega⟩
  rw [hn, next_ret h]

theorem nextToken_fail {cs w : List Char} (h : Munch rules cs w .fail) : nextToken cs = none := by
  have := munch_pos h
  unfold nextToken
  obtain ⟨n, hn⟩ : ∃ n, cs.length = n + 1 := ⟨cs.length - 1, by omega⟩
  rw [hn, next_fail h]

theorem no_eof : ∀ r ∈ rules, r.2 ≠ .ret .eofTok := by
  have h : ∀ a ∈ rules.map (·.2), a ≠ Act.ret .eofTok := by decide
  intro r hr
  exact h _ (List.mem_map.mpr ⟨r, hr, rfl⟩)

theorem munch_not_eof {cs w : List Char} {k : Kind} (h : Munch rules cs w (.ret k)) : k ≠ .eofTok := by
  obtain ⟨_, _, _, pre, r, post, he, _, _⟩ := h
  intro hk
  exact no_eof (r, .ret k) (by rw [he]; simp) (by rw [hk])

theorem scan_stream {cs : List Char} {ts : List Token} {bad : Bool} (h : Scan cs ts bad) :
    ∀ f, cs.length < f → stream f cs = (ts, bad) := by
  induction h with
  | eof =>
    intro f hf
    obtain ⟨f, rfl⟩ : ∃ g, f = g + 1 := ⟨f - 1, by omega⟩
    rfl
  | skip hm _ ih =>
    intro f hf
    have hpos := munch_pos hm
    have h1 := ih f (by rw [List.length_drop]; omega)
    obtain ⟨f, rfl⟩ : ∃ g, f = g + 1 := ⟨f - 1, by omega⟩
    unfold stream at h1 ⊢
    rw [nextToken_skip hm]
    exact h1
  | ret hm _ ih =>
    intro f hf
    have hpos := munch_pos hm
    obtain ⟨f, rfl⟩ : ∃ g, f = g + 1 := ⟨f - 1, by omega⟩
    have h1 := ih f (by rw [List.length_drop]; omega)
    unfold stream
    rw [nextToken_ret hm]
    simp only [if_neg (munch_not_eof hm), h1]
  | fail hm =>
    intro f hf
    obtain ⟨f, rfl⟩ : ∃ g, f = g + 1 := ⟨f - 1, by omega⟩
    unfold stream
    rw [nextToken_fail hm]

theorem scan_tokens {cs : List Char} {ts : List Token} {bad : Bool} (h : Scan cs ts bad) : tokens cs = (ts, bad) :=
  scan_stream h _ (Nat.lt_succ_self _)

theorem scan_total : ∀ (n : Nat) (cs : List Char), cs.length ≤ n → ∃ ts bad, Scan cs ts bad := by
  intro n
  induction n with
  | zero =>
    intro cs h
    cases cs with
    | nil => exact ⟨[], false, .eof⟩
    | cons c cs => simp at h
  | succ n ih =>
    intro cs h
    by_cases h0 : cs = []
    · exact h0 ▸ ⟨[], false, .eof⟩
    · obtain ⟨w, a, hm⟩ := munch_total h0
      have hpos := munch_pos hm
      obtain ⟨ts, bad, hs⟩ := ih (cs.drop w.length) (by rw [List.length_drop]; omega)
      cases a with
      | skip => exact ⟨ts, bad, .skip hm hs⟩
      | ret k => exact ⟨_, bad, .ret hm hs⟩
      | fail => exact ⟨[], true, .fail hm⟩

theorem tokens_scan (cs : List Char) : Scan cs (tokens cs).1 (tokens cs).2 := by
  obtain ⟨ts, bad, h⟩ := scan_total _ cs (Nat.le_refl _)
  rw [scan_tokens h]
  exact h

/-! ### Gaps -/

theorem takeWhile_stop (p : Char → Bool) (cs : List Char) :
    cs.drop (cs.takeWhile p).length = [] ∨ ∃ c t', cs.drop (cs.takeWhile p).length = c :: t' ∧ p c = false := by
  induction cs with
  | nil => exact Or.inl rfl
  | cons c cs ih =>
    by_cases h : p c = true
    · rw [List.takeWhile_cons_of_pos h]; exact ih
    · rw [List.takeWhile_cons_of_neg h]
      exact Or.inr ⟨c, cs, rfl, by simpa using h⟩

theorem takeWhile_split (p : Char → Bool) (cs : List Char) :
    cs = cs.takeWhile p ++ cs.drop (cs.takeWhile p).length := by
  conv => lhs; rw [← List.take_append_drop (cs.takeWhile p).length cs]
  rw [(prefix_take (List.takeWhile_prefix p)).2]

theorem mem_takeWhile {p : Char → Bool} {cs : List Char} {d : Char} (h : d ∈ cs.takeWhile p) : p d = true := by
  induction cs with
  | nil => cases h
  | cons c cs ih =>
    by_cases hc : p c = true
    · rw [List.takeWhile_cons_of_pos hc] at h
      rcases List.mem_cons.mp h with rfl | h
      · exact hc
      · exact ih h
    · rw [List.takeWhile_cons_of_neg hc] at h; cases h

theorem run_bound (p : Char → Bool) (c : Char) (cs : List Char) :
    Bound (c :: cs) (c :: cs.takeWhile p).length (plus (.cls p)) := by
  intro u hu hl
  have h1 := takeWhile_split p cs
  refine run_le (w := c :: cs.takeWhile p) (t := cs.drop (cs.takeWhile p).length) ((plus_cls _ _).mp hl).2 ?_
    (takeWhile_stop p cs)
  rw [List.cons_append, ← h1]; exact hu

/-- The class of the rule for white space. -/
abbrev wsClass (c : Char) : Bool := c == ' ' || c == '\t' || c == '\r' || c == '\x0c'

theorem ws_mem {c : Char} (h : wsClass c = true) : c ∈ [' ', '\t', '\r', '\x0c'] := by
  simp only [wsClass, Bool.or_eq_true, beq_iff_eq] at h
  simp only [List.mem_cons, List.not_mem_nil, or_false]
  rcases h with ((h | h) | h) | h <;> simp [h]

theorem gap_not {c : Char} (h : c ∈ [' ', '\t', '\r', '\x0c', '\n', ';']) : (c == '"') = false ∧ c.isDigit = false ∧
    (c == '#') = false ∧ (c == ':') = false ∧ (c == '|') = false ∧ startClass c = false ∧ c ∉ '(' :: ')' :: starters :=
  (by decide : ∀ c ∈ [' ', '\t', '\r', '\x0c', '\n', ';'], (c == '"') = false ∧ c.isDigit = false ∧
    (c == '#') = false ∧ (c == ':') = false ∧ (c == '|') = false ∧ startClass c = false ∧
    c ∉ '(' :: ')' :: starters) c h

theorem munch_gap {c : Char} {v cs : List Char} (hc : c ∈ [' ', '\t', '\r', '\x0c', '\n', ';']) (hv : v <+: cs)
    {pre post : List (RE × Act)} {r : RE} (hs : tailRules = pre ++ (r, .skip) :: post) (hl : r.Lang (c :: v))
    (hp : ∀ r' ∈ pre, ¬ r'.1.Lang (c :: v)) (b1 : Bound (c :: cs) (c :: v).length whitespace)
    (b2 : Bound (c :: cs) (c :: v).length newLine)
    (b3 : Bound (c :: cs) (c :: v).length (.seq (.cls (· == ';')) (.star (.cls (· != '\n'))))) :
    Munch rules (c :: cs) (c :: v) .skip := by
  obtain ⟨n1, n2, n3, n4, n5, n6, n7⟩ := gap_not hc
  obtain ⟨x, hx⟩ := hv
  refine munch_tail hs (words_ne n7) ⟨x, by rw [← hx]; rfl⟩ (by simp) hl hp ?_
  exact forall_rules (bound_words n7) b1 b2 b3 ((starts_seq _ _).bound n1) ((starts_seq _ _).bound n2)
    (starts_decimal.bound n2) ((starts_seq _ _).bound n3) ((starts_seq _ _).bound n3) ((starts_seq _ _).bound n4)
    ((starts_seq _ _).bound n5) ((starts_seq _ _).bound n6) (bound_one (by simp))

theorem munch_ws {c : Char} (cs : List Char) (h : wsClass c = true) :
    Munch rules (c :: cs) (c :: cs.takeWhile wsClass) .skip := by
  have hm := ws_mem h
  have hn : (c == '\n') = false ∧ (c == ';') = false :=
    (by decide : ∀ c ∈ [' ', '\t', '\r', '\x0c'], (c == '\n') = false ∧ (c == ';') = false) c hm
  refine munch_gap ((by decide : ∀ c ∈ [' ', '\t', '\r', '\x0c'], c ∈ [' ', '\t', '\r', '\x0c', '\n', ';']) c hm)
    (List.takeWhile_prefix _) (pre := []) (post := tailRules.drop 1) rfl ?_ (by simp) (run_bound wsClass c cs)
    ((starts_seq _ _).bound hn.1) ((starts_seq _ _).bound hn.2)
  refine (plus_cls wsClass _).mpr ⟨by simp, fun d hd => ?_⟩
  rcases List.mem_cons.mp hd with rfl | hd
  · exact h
  · exact mem_takeWhile hd

theorem munch_nl (cs : List Char) : Munch rules ('\n' :: cs) ('\n' :: cs.takeWhile (· == '\n')) .skip := by
  refine munch_gap (by decide) (List.takeWhile_prefix _) (pre := tailRules.take 1) (post := tailRules.drop 2) rfl ?_ ?_
    ((starts_seq _ _).bound (by decide)) (run_bound _ _ _) ((starts_seq _ _).bound (by decide))
  · refine (plus_cls _ _).mpr ⟨by simp, fun d hd => ?_⟩
    rcases List.mem_cons.mp hd with rfl | hd
    · rfl
    · exact mem_takeWhile (p := (· == '\n')) hd
  · intro r hr
    have : r ∈ [(whitespace, Act.skip)] := hr
    rw [List.mem_singleton.mp this]
    exact (starts_seq _ _).not (by decide) (List.prefix_refl _)

theorem munch_comment {body t : List Char} (hb : ∀ c ∈ body, c ≠ '\n') (ht : t = [] ∨ ∃ t', t = '\n' :: t') :
    Munch rules (';' :: (body ++ t)) (';' :: body) .skip := by
  refine munch_gap (by decide) (List.prefix_append _ _) (pre := tailRules.take 2) (post := tailRules.drop 3) rfl ?_ ?_
    ((starts_seq _ _).bound (by decide)) ((starts_seq _ _).bound (by decide)) ?_
  · exact (seq_cls _ _ _).mpr ⟨';', body, rfl, by simp, (star_cls _ _).mpr fun c hc => by simpa using hb c hc⟩
  · intro r hr
    have : r ∈ [(whitespace, Act.skip), (newLine, .skip)] := hr
    simp only [List.mem_cons, List.not_mem_nil, or_false] at this
    rcases this with rfl | rfl
    · exact (starts_seq _ _).not (by decide) (List.prefix_refl _)
    · exact (starts_seq _ _).not (by decide) (List.prefix_refl _)
  · intro u hu hl
    obtain ⟨c, v, rfl, _, hv⟩ := (seq_cls _ _ _).mp hl
    obtain ⟨x, hx⟩ := hu
    have := run_le (w := body) (t := t) ((star_cls _ _).mp hv) ⟨x, (List.cons.inj hx).2⟩ (by
      rcases ht with h | ⟨t', h⟩
      · exact Or.inl h
      · exact Or.inr ⟨'\n', t', h, by simp⟩)
    simpa using this

theorem scan_skip_inv {cs w : List Char} {ts : List Token} {bad : Bool} (hm : Munch rules cs w .skip)
    (h : Scan cs ts bad) : Scan (cs.drop w.length) ts bad := by
  cases h with
  | eof => exact absurd (List.prefix_nil.mp hm.1) hm.2.1
  | skip hm' hs => obtain ⟨rfl, _⟩ := munch_fun hm hm'; exact hs
  | ret hm' _ => cases (munch_fun hm hm').2
  | fail hm' => cases (munch_fun hm hm').2

theorem scan_run {p : Char → Bool} (hp : ∀ c cs, p c = true → Munch rules (c :: cs) (c :: cs.takeWhile p) .skip) {c : Char}
    {cs : List Char} {ts : List Token} {bad : Bool} (hc : p c = true) (h : Scan cs ts bad) : Scan (c :: cs) ts bad := by
  refine .skip (hp c cs hc) ?_
  rw [List.length_cons, List.drop_succ_cons]
  cases cs with
  | nil => exact h
  | cons d cs =>
    by_cases hd : p d = true
    · have := scan_skip_inv (hp d cs hd) h
      rw [List.takeWhile_cons_of_pos hd]
      exact this
    · rw [List.takeWhile_cons_of_neg hd]
      exact h

theorem scan_blank {c : Char} {cs : List Char} {ts : List Token} {bad : Bool} (hc : isBlank c = true)
    (h : Scan cs ts bad) : Scan (c :: cs) ts bad := by
  by_cases hn : c = '\n'
  · exact scan_run (p := (· == '\n')) (fun c cs hc => by rw [beq_iff_eq.mp hc]; exact munch_nl cs) (by simp [hn]) h
  · refine scan_run (p := wsClass) (fun c cs hc => munch_ws cs hc) ?_ h
    simp only [isBlank, Bool.or_eq_true, beq_iff_eq] at hc
    rcases hc with (((hc | hc) | hc) | hc) | hc
    · simp [hc]
    · simp [hc]
    · simp [hc]
    · exact (hn hc).elim
    · simp [hc]

theorem scan_gap {g t : List Char} {ts : List Token} {bad : Bool} (hg : Gap g) (h : Scan t ts bad) :
    Scan (g ++ t) ts bad := by
  induction hg with
  | nil => exact h
  | blank hc _ ih => exact scan_blank hc ih
  | comment hb _ ih =>
    rename_i body g _
    have he : (';' :: body ++ '\n' :: g) ++ t = ';' :: (body ++ ('\n' :: (g ++ t))) := by simp
    rw [he]
    refine .skip (munch_comment hb (Or.inr ⟨_, rfl⟩)) ?_
    rw [List.length_cons, List.drop_succ_cons, List.drop_append_of_le_length (Nat.le_refl _), List.drop_length,
      List.nil_append]
    exact scan_blank (by decide) ih

/-! ### Lexemes -/

theorem reserved_words : ∀ s ∈ reservedWords,
    (s, (reservedKind.lookup s).getD .eofTok) ∈ words ∧ s ≠ "(" ∧ s ≠ ")" := by decide +kernel

theorem words_known : ∀ p ∈ words, p.1 ∈ reservedWords ∨ p.1 = "(" ∨ p.1 = ")" ∨ p.1 = "define-const" := by
  decide +kernel

theorem munch_lexeme {x : Lexeme} {t : List Char} (hv : x.Valid) (hd : x ≠ .symbol "define-const".toList)
    (ht : x.isParen = true ∨ After t) : Munch rules (x.text ++ t) x.text (.ret x.kind) := by
  have ha : x.isParen = false → After t := fun h => ht.resolve_left (by rw [h]; simp)
  cases x with
  | lparen => exact munch_paren t (Or.inl ⟨rfl, rfl⟩)
  | rparen => exact munch_paren t (Or.inr ⟨rfl, rfl⟩)
  | reserved s => exact munch_reserved (reserved_words s hv).1 (reserved_words s hv).2 (ha rfl)
  | symbol s =>
    refine munch_symbol hv.1 (ha rfl) ?_
    intro p hp he
    have he : p.1.toList = s := he
    have hs : p.1 = String.ofList s := by rw [← he, String.ofList_toList]
    have h1 := hv.1
    rcases words_known p hp with h | h | h | h
    · exact hv.2.1 (hs ▸ h)
    · rw [h] at he
      obtain ⟨_, c, v, rfl, hc⟩ := h1
      rw [← (List.cons.inj (show '(' :: [] = c :: v from he)).1] at hc
      exact absurd hc (by decide)
    · rw [h] at he
      obtain ⟨_, c, v, rfl, hc⟩ := h1
      rw [← (List.cons.inj (show ')' :: [] = c :: v from he)).1] at hc
      exact absurd hc (by decide)
    · exact hd (by rw [← he, h])
  | quoted s => exact munch_quoted hv
  | keyword s => exact munch_keyword hv (ha rfl)
  | numeral ds => exact munch_numeral hv.1 hv.2 (ha rfl)
  | decimal is fs => exact munch_decimal hv.1 hv.2.1 hv.2.2 (ha rfl)
  | hex ds => exact munch_hex hv.1 hv.2 (ha rfl)
  | binary ds => exact munch_binary hv.1 hv.2 (ha rfl)
  | string s => exact munch_string (ha rfl)

theorem layout_scan {xs : List Lexeme} {text : List Char} (h : Layout xs text)
    (hd : .symbol "define-const".toList ∉ xs) : Scan text (xs.map Lexeme.token) false := by
  induction h with
  | nil hg => 
    have := scan_gap hg (t := []) .eof
    rw [List.append_nil] at this
    exact this
  | last hg hb =>
    refine scan_gap hg ?_
    have := munch_comment (t := []) hb (Or.inl rfl)
    rw [List.append_nil] at this
    refine .skip this ?_
    rw [List.drop_length]
    exact .eof
  | cons hg hv ht _ ih =>
    rename_i g x xs t _
    rw [List.append_assoc]
    refine scan_gap hg ?_
    have hm := munch_lexeme hv (fun h => hd (h ▸ List.mem_cons_self)) ht
    have := ih (fun h => hd (List.mem_cons_of_mem _ h))
    refine .ret hm ?_
    rw [List.drop_append_of_le_length (Nat.le_refl _), List.drop_length, List.nil_append]
    exact this

end Lexer
end Yaga
