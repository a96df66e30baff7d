/-
The rules of the lexer and the tokens of SMT-LIB (C70).
-/
import Verif.Proofs.Regex
import Verif.Spec.LexToken
import Mathlib.Tactic.IntervalCases

namespace Yaga

open Spec Regex

namespace Lexer

/-! ### Patterns -/

theorem word_lang (s w : List Char) : (word s).Lang w ↔ w = s := by
  induction s generalizing w with
  | nil => rfl
  | cons c s ih =>
    simp only [word, RE.Lang]
    constructor
    · rintro ⟨u, v, rfl, ⟨d, rfl, hd⟩, hv⟩
      rw [(ih v).mp hv, beq_iff_eq.mp hd]; rfl
    · rintro rfl
      exact ⟨[c], s, rfl, ⟨c, rfl, by simp⟩, (ih s).mpr rfl⟩

theorem cls_lang (p : Char → Bool) (w : List Char) : (RE.cls p).Lang w ↔ ∃ c, w = [c] ∧ p c = true := Iff.rfl

theorem star_cls (p : Char → Bool) (w : List Char) : (RE.star (.cls p)).Lang w ↔ ∀ c ∈ w, p c = true := by
  simp only [RE.Lang]
  constructor
  · rintro ⟨us, rfl, h⟩ c hc
    obtain ⟨u, hu, hcu⟩ := List.mem_flatten.mp hc
    obtain ⟨d, rfl, hd⟩ := h u hu
    rw [List.mem_singleton.mp hcu]; exact hd
  · intro h
    refine ⟨w.map fun c => [c], ?_, ?_⟩
    · induction w with
      | nil => rfl
      | cons c w ih => rw [List.map_cons, List.flatten_cons, ← ih fun c hc => h c (by simp [hc])]; rfl
    · intro u hu
      obtain ⟨c, hc, rfl⟩ := List.mem_map.mp hu
      exact ⟨c, rfl, h c hc⟩

theorem seq_cls (p : Char → Bool) (r : RE) (w : List Char) :
    (RE.seq (.cls p) r).Lang w ↔ ∃ c v, w = c :: v ∧ p c = true ∧ r.Lang v := by
  simp only [RE.Lang]
  constructor
  · rintro ⟨u, v, rfl, ⟨c, rfl, hc⟩, hv⟩; exact ⟨c, v, rfl, hc, hv⟩
  · rintro ⟨c, v, rfl, hc, hv⟩; exact ⟨[c], v, rfl, ⟨c, rfl, hc⟩, hv⟩

theorem plus_cls (p : Char → Bool) (w : List Char) : (plus (.cls p)).Lang w ↔ w ≠ [] ∧ ∀ c ∈ w, p c = true := by
  unfold plus
  rw [seq_cls]
  constructor
  · rintro ⟨c, v, rfl, hc, hv⟩
    refine ⟨by simp, fun d hd => ?_⟩
    rcases List.mem_cons.mp hd with rfl | hd
    · exact hc
    · exact (star_cls p v).mp hv d hd
  · rintro ⟨h1, h2⟩
    cases w with
    | nil => exact (h1 rfl).elim
    | cons c v => exact ⟨c, v, rfl, h2 c (by simp), (star_cls p v).mpr fun d hd => h2 d (by simp [hd])⟩

/-- Every word of the pattern begins with a character of the class. -/
def Starts (r : RE) (p : Char → Bool) : Prop := ∀ u, r.Lang u → ∃ c v, u = c :: v ∧ p c = true

theorem starts_seq (p : Char → Bool) (r : RE) : Starts (.seq (.cls p) r) p := by
  intro u hu
  obtain ⟨c, v, h1, h2, _⟩ := (seq_cls p r u).mp hu
  exact ⟨c, v, h1, h2⟩

theorem starts_cls (p : Char → Bool) : Starts (.cls p) p := by
  rintro u ⟨c, rfl, hc⟩; exact ⟨c, [], rfl, hc⟩

theorem starts_decimal : Starts decimal Char.isDigit := by
  rintro u ⟨u1, v1, rfl, h1, _⟩
  obtain ⟨c, v, rfl, hc⟩ := starts_seq Char.isDigit _ u1 h1
  exact ⟨c, v ++ v1, rfl, hc⟩

theorem Starts.not {r : RE} {p : Char → Bool} (h : Starts r p) {c : Char} {cs u : List Char} (hc : p c = false)
    (hu : u <+: c :: cs) : ¬ r.Lang u := by
  intro hl
  obtain ⟨d, v, rfl, hd⟩ := h u hl
  obtain ⟨x, hx⟩ := hu
  rw [List.cons_append] at hx
  rw [(List.cons.inj hx).1] at hd
  rw [hc] at hd; cases hd

/-- A prefix made of characters of a class does not go beyond the place where they end. -/
theorem run_le {q : Char → Bool} {u w t : List Char} (hu : ∀ c ∈ u, q c = true) (hp : u <+: w ++ t)
    (ht : t = [] ∨ ∃ c t', t = c :: t' ∧ q c = false) : u.length ≤ w.length := by
  by_contra hlt
  rw [not_le] at hlt
  rcases ht with rfl | ⟨c, t', rfl, hc⟩
  · have := hp.length_le; simp at this; omega
  · obtain ⟨x, hx⟩ := hp
    have : u[w.length]? = some c := by
      have h1 : (u ++ x)[w.length]? = some c := by rw [hx]; simp
      rwa [List.getElem?_append_left hlt] at h1
    have := hu c (List.mem_of_getElem? this)
    rw [hc] at this; cases this

/-! ### Characters -/

/-- The digits. -/
def digits : List Char := "0123456789".toList

/-- The characters a symbol can begin with. -/
def starters : List Char :=
  "abcdefghijklmnopqrstuvwxyzABCDEFGHIJKLMNOPQRSTUVWXYZ~!@$%^&*+=<>.?/_-".toList

theorem char_eq {c : Char} {n : Nat} (h : c.toNat = n) : c = Char.ofNat n := by
  rw [← h, Char.ofNat_toNat]

theorem isDigit_mem {c : Char} (h : c.isDigit = true) : c ∈ digits := by
  have h1 : 48 ≤ c.toNat ∧ c.toNat ≤ 57 := by
    simp only [Char.isDigit, Bool.and_eq_true, decide_eq_true_eq, ge_iff_le, UInt32.le_iff_toNat_le] at h
    exact h
  obtain ⟨h1, h2⟩ := h1
  generalize hn : c.toNat = n at h1 h2
  rw [char_eq hn]
  interval_cases n <;> decide

theorem isAlpha_mem {c : Char} (h : c.isAlpha = true) : c ∈ starters := by
  have h1 : (65 ≤ c.toNat ∧ c.toNat ≤ 90) ∨ (97 ≤ c.toNat ∧ c.toNat ≤ 122) := by
    simp only [Char.isAlpha, Char.isUpper, Char.isLower, Bool.or_eq_true, Bool.and_eq_true, decide_eq_true_eq, ge_iff_le,
      UInt32.le_iff_toNat_le] at h
    exact h
  generalize hn : c.toNat = n at h1
  rw [char_eq hn]
  rcases h1 with ⟨h1, h2⟩ | ⟨h1, h2⟩ <;> interval_cases n <;> decide

theorem startClass_mem {c : Char} (h : startClass c = true) : c ∈ starters := by
  unfold startClass at h
  rw [Bool.or_eq_true] at h
  rcases h with h | h
  · exact isAlpha_mem h
  · rw [List.contains_iff_mem] at h
    exact (by decide : ∀ c ∈ symbolMarks, c ∈ starters) c h

theorem symbolStart_iff (c : Char) : isSymbolStart c = startClass c := by
  have h : specialChars.contains c = symbolMarks.contains c := by
    rw [Bool.eq_iff_iff, List.contains_iff_mem, List.contains_iff_mem]
    exact ⟨fun h => (by decide : ∀ c ∈ specialChars, c ∈ symbolMarks) c h,
      fun h => (by decide : ∀ c ∈ symbolMarks, c ∈ specialChars) c h⟩
  unfold isSymbolStart startClass
  rw [h]

theorem symbolChar_iff (c : Char) : isSymbolChar c = charClass c := by
  unfold isSymbolChar charClass
  rw [symbolStart_iff, startClass]
  cases c.isAlpha <;> cases c.isDigit <;> cases symbolMarks.contains c <;> rfl

theorem charClass_of_start {c : Char} (h : startClass c = true) : charClass c = true := by
  unfold startClass at h; unfold charClass
  rw [Bool.or_eq_true] at h
  rcases h with h | h <;> simp only [h, Bool.true_or, Bool.or_true]

/-- The characters after tokens are not part of symbols, numbers, ... -/
theorem endsToken_mem {c : Char} (h : endsToken c = true) : c ∈ [' ', '\t', '\r', '\n', '\x0c', ';', '(', ')'] := by
  simp only [endsToken, isBlank, Bool.or_eq_true, beq_iff_eq] at h
  simp only [List.mem_cons, List.not_mem_nil, or_false]
  rcases h with ((((((h | h) | h) | h) | h) | h) | h) | h <;> simp [h]

theorem endsToken_not {c : Char} (h : endsToken c = true) : charClass c = false ∧ c.isDigit = false ∧ isHex c = false ∧
    c ≠ '0' ∧ c ≠ '1' ∧ c ≠ '.' ∧ c ≠ '"' :=
  (by decide : ∀ c ∈ [' ', '\t', '\r', '\n', '\x0c', ';', '(', ')'], charClass c = false ∧ c.isDigit = false ∧
    isHex c = false ∧ c ≠ '0' ∧ c ≠ '1' ∧ c ≠ '.' ∧ c ≠ '"') c (endsToken_mem h)

/-- What comes after a token. -/
def After (t : List Char) : Prop := t = [] ∨ ∃ c t', t = c :: t' ∧ endsToken c = true

theorem After.stop {t : List Char} (h : After t) {q : Char → Bool} (hq : ∀ c, endsToken c = true → q c = false) :
    t = [] ∨ ∃ c t', t = c :: t' ∧ q c = false := by
  rcases h with h | ⟨c, t', h, hc⟩
  · exact Or.inl h
  · exact Or.inr ⟨c, t', h, hq c hc⟩

/-! ### Rules -/

/-- The rules after those for words. -/
def tailRules : List (RE × Act) := rules.drop 31

theorem rules_eq : rules = words.map (fun p => (word p.1.toList, Act.ret p.2)) ++ tailRules := rfl

theorem forall_rules {P : RE → Prop} (hw : ∀ p ∈ words, P (word p.1.toList)) (h1 : P whitespace) (h2 : P newLine)
    (h3 : P (.seq (.cls (· == ';')) (.star (.cls (· != '\n'))))) (h4 : P stringLiteral) (h5 : P natNum) (h6 : P decimal)
    (h7 : P hexNum) (h8 : P binaryNum) (h9 : P (.seq (.cls (· == ':')) simpleSymbol)) (h10 : P quotedSymbol)
    (h11 : P simpleSymbol) (h12 : P (.cls (· != '\n'))) : ∀ r ∈ rules, P r.1 := by
  intro r hr
  unfold rules at hr
  rcases List.mem_append.mp hr with hr | hr
  · obtain ⟨p, hp, rfl⟩ := List.mem_map.mp hr
    exact hw p hp
  · simp only [List.mem_cons, List.not_mem_nil, or_false] at hr
    rcases hr with rfl | rfl | rfl | rfl | rfl | rfl | rfl | rfl | rfl | rfl | rfl | rfl <;> assumption

theorem words_shape : ∀ p ∈ words, p.1 = "(" ∨ p.1 = ")" ∨
    ((∀ c ∈ p.1.toList, charClass c = true) ∧ ∃ c ∈ p.1.toList.head?, startClass c = true) := by decide

theorem words_nodup : (words.map (·.1.toList)).Nodup := by decide

/-- No match of the pattern is longer than `n`. -/
def Bound (cs : List Char) (n : Nat) (r : RE) : Prop := ∀ u, u <+: cs → r.Lang u → u.length ≤ n

theorem Starts.bound {r : RE} {p : Char → Bool} (h : Starts r p) {c : Char} {cs : List Char} {n : Nat}
    (hc : p c = false) : Bound (c :: cs) n r := fun _ hu hl => (h.not hc hu hl).elim

theorem bound_one {p : Char → Bool} {cs : List Char} {n : Nat} (hn : 1 ≤ n) : Bound cs n (.cls p) := by
  rintro u _ ⟨c, rfl, _⟩; exact hn

theorem munch_words {cs w : List Char} {s : String} {k : Kind} (hs : (s, k) ∈ words) (hw : s.toList = w) (hp : w <+: cs)
    (hne : w ≠ []) (hb : ∀ r ∈ rules, Bound cs w.length r.1) : Munch rules cs w (.ret k) := by
  obtain ⟨pre, post, h⟩ := List.append_of_mem hs
  refine ⟨hp, hne, hb, pre.map (fun p => (word p.1.toList, Act.ret p.2)), word s.toList,
    post.map (fun p => (word p.1.toList, Act.ret p.2)) ++ tailRules, ?_, (word_lang _ _).mpr hw.symm, ?_⟩
  · rw [rules_eq, h]; simp
  · intro r hr hl
    obtain ⟨p, hp', rfl⟩ := List.mem_map.mp hr
    have h1 : w = p.1.toList := (word_lang _ _).mp hl
    have h2 := words_nodup
    rw [h, List.map_append, List.map_cons, List.nodup_append] at h2
    exact h2.2.2 p.1.toList (List.mem_map.mpr ⟨p, hp', rfl⟩) s.toList (by simp) (by rw [← h1, hw])

theorem munch_tail {cs w : List Char} {pre post : List (RE × Act)} {r : RE} {a : Act}
    (hs : tailRules = pre ++ (r, a) :: post) (hw : ∀ p ∈ words, p.1.toList ≠ w) (hp : w <+: cs)
    (hne : w ≠ []) (hl : r.Lang w) (hpre : ∀ r' ∈ pre, ¬ r'.1.Lang w) (hb : ∀ r ∈ rules, Bound cs w.length r.1) :
    Munch rules cs w a := by
  refine ⟨hp, hne, hb, words.map (fun p => (word p.1.toList, Act.ret p.2)) ++ pre, r, post, ?_, hl, ?_⟩
  · rw [rules_eq, hs]; simp
  · intro r' hr'
    rcases List.mem_append.mp hr' with hr' | hr'
    · obtain ⟨p, hp', rfl⟩ := List.mem_map.mp hr'
      exact fun h => hw p hp' ((word_lang _ _).mp h).symm
    · exact hpre r' hr'

theorem words_first : ∀ p ∈ words, ∃ d ∈ p.1.toList.head?, d ∈ '(' :: ')' :: starters := by decide

theorem bound_words {c : Char} {cs : List Char} {n : Nat} (hc : c ∉ '(' :: ')' :: starters) :
    ∀ p ∈ words, Bound (c :: cs) n (word p.1.toList) := by
  intro p hp u hu hl
  obtain ⟨d, hd, hm⟩ := words_first p hp
  rw [(word_lang _ _).mp hl] at hu
  obtain ⟨v, hv⟩ : ∃ v, p.1.toList = d :: v := by
    cases h : p.1.toList with
    | nil => rw [h] at hd; cases hd
    | cons x v => rw [h] at hd; simp at hd; exact ⟨v, by rw [hd]⟩
  rw [hv] at hu
  obtain ⟨x, hx⟩ := hu
  rw [List.cons_append] at hx
  exact (hc ((List.cons.inj hx).1 ▸ hm)).elim

theorem words_ne {c : Char} {cs : List Char} (hc : c ∉ '(' :: ')' :: starters) : ∀ p ∈ words, p.1.toList ≠ c :: cs := by
  intro p hp he
  obtain ⟨d, hd, hm⟩ := words_first p hp
  rw [he] at hd
  simp at hd
  exact hc (hd ▸ hm)

theorem starter_not {c : Char} (h : c ∈ starters) : (c == ' ' || c == '\t' || c == '\r' || c == '\x0c') = false ∧
    (c == '\n') = false ∧ (c == ';') = false ∧ (c == '"') = false ∧ c.isDigit = false ∧ (c == '#') = false ∧
    (c == ':') = false ∧ (c == '|') = false ∧ c ≠ '(' ∧ c ≠ ')' :=
  (by decide : ∀ c ∈ starters, (c == ' ' || c == '\t' || c == '\r' || c == '\x0c') = false ∧
    (c == '\n') = false ∧ (c == ';') = false ∧ (c == '"') = false ∧ c.isDigit = false ∧ (c == '#') = false ∧
    (c == ':') = false ∧ (c == '|') = false ∧ c ≠ '(' ∧ c ≠ ')') c h

theorem digit_not {c : Char} (h : c ∈ digits) : (c == ' ' || c == '\t' || c == '\r' || c == '\x0c') = false ∧
    (c == '\n') = false ∧ (c == ';') = false ∧ (c == '"') = false ∧ startClass c = false ∧ (c == '#') = false ∧
    (c == ':') = false ∧ (c == '|') = false ∧ c ∉ '(' :: ')' :: starters :=
  (by decide : ∀ c ∈ digits, (c == ' ' || c == '\t' || c == '\r' || c == '\x0c') = false ∧
    (c == '\n') = false ∧ (c == ';') = false ∧ (c == '"') = false ∧ startClass c = false ∧ (c == '#') = false ∧
    (c == ':') = false ∧ (c == '|') = false ∧ c ∉ '(' :: ')' :: starters) c h

theorem simple_lang (w : List Char) : simpleSymbol.Lang w ↔ IsSimple w := by
  unfold simpleSymbol
  rw [seq_cls]
  constructor
  · rintro ⟨c, v, rfl, hc, hv⟩
    refine ⟨fun d hd => ?_, c, v, rfl, by rw [symbolStart_iff]; exact hc⟩
    rw [symbolChar_iff]
    rcases List.mem_cons.mp hd with rfl | hd
    · exact charClass_of_start hc
    · exact (star_cls _ _).mp hv d hd
  · rintro ⟨h1, c, v, rfl, hc⟩
    exact ⟨c, v, rfl, by rw [← symbolStart_iff]; exact hc, (star_cls _ _).mpr fun d hd => by
      rw [← symbolChar_iff]; exact h1 d (by simp [hd])⟩

theorem IsSimple.chars {w : List Char} (h : IsSimple w) : ∀ c ∈ w, charClass c = true := fun c hc => by
  rw [← symbolChar_iff]; exact h.1 c hc

theorem bound_simple {w t : List Char} (ht : After t) : Bound (w ++ t) w.length simpleSymbol :=
  fun _ hu hl => run_le (IsSimple.chars ((simple_lang _).mp hl)) hu (ht.stop fun _ hc => (endsToken_not hc).1)

theorem symbol_bounds {w t : List Char} (hw : IsSimple w) (ht : After t) :
    ∀ r ∈ rules, Bound (w ++ t) w.length r.1 := by
  have hlen : 1 ≤ w.length := by obtain ⟨_, c, v, rfl, _⟩ := hw; simp
  have hs := bound_simple (w := w) ht
  obtain ⟨_, c, v, rfl, hc⟩ := hw
  rw [symbolStart_iff] at hc
  obtain ⟨n1, n2, n3, n4, n5, n6, n7, n8, n9, n10⟩ := starter_not (startClass_mem hc)
  rw [List.cons_append] at hs ⊢
  refine forall_rules ?_ ((starts_seq _ _).bound n1) ((starts_seq _ _).bound n2) ((starts_seq _ _).bound n3)
    ((starts_seq _ _).bound n4) ((starts_seq _ _).bound n5) (starts_decimal.bound n5) ((starts_seq _ _).bound n6)
    ((starts_seq _ _).bound n6) ((starts_seq _ _).bound n7) ((starts_seq _ _).bound n8) hs (bound_one hlen)
  intro p hp u hu hl
  have hl := (word_lang _ _).mp hl
  rcases words_shape p hp with h | h | h
  · rw [h] at hl; subst hl
    obtain ⟨x, hx⟩ := hu
    exact (n9 (List.cons.inj hx).1.symm).elim
  · rw [h] at hl; subst hl
    obtain ⟨x, hx⟩ := hu
    exact (n10 (List.cons.inj hx).1.symm).elim
  · rw [hl] at hu ⊢
    exact run_le (w := c :: v) h.1 (by rw [List.cons_append]; exact hu) (ht.stop fun _ hc => (endsToken_not hc).1)

/-! ### Tokens -/

theorem munch_symbol {w t : List Char} (hw : IsSimple w) (ht : After t) (hn : ∀ p ∈ words, p.1.toList ≠ w) :
    Munch rules (w ++ t) w (.ret .symbol) := by
  have hl := (simple_lang w).mpr hw
  have hb := symbol_bounds hw ht
  have hw' := hw
  obtain ⟨_, c, v, rfl, hc⟩ := hw
  rw [symbolStart_iff] at hc
  obtain ⟨n1, n2, n3, n4, n5, n6, n7, n8, n9, n10⟩ := starter_not (startClass_mem hc)
  have pf : (c :: v) <+: c :: v := List.prefix_refl _
  refine munch_tail (pre := tailRules.take 10) (post := tailRules.drop 11) rfl hn (List.prefix_append _ _) (by simp) hl ?_ hb
  intro r hr
  have : r ∈ [(whitespace, Act.skip), (newLine, .skip), (.seq (.cls (· == ';')) (.star (.cls (· != '\n'))), .skip),
    (stringLiteral, .ret .stringLiteral), (natNum, .ret .integerLiteral), (decimal, .ret .decimalLiteral),
    (hexNum, .ret .hexLiteral), (binaryNum, .ret .binaryLiteral), (.seq (.cls (· == ':')) simpleSymbol, .ret .keyword),
    (quotedSymbol, .ret .quotedSymbol)] := hr
  simp only [List.mem_cons, List.not_mem_nil, or_false] at this
  rcases this with rfl | rfl | rfl | rfl | rfl | rfl | rfl | rfl | rfl | rfl
  · exact (starts_seq _ _).not n1 pf
  · exact (starts_seq _ _).not n2 pf
  · exact (starts_seq _ _).not n3 pf
  · exact (starts_seq _ _).not n4 pf
  · exact (starts_seq _ _).not n5 pf
  · exact starts_decimal.not n5 pf
  · exact (starts_seq _ _).not n6 pf
  · exact (starts_seq _ _).not n6 pf
  · exact (starts_seq _ _).not n7 pf
  · exact (starts_seq _ _).not n8 pf

theorem munch_reserved {s : String} {k : Kind} {t : List Char} (hs : (s, k) ∈ words) (hne : s ≠ "(" ∧ s ≠ ")")
    (ht : After t) : Munch rules (s.toList ++ t) s.toList (.ret k) := by
  have hw : IsSimple s.toList := by
    rcases words_shape (s, k) hs with h | h | ⟨h1, c, h2, h3⟩
    · exact (hne.1 h).elim
    · exact (hne.2 h).elim
    · refine ⟨fun d hd => by rw [symbolChar_iff]; exact h1 d hd, ?_⟩
      have h2 : c ∈ s.toList.head? := h2
      cases hl : s.toList with
      | nil => rw [hl] at h2; cases h2
      | cons x v =>
        rw [hl] at h2; simp at h2
        exact ⟨x, v, rfl, by rw [symbolStart_iff, h2]; exact h3⟩
  refine munch_words hs rfl (List.prefix_append _ _) ?_ (symbol_bounds hw ht)
  obtain ⟨_, c, v, h, _⟩ := hw
  rw [h]; simp

theorem munch_paren {c : Char} {k : Kind} (t : List Char) (h : (c = '(' ∧ k = .lparenTok) ∨ (c = ')' ∧ k = .rparenTok)) :
    Munch rules (c :: t) [c] (.ret k) := by
  have hs : (String.ofList [c], k) ∈ words := by rcases h with ⟨rfl, rfl⟩ | ⟨rfl, rfl⟩ <;> decide
  have hc : (c == ' ' || c == '\t' || c == '\r' || c == '\x0c') = false ∧
    (c == '\n') = false ∧ (c == ';') = false ∧ (c == '"') = false ∧ c.isDigit = false ∧ (c == '#') = false ∧
    (c == ':') = false ∧ (c == '|') = false ∧ startClass c = false := by
    rcases h with ⟨rfl, rfl⟩ | ⟨rfl, rfl⟩ <;> decide
  obtain ⟨n1, n2, n3, n4, n5, n6, n7, n8, n9⟩ := hc
  refine munch_words hs (by simp) ⟨t, rfl⟩ (by simp) (forall_rules ?_ ((starts_seq _ _).bound n1)
    ((starts_seq _ _).bound n2) ((starts_seq _ _).bound n3)
    ((starts_seq _ _).bound n4) ((starts_seq _ _).bound n5) (starts_decimal.bound n5) ((starts_seq _ _).bound n6)
    ((starts_seq _ _).bound n6) ((starts_seq _ _).bound n7) ((starts_seq _ _).bound n8) ((starts_seq _ _).bound n9)
    (bound_one (by simp)))
  intro p hp u hu hl
  have hl := (word_lang _ _).mp hl
  rcases words_shape p hp with h' | h' | ⟨_, d, h1, h2⟩
  · rw [hl, h']; simp
  · rw [hl, h']; simp
  · exfalso
    subst hl
    cases hx : p.1.toList with
    | nil => rw [hx] at h1; cases h1
    | cons x v =>
      rw [hx] at h1 hu
      simp at h1
      obtain ⟨y, hy⟩ := hu
      rw [List.cons_append] at hy
      rw [← h1, (List.cons.inj hy).1, n9] at h2
      cases h2

theorem plus_start {p : Char → Bool} {w : List Char} (h : w ≠ []) (hp : ∀ c ∈ w, p c = true) :
    ∃ c v, w = c :: v ∧ p c = true := by
  cases w with
  | nil => exact (h rfl).elim
  | cons c v => exact ⟨c, v, rfl, hp c (by simp)⟩

theorem bound_nat {w t : List Char} (ht : t = [] ∨ ∃ c t', t = c :: t' ∧ c.isDigit = false) :
    Bound (w ++ t) w.length natNum := fun _ hu hl => run_le ((plus_cls _ _).mp hl).2 hu ht

theorem decimal_lang (w : List Char) : decimal.Lang w ↔
    ∃ is fs, w = is ++ '.' :: fs ∧ is ≠ [] ∧ fs ≠ [] ∧ (∀ c ∈ is, c.isDigit = true) ∧ ∀ c ∈ fs, c.isDigit = true := by
  constructor
  · rintro ⟨u, v, rfl, hu, hv⟩
    obtain ⟨c, v, rfl, hc, hv⟩ := (seq_cls _ _ _).mp hv
    have h1 := (plus_cls _ _).mp hu
    have h2 := (plus_cls _ _).mp hv
    exact ⟨u, v, by rw [beq_iff_eq.mp hc], h1.1, h2.1, h1.2, h2.2⟩
  · rintro ⟨is, fs, rfl, h1, h2, h3, h4⟩
    exact ⟨is, '.' :: fs, rfl, (plus_cls _ _).mpr ⟨h1, h3⟩,
      (seq_cls _ _ _).mpr ⟨'.', fs, rfl, by simp, (plus_cls _ _).mpr ⟨h2, h4⟩⟩⟩

/-- A run of characters of a class in front of a character outside is determined. -/
theorem run_eq {q : Char → Bool} {a b x y : List Char} {c d : Char} (ha : ∀ z ∈ a, q z = true) (hb : ∀ z ∈ b, q z = true)
    (hc : q c = false) (hd : q d = false) (h : a ++ c :: x = b ++ d :: y) : a = b ∧ c = d ∧ x = y := by
  induction a generalizing b with
  | nil =>
    cases b with
    | nil => simp at h; exact ⟨rfl, h.1, h.2⟩
    | cons z b =>
      simp at h
      have := hb z (by simp)
      rw [← h.1, hc] at this; cases this
  | cons z a ih =>
    cases b with
    | nil =>
      simp at h
      have := ha z (by simp)
      rw [h.1, hd] at this; cases this
    | cons z' b =>
      simp only [List.cons_append, List.cons.injEq] at h
      obtain ⟨rfl, h⟩ := h
      obtain ⟨rfl, h2⟩ := ih (fun z hz => ha z (by simp [hz])) (fun z hz => hb z (by simp [hz])) h
      exact ⟨rfl, h2⟩

theorem digits_not_decimal {ds t u : List Char} (hd : ∀ c ∈ ds, c.isDigit = true)
    (ht : t = [] ∨ ∃ c t', t = c :: t' ∧ c.isDigit = false ∧ c ≠ '.') (hu : u <+: ds ++ t) : ¬ decimal.Lang u := by
  intro hl
  obtain ⟨is, fs, rfl, h1, h2, h3, h4⟩ := (decimal_lang u).mp hl
  obtain ⟨x, hx⟩ := hu
  have hx : is ++ '.' :: (fs ++ x) = ds ++ t := by rw [← hx]; simp
  rcases ht with rfl | ⟨c, t', rfl, hc, hc'⟩
  · have : '.' ∈ ds := by
      have h : '.' ∈ ds ++ [] := by rw [← hx]; simp
      simpa using h
    have := hd _ this
    exact absurd this (by decide)
  · exact hc' (run_eq h3 hd (by decide) hc hx).2.1.symm

theorem digit_bounds {w t : List Char} {c : Char} {v : List Char} (hw : w = c :: v) (hc : c.isDigit = true)
    (hn : Bound (w ++ t) w.length natNum) (hd : Bound (w ++ t) w.length decimal) :
    ∀ r ∈ rules, Bound (w ++ t) w.length r.1 := by
  have hlen : 1 ≤ w.length := by rw [hw]; simp
  rw [hw, List.cons_append] at hn hd ⊢
  obtain ⟨n1, n2, n3, n4, n5, n6, n7, n8, n9⟩ := digit_not (isDigit_mem hc)
  exact forall_rules (bound_words n9) ((starts_seq _ _).bound n1) ((starts_seq _ _).bound n2) ((starts_seq _ _).bound n3)
    ((starts_seq _ _).bound n4) hn hd ((starts_seq _ _).bound n6)
    ((starts_seq _ _).bound n6) ((starts_seq _ _).bound n7) ((starts_seq _ _).bound n8) ((starts_seq _ _).bound n5)
    (bound_one (by simp))

theorem after_digits {t : List Char} (ht : After t) : t = [] ∨ ∃ c t', t = c :: t' ∧ c.isDigit = false ∧ c ≠ '.' := by
  rcases ht with h | ⟨c, t', h, hc⟩
  · exact Or.inl h
  · exact Or.inr ⟨c, t', h, (endsToken_not hc).2.1, (endsToken_not hc).2.2.2.2.2.1⟩

theorem munch_numeral {ds t : List Char} (h0 : ds ≠ []) (hd : ∀ c ∈ ds, c.isDigit = true) (ht : After t) :
    Munch rules (ds ++ t) ds (.ret .integerLiteral) := by
  obtain ⟨c, v, hw, hc⟩ := plus_start h0 hd
  have hnd : ∀ u, u <+: ds ++ t → ¬ decimal.Lang u := fun u hu => digits_not_decimal hd (after_digits ht) hu
  have hb := digit_bounds (t := t) hw hc (bound_nat (ht.stop fun _ hc => (endsToken_not hc).2.1))
    (fun u hu hl => (hnd u hu hl).elim)
  obtain ⟨n1, n2, n3, n4, n5, n6, n7, n8, n9⟩ := digit_not (isDigit_mem hc)
  refine munch_tail (pre := tailRules.take 4) (post := tailRules.drop 5) rfl (hw ▸ words_ne n9) (List.prefix_append _ _) h0
    ((plus_cls _ _).mpr ⟨h0, hd⟩) ?_ hb
  have pf : (c :: v) <+: c :: v := List.prefix_refl _
  intro r hr
  have : r ∈ [(whitespace, Act.skip), (newLine, .skip), (.seq (.cls (· == ';')) (.star (.cls (· != '\n'))), .skip),
    (stringLiteral, .ret .stringLiteral)] := hr
  rw [hw]
  simp only [List.mem_cons, List.not_mem_nil, or_false] at this
  rcases this with rfl | rfl | rfl | rfl
  · exact (starts_seq _ _).not n1 pf
  · exact (starts_seq _ _).not n2 pf
  · exact (starts_seq _ _).not n3 pf
  · exact (starts_seq _ _).not n4 pf

theorem munch_decimal {is fs t : List Char} (h1 : is ≠ []) (h2 : fs ≠ []) (h3 : ∀ c ∈ is ++ fs, c.isDigit = true)
    (ht : After t) : Munch rules ((is ++ '.' :: fs) ++ t) (is ++ '.' :: fs) (.ret .decimalLiteral) := by
  have hi : ∀ c ∈ is, c.isDigit = true := fun c hc => h3 c (by simp [hc])
  have hf : ∀ c ∈ fs, c.isDigit = true := fun c hc => h3 c (by simp [hc])
  obtain ⟨c, v, hw, hc⟩ := plus_start h1 hi
  have hw' : is ++ '.' :: fs = c :: (v ++ '.' :: fs) := by rw [hw]; rfl
  have hnat : Bound ((is ++ '.' :: fs) ++ t) (is ++ '.' :: fs).length natNum := by
    intro u hu hl
    rw [List.append_assoc] at hu
    have := run_le (t := '.' :: fs ++ t) ((plus_cls _ _).mp hl).2 hu (Or.inr ⟨'.', fs ++ t, rfl, by decide⟩)
    rw [List.length_append]; omega
  have hdec : Bound ((is ++ '.' :: fs) ++ t) (is ++ '.' :: fs).length decimal := by
    intro u hu hl
    obtain ⟨is', fs', rfl, g1, g2, g3, g4⟩ := (decimal_lang u).mp hl
    obtain ⟨x, hx⟩ := hu
    have hx : is' ++ '.' :: (fs' ++ x) = is ++ '.' :: (fs ++ t) := by
      have := hx; simpa using this
    obtain ⟨e1, _, e2⟩ := run_eq g3 hi (by decide) (by decide) hx
    have := run_le g4 (e2 ▸ List.prefix_append fs' x) (ht.stop fun _ hc => (endsToken_not hc).2.1)
    rw [e1]; simp; omega
  have hb := digit_bounds (t := t) hw' hc hnat hdec
  obtain ⟨n1, n2, n3, n4, n5, n6, n7, n8, n9⟩ := digit_not (isDigit_mem hc)
  refine munch_tail (pre := tailRules.take 5) (post := tailRules.drop 6) rfl (hw' ▸ words_ne n9) (List.prefix_append _ _)
    (by simp) ((decimal_lang _).mpr ⟨is, fs, rfl, h1, h2, hi, hf⟩) ?_ hb
  have pf : is ++ '.' :: fs <+: c :: (v ++ '.' :: fs) := by rw [hw']
  intro r hr
  have : r ∈ [(whitespace, Act.skip), (newLine, .skip), (.seq (.cls (· == ';')) (.star (.cls (· != '\n'))), .skip),
    (stringLiteral, .ret .stringLiteral), (natNum, .ret .integerLiteral)] := hr
  simp only [List.mem_cons, List.not_mem_nil, or_false] at this
  rcases this with rfl | rfl | rfl | rfl | rfl
  · exact (starts_seq _ _).not n1 pf
  · exact (starts_seq _ _).not n2 pf
  · exact (starts_seq _ _).not n3 pf
  · exact (starts_seq _ _).not n4 pf
  · intro hl
    have := ((plus_cls _ _).mp hl).2 '.' (by simp)
    exact absurd this (by decide)

/-- The facts about the characters that stand at the beginning of the other tokens. -/
theorem mark_not {c : Char} (h : c ∈ ['"', '#', ':', '|']) :
    (c == ' ' || c == '\t' || c == '\r' || c == '\x0c') = false ∧ (c == '\n') = false ∧ (c == ';') = false ∧
    c.isDigit = false ∧ startClass c = false ∧ c ∉ '(' :: ')' :: starters :=
  (by decide : ∀ c ∈ ['"', '#', ':', '|'], (c == ' ' || c == '\t' || c == '\r' || c == '\x0c') = false ∧
    (c == '\n') = false ∧ (c == ';') = false ∧ c.isDigit = false ∧ startClass c = false ∧
    c ∉ '(' :: ')' :: starters) c h

theorem munch_mark {c : Char} {v t : List Char} (hc : c ∈ ['"', '#', ':', '|']) {i : Nat} {r : RE} {a : Act}
    (hs : tailRules = tailRules.take i ++ (r, a) :: tailRules.drop (i + 1)) (hl : r.Lang (c :: v))
    (b1 : Bound (c :: v ++ t) (c :: v).length stringLiteral) (b2 : Bound (c :: v ++ t) (c :: v).length hexNum)
    (b3 : Bound (c :: v ++ t) (c :: v).length binaryNum)
    (b4 : Bound (c :: v ++ t) (c :: v).length (.seq (.cls (· == ':')) simpleSymbol))
    (b5 : Bound (c :: v ++ t) (c :: v).length quotedSymbol) (hp : ∀ r' ∈ tailRules.take i, ¬ r'.1.Lang (c :: v)) :
    Munch rules (c :: v ++ t) (c :: v) a := by
  obtain ⟨n1, n2, n3, n4, n5, n6⟩ := mark_not hc
  rw [List.cons_append] at *
  refine munch_tail hs (words_ne n6) ⟨t, rfl⟩ (by simp) hl hp ?_
  exact forall_rules (bound_words n6) ((starts_seq _ _).bound n1) ((starts_seq _ _).bound n2) ((starts_seq _ _).bound n3)
    b1 ((starts_seq _ _).bound n4) (starts_decimal.bound n4) b2 b3 b4 b5 ((starts_seq _ _).bound n5) (bound_one (by simp))

theorem skip_pre {c : Char} {v : List Char} (hc : c ∈ ['"', '#', ':', '|']) :
    ∀ r ∈ tailRules.take 3, ¬ r.1.Lang (c :: v) := by
  obtain ⟨n1, n2, n3, n4, n5, n6⟩ := mark_not hc
  have pf : (c :: v) <+: c :: v := List.prefix_refl _
  intro r hr
  have : r ∈ [(whitespace, Act.skip), (newLine, .skip), (.seq (.cls (· == ';')) (.star (.cls (· != '\n'))), .skip)] := hr
  simp only [List.mem_cons, List.not_mem_nil, or_false] at this
  rcases this with rfl | rfl | rfl
  · exact (starts_seq _ _).not n1 pf
  · exact (starts_seq _ _).not n2 pf
  · exact (starts_seq _ _).not n3 pf

theorem quoted_lang (w : List Char) : quotedSymbol.Lang w ↔ ∃ s, w = '|' :: s ++ ['|'] ∧ ∀ c ∈ s, c ≠ '|' ∧ c ≠ '\\' := by
  unfold quotedSymbol
  rw [seq_cls]
  constructor
  · rintro ⟨c, v, rfl, hc, u, x, rfl, hu, d, rfl, hd⟩
    have := (star_cls _ _).mp hu
    refine ⟨u, by rw [beq_iff_eq.mp hc, beq_iff_eq.mp hd]; rfl, fun c hc => ?_⟩
    simpa using this c hc
  · rintro ⟨s, rfl, hs⟩
    exact ⟨'|', s ++ ['|'], rfl, by simp, s, ['|'], rfl, (star_cls _ _).mpr fun c hc => by simpa using hs c hc, '|', rfl,
      by simp⟩

theorem munch_quoted {s t : List Char} (hs : ∀ c ∈ s, c ≠ '|' ∧ c ≠ '\\') :
    Munch rules (('|' :: s ++ ['|']) ++ t) ('|' :: s ++ ['|']) (.ret .quotedSymbol) := by
  have hl := (quoted_lang ('|' :: s ++ ['|'])).mpr ⟨s, rfl, hs⟩
  rw [List.cons_append] at *
  have pf : ('|' :: (s ++ ['|'])) <+: '|' :: (s ++ ['|']) := List.prefix_refl _
  refine munch_mark (i := 9) (by decide) rfl hl ((starts_seq _ _).bound (by decide)) ((starts_seq _ _).bound (by decide))
    ((starts_seq _ _).bound (by decide)) ((starts_seq _ _).bound (by decide)) ?_ ?_
  · intro u hu hu'
    obtain ⟨s', rfl, hs'⟩ := (quoted_lang u).mp hu'
    obtain ⟨x, hx⟩ := hu
    have hx : s' ++ '|' :: x = s ++ '|' :: t := by simpa using hx
    obtain ⟨e, _, _⟩ := run_eq (q := fun c => c != '|') (fun c hc => by simpa using (hs' c hc).1)
      (fun c hc => by simpa using (hs c hc).1) (by simp) (by simp) hx
    rw [e]; simp
  · intro r hr
    have : r ∈ tailRules.take 3 ++ [(stringLiteral, Act.ret .stringLiteral), (natNum, .ret .integerLiteral),
        (decimal, .ret .decimalLiteral), (hexNum, .ret .hexLiteral), (binaryNum, .ret .binaryLiteral),
        (.seq (.cls (· == ':')) simpleSymbol, .ret .keyword)] := hr
    rcases List.mem_append.mp this with h | h
    · exact skip_pre (by decide) r h
    · simp only [List.mem_cons, List.not_mem_nil, or_false] at h
      rcases h with rfl | rfl | rfl | rfl | rfl | rfl
      · exact (starts_seq _ _).not (by decide) pf
      · exact (starts_seq _ _).not (by decide) pf
      · exact starts_decimal.not (by decide) pf
      · exact (starts_seq _ _).not (by decide) pf
      · exact (starts_seq _ _).not (by decide) pf
      · exact (starts_seq _ _).not (by decide) pf

theorem munch_keyword {s t : List Char} (hs : IsSimple s) (ht : After t) :
    Munch rules ((':' :: s) ++ t) (':' :: s) (.ret .keyword) := by
  have hl : (RE.seq (.cls (· == ':')) simpleSymbol).Lang (':' :: s) :=
    (seq_cls _ _ _).mpr ⟨':', s, rfl, by simp, (simple_lang s).mpr hs⟩
  have pf : (':' :: s) <+: ':' :: s := List.prefix_refl _
  refine munch_mark (i := 8) (by decide) rfl hl ((starts_seq _ _).bound (by decide)) ((starts_seq _ _).bound (by decide))
    ((starts_seq _ _).bound (by decide)) ?_ ((starts_seq _ _).bound (by decide)) ?_
  · intro u hu hu'
    obtain ⟨c, v, rfl, _, hv⟩ := (seq_cls _ _ _).mp hu'
    obtain ⟨x, hx⟩ := hu
    have := bound_simple (w := s) ht v ⟨x, (List.cons.inj hx).2⟩ hv
    simpa using this
  · intro r hr
    have : r ∈ tailRules.take 3 ++ [(stringLiteral, Act.ret .stringLiteral), (natNum, .ret .integerLiteral),
        (decimal, .ret .decimalLiteral), (hexNum, .ret .hexLiteral), (binaryNum, .ret .binaryLiteral)] := hr
    rcases List.mem_append.mp this with h | h
    · exact skip_pre (by decide) r h
    · simp only [List.mem_cons, List.not_mem_nil, or_false] at h
      rcases h with rfl | rfl | rfl | rfl | rfl
      · exact (starts_seq _ _).not (by decide) pf
      · exact (starts_seq _ _).not (by decide) pf
      · exact starts_decimal.not (by decide) pf
      · exact (starts_seq _ _).not (by decide) pf
      · exact (starts_seq _ _).not (by decide) pf

theorem hash_lang (d : Char) (p : Char → Bool) (w : List Char) :
    (RE.seq (.cls (· == '#')) (.seq (.cls (· == d)) (plus (.cls p)))).Lang w ↔
      ∃ ds, w = '#' :: d :: ds ∧ ds ≠ [] ∧ ∀ c ∈ ds, p c = true := by
  rw [seq_cls]
  constructor
  · rintro ⟨c, v, rfl, hc, hv⟩
    obtain ⟨c', v, rfl, hc', hv⟩ := (seq_cls _ _ _).mp hv
    exact ⟨v, by rw [beq_iff_eq.mp hc, beq_iff_eq.mp hc'], (plus_cls _ _).mp hv⟩
  · rintro ⟨ds, rfl, h⟩
    exact ⟨'#', d :: ds, rfl, by simp, (seq_cls _ _ _).mpr ⟨d, ds, rfl, by simp, (plus_cls _ _).mpr h⟩⟩

theorem hash_bound {d : Char} {p : Char → Bool} {ds t : List Char} (ht : t = [] ∨ ∃ c t', t = c :: t' ∧ p c = false) :
    Bound ('#' :: d :: ds ++ t) ('#' :: d :: ds).length
      (RE.seq (.cls (· == '#')) (.seq (.cls (· == d)) (plus (.cls p)))) := by
  intro u hu hl
  obtain ⟨ds', rfl, _, h⟩ := (hash_lang d p u).mp hl
  obtain ⟨x, hx⟩ := hu
  have hx : ds' ++ x = ds ++ t := by simpa using hx
  have := run_le h (hx ▸ List.prefix_append ds' x) ht
  simpa using this

theorem hash_other {d e : Char} {p : Char → Bool} {ds t : List Char} (hne : d ≠ e) {n : Nat} :
    Bound ('#' :: d :: ds ++ t) n (RE.seq (.cls (· == '#')) (.seq (.cls (· == e)) (plus (.cls p)))) := by
  intro u hu hl
  obtain ⟨ds', rfl, _, _⟩ := (hash_lang e p u).mp hl
  obtain ⟨x, hx⟩ := hu
  simp at hx
  exact (hne hx.1.symm).elim

theorem munch_hex {ds t : List Char} (h0 : ds ≠ []) (hd : ∀ c ∈ ds, isHex c = true) (ht : After t) :
    Munch rules (('#' :: 'x' :: ds) ++ t) ('#' :: 'x' :: ds) (.ret .hexLiteral) := by
  have hl : hexNum.Lang ('#' :: 'x' :: ds) := (hash_lang _ _ _).mpr ⟨ds, rfl, h0, hd⟩
  have pf : ('#' :: 'x' :: ds) <+: '#' :: 'x' :: ds := List.prefix_refl _
  refine munch_mark (i := 6) (by decide) rfl hl ((starts_seq _ _).bound (by decide))
    (hash_bound (ht.stop fun c hc => (endsToken_not hc).2.2.1)) (hash_other (by decide))
    ((starts_seq _ _).bound (by decide)) ((starts_seq _ _).bound (by decide)) ?_
  intro r hr
  have : r ∈ tailRules.take 3 ++ [(stringLiteral, Act.ret .stringLiteral), (natNum, .ret .integerLiteral),
      (decimal, .ret .decimalLiteral)] := hr
  rcases List.mem_append.mp this with h | h
  · exact skip_pre (by decide) r h
  · simp only [List.mem_cons, List.not_mem_nil, or_false] at h
    rcases h with rfl | rfl | rfl
    · exact (starts_seq _ _).not (by decide) pf
    · exact (starts_seq _ _).not (by decide) pf
    · exact starts_decimal.not (by decide) pf

theorem munch_binary {ds t : List Char} (h0 : ds ≠ []) (hd : ∀ c ∈ ds, c = '0' ∨ c = '1') (ht : After t) :
    Munch rules (('#' :: 'b' :: ds) ++ t) ('#' :: 'b' :: ds) (.ret .binaryLiteral) := by
  have hl : binaryNum.Lang ('#' :: 'b' :: ds) :=
    (hash_lang _ _ _).mpr ⟨ds, rfl, h0, fun c hc => by simpa using hd c hc⟩
  have pf : ('#' :: 'b' :: ds) <+: '#' :: 'b' :: ds := List.prefix_refl _
  refine munch_mark (i := 7) (by decide) rfl hl ((starts_seq _ _).bound (by decide)) (hash_other (by decide))
    (hash_bound (ht.stop fun c hc => ?_))
    ((starts_seq _ _).bound (by decide)) ((starts_seq _ _).bound (by decide)) ?_
  · obtain ⟨_, _, _, h1, h2, _⟩ := endsToken_not hc
    simp [h1, h2]
  · intro r hr
    have : r ∈ tailRules.take 3 ++ [(stringLiteral, Act.ret .stringLiteral), (natNum, .ret .integerLiteral),
        (decimal, .ret .decimalLiteral), (hexNum, .ret .hexLiteral)] := hr
    rcases List.mem_append.mp this with h | h
    · exact skip_pre (by decide) r h
    · simp only [List.mem_cons, List.not_mem_nil, or_false] at h
      rcases h with rfl | rfl | rfl | rfl
      · exact (starts_seq _ _).not (by decide) pf
      · exact (starts_seq _ _).not (by decide) pf
      · exact starts_decimal.not (by decide) pf
      · intro h
        obtain ⟨ds', h, _⟩ := (hash_lang _ _ _).mp h
        exact absurd (List.cons.inj (List.cons.inj h).2).1 (by decide)

/-- The characters of a string as they are written. -/
def escape (s : List Char) : List Char := s.flatMap fun c => if c = '"' then ['"', '"'] else [c]

/-- The piece of a string between the outer quotes. -/
abbrev pieces : RE := .star (.alt (.seq (.cls (· == '"')) (.cls (· == '"'))) (.cls (· != '"')))

theorem string_lang (w : List Char) : stringLiteral.Lang w ↔ ∃ b, w = '"' :: b ++ ['"'] ∧ pieces.Lang b := by
  unfold stringLiteral
  rw [seq_cls]
  constructor
  · rintro ⟨c, v, rfl, hc, u, x, rfl, hu, d, rfl, hd⟩
    exact ⟨u, by rw [beq_iff_eq.mp hc, beq_iff_eq.mp hd]; rfl, hu⟩
  · rintro ⟨b, rfl, hb⟩
    exact ⟨'"', b ++ ['"'], rfl, by simp, b, ['"'], rfl, hb, '"', rfl, by simp⟩

theorem pieces_escape (s : List Char) : pieces.Lang (escape s) := by
  refine ⟨s.map fun c => if c = '"' then ['"', '"'] else [c], ?_, ?_⟩
  · unfold escape; rw [List.flatMap_def]
  · intro u hu
    obtain ⟨c, _, rfl⟩ := List.mem_map.mp hu
    by_cases h : c = '"'
    · rw [if_pos h]; exact Or.inl ⟨['"'], ['"'], rfl, ⟨'"', rfl, by simp⟩, '"', rfl, by simp⟩
    · rw [if_neg h]; exact Or.inr ⟨c, rfl, by simpa using h⟩

theorem pieces_bound {s t : List Char} (ht : t = [] ∨ ∃ c t', t = c :: t' ∧ (c != '"') = true) :
    ∀ {us : List (List Char)}, (∀ u ∈ us, (RE.alt (.seq (.cls (· == '"')) (.cls (· == '"'))) (.cls (· != '"'))).Lang u) →
      us.flatten ++ ['"'] <+: escape s ++ '"' :: t → us.flatten.length ≤ (escape s).length := by
  induction s with
  | nil =>
    intro us hus hp
    cases us with
    | nil => simp
    | cons u us =>
      exfalso
      rcases hus u (by simp) with ⟨x, y, rfl, ⟨a, rfl, ha⟩, ⟨b, rfl, hb⟩⟩ | ⟨a, rfl, ha⟩
      · obtain ⟨z, hz⟩ := hp
        simp [escape] at hz
        have hb := beq_iff_eq.mp hb
        rcases ht with rfl | ⟨c, t', rfl, hc⟩
        · simp at hz
        · simp at hz
          rw [← hz.2.1, hb] at hc
          simp at hc
      · obtain ⟨z, hz⟩ := hp
        simp [escape] at hz
        rw [hz.1] at ha
        simp at ha
  | cons c s ih =>
    intro us hus hp
    cases us with
    | nil => simp
    | cons u us =>
      have hus' : ∀ u ∈ us, (RE.alt (.seq (.cls (· == '"')) (.cls (· == '"'))) (.cls (· != '"'))).Lang u :=
        fun u h => hus u (by simp [h])
      by_cases h : c = '"'
      · have he : escape (c :: s) = '"' :: '"' :: escape s := by simp [escape, h]
        rw [he] at hp ⊢
        rcases hus u (by simp) with ⟨x, y, rfl, ⟨a, rfl, ha⟩, ⟨b, rfl, hb⟩⟩ | ⟨a, rfl, ha⟩
        · obtain ⟨z, hz⟩ := hp
          simp at hz
          have := ih hus' ⟨z, by simpa using hz.2.2⟩
          simp at this ⊢; omega
        · obtain ⟨z, hz⟩ := hp
          simp at hz
          rw [hz.1] at ha
          simp at ha
      · have he : escape (c :: s) = c :: escape s := by simp [escape, h]
        rw [he] at hp ⊢
        rcases hus u (by simp) with ⟨x, y, rfl, ⟨a, rfl, ha⟩, ⟨b, rfl, hb⟩⟩ | ⟨a, rfl, ha⟩
        · obtain ⟨z, hz⟩ := hp
          simp at hz
          exact (h (by rw [← hz.1]; exact beq_iff_eq.mp ha)).elim
        · obtain ⟨z, hz⟩ := hp
          simp at hz
          have := ih hus' ⟨z, by simpa using hz.2⟩
          simp at this ⊢; omega

theorem munch_string {s t : List Char} (ht : After t) :
    Munch rules (('"' :: escape s ++ ['"']) ++ t) ('"' :: escape s ++ ['"']) (.ret .stringLiteral) := by
  have hl := (string_lang ('"' :: escape s ++ ['"'])).mpr ⟨escape s, rfl, pieces_escape s⟩
  rw [List.cons_append] at *
  refine munch_mark (i := 3) (by decide) rfl hl ?_ ((starts_seq _ _).bound (by decide))
    ((starts_seq _ _).bound (by decide)) ((starts_seq _ _).bound (by decide)) ((starts_seq _ _).bound (by decide))
    (skip_pre (by decide))
  intro u hu hu'
  obtain ⟨b, rfl, us, rfl, hus⟩ := (string_lang u).mp hu'
  obtain ⟨x, hx⟩ := hu
  have hx : us.flatten ++ '"' :: x = escape s ++ '"' :: t := by simpa using hx
  have ht' : t = [] ∨ ∃ c t', t = c :: t' ∧ (c != '"') = true := by
    rcases ht with h | ⟨c, t', h, hc⟩
    · exact Or.inl h
    · exact Or.inr ⟨c, t', h, by simpa using (endsToken_not hc).2.2.2.2.2.2⟩
  have := pieces_bound (s := s) ht' hus ⟨x, by simpa using hx⟩
  simpa using this

end Lexer
end Yaga
