/-
Reading texts: words and s-expressions.
-/
import Verif.Spec.SmtText

namespace Yaga.Spec

/-- The text is empty or begins with a character that ends a word. -/
def Starts (cs : List Char) : Prop := ∀ c, cs.head? = some c → isDelim c = true

theorem starts_nil : Starts [] := by intro c h; cases h

theorem starts_cons {c : Char} {cs : List Char} (h : isDelim c = true) : Starts (c :: cs) := by
  intro d hd
  cases hd
  exact h

theorem starts_append {a b : List Char} (ha : Starts a) (hb : Starts b) : Starts (a ++ b) := by
  cases a with
  | nil => exact hb
  | cons c cs => exact starts_cons (ha c rfl)

theorem words_lp (cs : List Char) : words ('(' :: cs) = .lp :: words cs := by simp [words, wordsFrom, flush]
theorem words_rp (cs : List Char) : words (')' :: cs) = .rp :: words cs := by simp [words, wordsFrom, flush]
theorem words_space {c : Char} (h : isSpace c = true) (cs : List Char) : words (c :: cs) = words cs := by
  have h1 : c ≠ '(' := by rintro rfl; revert h; decide
  have h2 : c ≠ ')' := by rintro rfl; revert h; decide
  simp [words, wordsFrom, flush, h1, h2, h]

theorem wordsFrom_starts {cs : List Char} (h : Starts cs) (w : List Char) : wordsFrom w cs = flush w ++ words cs := by
  cases cs with
  | nil => simp [words, wordsFrom, flush]
  | cons c cs =>
    have hd := h c rfl
    by_cases h1 : c = '('
    · simp [words, wordsFrom, flush, h1]
    · by_cases h2 : c = ')'
      · simp [words, wordsFrom, flush, h2]
      · have h3 : isSpace c = true := by simpa [isDelim, h1, h2] using hd
        simp [words, wordsFrom, flush, h1, h2, h3]

theorem wordsFrom_word {cs : List Char} (h : ∀ c ∈ cs, isDelim c = false) {rest : List Char} (hr : Starts rest)
    (w : List Char) : wordsFrom w (cs ++ rest) = flush (w ++ cs) ++ words rest := by
  induction cs generalizing w with
  | nil => simp [wordsFrom_starts hr]
  | cons c cs ih =>
    have hc := h c (by simp)
    have h1 : c ≠ '(' := by rintro rfl; revert hc; decide
    have h2 : c ≠ ')' := by rintro rfl; revert hc; decide
    have h3 : isSpace c = false := by
      revert hc
      simp [isDelim]
    rw [List.cons_append, wordsFrom, if_neg h1, if_neg h2, h3]
    simp only [Bool.false_eq_true, if_false]
    rw [ih (fun d hd => h d (by simp [hd])), List.append_assoc, List.singleton_append]

/-- Reading words in a state. -/
def run (st : List (List SExp)) (ws : List Word) : Option (List (List SExp)) := ws.foldl readWord (some st)

/-- The text is read as these s-expressions. -/
def Shows (t : List Char) (es : List SExp) : Prop :=
  ∀ rest, Starts rest → ∀ x st, run (x :: st) (words (t ++ rest)) = run ((es.reverse ++ x) :: st) (words rest)

theorem shows_nil : Shows [] [] := by intro rest _ x st; simp

theorem shows_space {c : Char} (h : isSpace c = true) {t : List Char} {es : List SExp} (ht : Shows t es) :
    Shows (c :: t) es := by
  intro rest hr x st
  rw [List.cons_append, words_space h]
  exact ht rest hr x st

theorem shows_atom {w : List Char} (hn : w ≠ []) (h : ∀ c ∈ w, isDelim c = false) : Shows w [.atom w] := by
  intro rest hr x st
  unfold words
  rw [wordsFrom_word h hr]
  simp [flush, hn, run, readWord, words]

theorem shows_append {a b : List Char} {es fs : List SExp} (ha : Shows a es) (hb : Shows b fs) (hs : Starts b) :
    Shows (a ++ b) (es ++ fs) := by
  intro rest hr x st
  rw [List.append_assoc, ha _ (starts_append hs hr), hb _ hr]
  simp

/-- An atom followed by other texts. -/
theorem shows_cons {w b : List Char} {fs : List SExp} (hn : w ≠ []) (h : ∀ c ∈ w, isDelim c = false) (hb : Shows b fs)
    (hs : Starts b) : Shows (w ++ b) (.atom w :: fs) := shows_append (shows_atom hn h) hb hs

theorem shows_list {t : List Char} {es : List SExp} (ht : Shows t es) : Shows ('(' :: (t ++ [')'])) [.list es] := by
  intro rest hr x st
  rw [List.cons_append, words_lp, List.append_assoc]
  show run ([] :: x :: st) _ = _
  rw [List.singleton_append, ht _ (starts_cons (by decide)), words_rp]
  simp [run, readWord]

theorem readText_of_shows {t : List Char} {es : List SExp} (h : Shows t es) : readText t = some es := by
  have := h [] starts_nil [] []
  rw [List.append_nil] at this
  unfold run at this
  unfold readText
  rw [this]
  simp [words, wordsFrom, flush]

end Yaga.Spec
