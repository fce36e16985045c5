import Verif.Proof.LexerSuffix

/-
The list of lexemes of a text, and `tokenize` in terms of it.
-/
namespace Verif

/-- The word of a token, its kind and the lexer's message, if any. -/
structure Lexeme where
  word : Text
  kind : SyntaxKind
  err : Option String
  deriving DecidableEq, Repr

namespace Lexer

/-- The first lexeme of a non-empty text: `text = word ++ rest`. -/
inductive FirstLexeme : Text → Lexeme → Text → Prop
  | mk {c cs w k e rest} : lexForm c cs = ((k, e), rest) → c :: cs = w ++ rest →
      FirstLexeme (c :: cs) ⟨w, k, e⟩ rest

theorem firstLexeme_exists (c : Char) (cs : Text) : ∃ l rest, FirstLexeme (c :: cs) l rest := by
  obtain ⟨w, hw⟩ := lexForm_suffix c cs
  generalize h : lexForm c cs = r at hw
  obtain ⟨⟨k, e⟩, rest⟩ := r
  exact ⟨⟨c :: w, k, e⟩, rest, .mk h (by simp at hw; simp [hw])⟩

theorem FirstLexeme.append {s rest : Text} {l : Lexeme} (h : FirstLexeme s l rest) :
    s = l.word ++ rest := by
  cases h; assumption

theorem FirstLexeme.word_ne {s rest : Text} {l : Lexeme} (h : FirstLexeme s l rest) : l.word ≠ [] := by
  cases h with
  | @mk c cs w k e rest h1 h2 =>
    rintro rfl
    have := (lexForm_suffix c cs).length_le
    rw [h1] at this
    simp at h2
    subst h2
    simp at this
    omega

theorem FirstLexeme.unique {s r1 r2 : Text} {l1 l2 : Lexeme} (h1 : FirstLexeme s l1 r1)
    (h2 : FirstLexeme s l2 r2) : l1 = l2 ∧ r1 = r2 := by
  cases h1 with
  | mk a b =>
    cases h2 with
    | mk c d =>
      rw [a] at c
      simp at c
      obtain ⟨⟨rfl, rfl⟩, rfl⟩ := c
      rw [b] at d
      have := List.append_cancel_right d
      subst this
      exact ⟨rfl, rfl⟩

/-- The lexemes of a text. -/
inductive Lexemes : Text → List Lexeme → Prop
  | nil : Lexemes [] []
  | cons {s l rest ls} : FirstLexeme s l rest → Lexemes rest ls → Lexemes s (l :: ls)

theorem FirstLexeme.length_lt {s rest : Text} {l : Lexeme} (h : FirstLexeme s l rest) :
    rest.length < s.length := by
  have h1 := h.append
  have h2 := List.length_pos_iff.mpr h.word_ne
  rw [h1]; simp; omega

theorem lexemes_exists (s : Text) : ∃ ls, Lexemes s ls := by
  generalize hn : s.length = n
  induction n using Nat.strongRecOn generalizing s with
  | ind n ih =>
    cases s with
    | nil => exact ⟨[], .nil⟩
    | cons c cs =>
      obtain ⟨l, rest, h⟩ := firstLexeme_exists c cs
      obtain ⟨ls, hls⟩ := ih rest.length (by have := h.length_lt; omega) rest rfl
      exact ⟨l :: ls, .cons h hls⟩

theorem Lexemes.unique {s : Text} {a b : List Lexeme} (h1 : Lexemes s a) (h2 : Lexemes s b) : a = b := by
  induction h1 generalizing b with
  | nil =>
    cases h2 with
    | nil => rfl
    | cons h _ => cases h
  | cons h _ ih =>
    cases h2 with
    | nil => cases h
    | cons h' hr =>
      obtain ⟨rfl, rfl⟩ := h.unique h'
      rw [ih hr]

theorem Lexemes.flatten {s : Text} {ls : List Lexeme} (h : Lexemes s ls) :
    (ls.map (·.word)).flatten = s := by
  induction h with
  | nil => rfl
  | cons h _ ih => simp [ih]; exact h.append.symm

theorem Lexemes.words_ne {s : Text} {ls : List Lexeme} (h : Lexemes s ls) : ∀ l ∈ ls, l.word ≠ [] := by
  induction h with
  | nil => simp
  | cons h _ ih => intro l hl; simp at hl; exact hl.elim (fun e => e ▸ h.word_ne) (ih l)

/-- The tokens with their errors, starting at an offset. -/
def attach : Nat → List Lexeme → List (Token × Option SyntaxError)
  | _, [] => []
  | pos, l :: ls =>
    (⟨l.kind, l.word.len⟩, l.err.map fun e => ⟨e, Range.ofLen pos l.word.len⟩)
      :: attach (pos + l.word.len) ls

theorem firstToken_eq {s rest : Text} {l : Lexeme} (h : FirstLexeme s l rest) :
    firstToken s = .ok (some (⟨l.kind, l.word.len⟩, l.err.map fun e => ⟨e, Range.upTo l.word.len⟩)) := by
  cases h with
  | @mk c cs w k e rest h1 h2 =>
    have : Text.len (c :: cs) - Text.len rest = Text.len w := by rw [h2, Text.len_append]; omega
    simp [firstToken, lexMain_eq, h1, this]
    rw [← Text.len_cons, this]
    simp

theorem tokenizeLoop_eq {s : Text} {ls : List Lexeme} (h : Lexemes s ls) :
    ∀ n pos, s.length < n → tokenizeLoop n pos s = .ok (attach pos ls) := by
  induction h with
  | nil =>
    intro n pos hn
    cases n with
    | zero => exact absurd hn (Nat.not_lt_zero _)
    | succ n => simp [tokenizeLoop, firstToken, attach]
  | @cons s l rest ls h _ ih =>
    intro n pos hn
    cases n with
    | zero => exact absurd hn (Nat.not_lt_zero _)
    | succ n =>
      have hl := h.length_lt
      have hs : Text.sliceFrom l.word.len s = some rest := by
        rw [h.append]; exact Text.sliceFrom_append _ _
      simp only [tokenizeLoop, firstToken_eq h, hs]
      rw [ih n (pos + l.word.len) (by omega)]
      simp only [attach]
      cases l.err <;> simp [Range.shift, Range.upTo, Range.ofLen]; omega

theorem tokenize_eq {s : Text} {ls : List Lexeme} (h : Lexemes s ls) :
    tokenize s = .ok ((attach 0 ls).map (·.1), (attach 0 ls).filterMap (·.2)) := by
  unfold tokenize
  rw [tokenizeLoop_eq h _ 0 (Nat.lt_succ_self _)]

theorem attach_tokens (pos : Nat) (ls : List Lexeme) :
    (attach pos ls).map (·.1) = ls.map fun l => ⟨l.kind, l.word.len⟩ := by
  induction ls generalizing pos with
  | nil => rfl
  | cons l ls ih => simp [attach, ih]

end Lexer
end Verif
