import Verif.Proof.LexerCost

/-
C110: lexing takes linear time.
-/
namespace Verif
open Lexer Accept

theorem lexMain_counted (c : Char) (cs : Text) :
    ∃ k, Over.lexMain counting (c :: cs, 0) = .ok ((lexForm c cs).1, ((lexForm c cs).2, k)) ∧
      k + 10 * (lexForm c cs).2.length ≤ 10 * (c :: cs).length + 11 := by
  have h := pays_lexMain (c :: cs) 0
  rw [over_lexMain, lexMain_eq] at h
  generalize lexForm c cs = r at h
  obtain ⟨k, h1, h2⟩ := h
  exact ⟨k, h1, by omega⟩

theorem tokenizeLoopC_eq {s : Text} {ls : List Lexeme} (h : Lexemes s ls) :
    ∀ n pos, s.length < n → ∃ reads, tokenizeLoopC n pos s = .ok (attach pos ls, reads) ∧
      reads ≤ 11 * ls.length + 10 * s.length := by
  induction h with
  | nil =>
    intro n pos hn
    cases n with
    | zero => exact absurd hn (Nat.not_lt_zero _)
    | succ n => exact ⟨0, by simp [tokenizeLoopC, attach], by simp⟩
  | @cons s l rest ls h _ ih =>
    intro n pos hn
    cases n with
    | zero => exact absurd hn (Nat.not_lt_zero _)
    | succ n =>
      have hlt := h.length_lt
      obtain ⟨r, e, hr⟩ := ih n (pos + l.word.len) (by omega)
      cases h with
      | @mk c cs w k e' rest h1 h2 =>
        obtain ⟨k', h3, h4⟩ := lexMain_counted c cs
        rw [h1] at h3 h4
        have hlen : Text.len (c :: cs) - Text.len rest = Text.len w := by rw [h2, Text.len_append]; omega
        refine ⟨k' + r, ?_, ?_⟩
        · have hs : Text.sliceFrom (Text.len w) (c :: cs) = some rest := by rw [h2]; exact Text.sliceFrom_append _ _
          simp only [tokenizeLoopC, h3, hlen, hs]
          dsimp only at e
          rw [e]
          simp only [attach]
          cases e' <;> simp [Range.shift, Range.upTo, Range.ofLen]; omega
        · dsimp only at h4
          simp only [List.length_cons] at *
          omega

/-- C110: the counting lexer finds the tokens and errors the lexer finds, and reads at most 11 characters for each token and
10 for each character of the text. -/
theorem C110_reads (text : Text) :
    ∃ tokens errors reads, tokenize text = .ok (tokens, errors) ∧ tokenizeC text = .ok ((tokens, errors), reads) ∧
      reads ≤ 11 * tokens.length + 10 * text.length := by
  obtain ⟨ls, h⟩ := lexemes_exists text
  obtain ⟨r, e, hr⟩ := tokenizeLoopC_eq h (text.length + 1) 0 (Nat.lt_succ_self _)
  refine ⟨_, _, r, tokenize_eq h, ?_, ?_⟩
  · simp only [tokenizeC, e]
  · rw [attach_tokens]; simpa using hr

/-- C110: lexing a text reads at most 21 times as many characters as it has. -/
theorem C110_linear (text : Text) :
    ∃ result reads, tokenizeC text = .ok (result, reads) ∧ tokenize text = .ok result ∧ reads ≤ 21 * text.length := by
  obtain ⟨ls, h⟩ := lexemes_exists text
  obtain ⟨r, e, hr⟩ := tokenizeLoopC_eq h (text.length + 1) 0 (Nat.lt_succ_self _)
  refine ⟨_, r, by simp only [tokenizeC, e], tokenize_eq h, ?_⟩
  have : ls.length ≤ text.length := by
    clear e hr
    induction h with
    | nil => simp
    | cons h _ ih => have := h.length_lt; simp only [List.length_cons]; omega
  omega

/-- The counts of two texts: brackets that do not close, and numbers. -/
example : (tokenizeC ['[', '=', '[', ']', ']', ']', ']', ']', ']', ']']).toOption =
    some (([⟨.str, 10⟩], [⟨"Could not find bracket string close", ⟨0, 10⟩⟩]), 74) := by decide +kernel
example : (tokenizeC ['0', '+', '0']).toOption = some (([⟨.number, 1⟩, ⟨.plus, 1⟩, ⟨.number, 1⟩], []), 30) := by
  decide +kernel

end Verif
