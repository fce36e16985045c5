import Verif.Proof.Lexemes

/-
C04, C05: the lexer partitions the text and its errors point at tokens.
-/
namespace Verif
open Lexer

/-- C04: `tokenize` always succeeds (no panic, no endless loop), and there is a division of the text
into non-empty words, one per token, such that each token's length is the byte length of its word.
(The words are lists of characters, so token boundaries are character boundaries.) -/
theorem C04_tokenize_partitions (text : Text) :
    ∃ tokens errors, ∃ words : List Text, tokenize text = .ok (tokens, errors) ∧
      words.flatten = text ∧ (∀ w ∈ words, w ≠ []) ∧ tokens.map (·.len) = words.map Text.len := by
  obtain ⟨ls, h⟩ := lexemes_exists text
  refine ⟨_, _, ls.map (·.word), tokenize_eq h, h.flatten, ?_, ?_⟩
  · intro w hw
    simp at hw
    obtain ⟨l, hl, rfl⟩ := hw
    exact h.words_ne l hl
  · rw [attach_tokens]; simp

/-- C04: the lengths are positive and add up to the length of the text. -/
theorem C04_lengths_sum {text : Text} {tokens : List Token} {errors : List SyntaxError}
    (h : tokenize text = .ok (tokens, errors)) :
    (tokens.map (·.len)).sum = text.len ∧ ∀ t ∈ tokens, 0 < t.len := by
  obtain ⟨ts, es, ws, h1, h2, h3, h4⟩ := C04_tokenize_partitions text
  rw [h] at h1
  simp at h1
  obtain ⟨rfl, rfl⟩ := h1
  have hsum : (ws.map Text.len).sum = text.len := by
    rw [← h2]
    clear h2 h3 h4
    induction ws with
    | nil => rfl
    | cons w ws ih => simp [ih]
  refine ⟨by rw [h4, hsum], ?_⟩
  intro t ht
  have : t.len ∈ ws.map Text.len := by rw [← h4]; exact List.mem_map_of_mem ht
  simp at this
  obtain ⟨w, hw, e⟩ := this
  rw [← e]
  exact Text.len_pos (h3 w hw)

/-- The ranges occupied by consecutive tokens starting at an offset. -/
def tokenRanges : Nat → List Token → List Range
  | _, [] => []
  | pos, t :: ts => ⟨pos, pos + t.len⟩ :: tokenRanges (pos + t.len) ts

/-- C05: the error ranges are ranges of tokens, in order of the tokens, at most one error per token. -/
theorem C05_errors_are_token_ranges {text : Text} {tokens : List Token} {errors : List SyntaxError}
    (h : tokenize text = .ok (tokens, errors)) :
    (errors.map (·.range)).Sublist (tokenRanges 0 tokens) := by
  obtain ⟨ls, hl⟩ := lexemes_exists text
  rw [tokenize_eq hl] at h
  simp at h
  obtain ⟨rfl, rfl⟩ := h
  have : ∀ pos, (((attach pos ls).filterMap (·.2)).map (·.range)).Sublist
      (tokenRanges pos ((attach pos ls).map (·.1))) := by
    clear hl
    induction ls with
    | nil => intro pos; simp [attach]
    | cons l ls ih =>
      intro pos
      simp only [attach, List.map_cons, tokenRanges]
      cases l.err with
      | none => exact List.Sublist.cons _ (ih _)
      | some e => exact List.Sublist.cons_cons _ (ih _)
  exact this 0

theorem tokenRanges_bounds (pos : Nat) (ts : List Token) : ∀ r ∈ tokenRanges pos ts,
    pos ≤ r.start ∧ r.start ≤ r.stop ∧ r.stop ≤ pos + (ts.map (·.len)).sum := by
  induction ts generalizing pos with
  | nil => simp [tokenRanges]
  | cons t ts ih =>
    intro r hr
    simp [tokenRanges] at hr
    rcases hr with rfl | hr
    · simp
    · have := ih _ r hr; simp; omega

theorem tokenRanges_pairwise (pos : Nat) (ts : List Token) :
    (tokenRanges pos ts).Pairwise (fun a b => a.stop ≤ b.start) := by
  induction ts generalizing pos with
  | nil => simp [tokenRanges]
  | cons t ts ih =>
    simp only [tokenRanges, List.pairwise_cons]
    exact ⟨fun r hr => (tokenRanges_bounds _ _ r hr).1, ih _⟩

/-- C05: hence error ranges lie inside the text and come in increasing order without overlap. -/
theorem C05_errors_in_text_and_ordered {text : Text} {tokens : List Token} {errors : List SyntaxError}
    (h : tokenize text = .ok (tokens, errors)) :
    (∀ e ∈ errors, e.range.start ≤ e.range.stop ∧ e.range.stop ≤ text.len) ∧
    errors.Pairwise (fun a b => a.range.stop ≤ b.range.start) := by
  have hs := C05_errors_are_token_ranges h
  have hl := (C04_lengths_sum h).1
  constructor
  · intro e he
    have := tokenRanges_bounds 0 tokens e.range (hs.subset (List.mem_map_of_mem he))
    omega
  · exact List.pairwise_map.mp ((tokenRanges_pairwise 0 tokens).sublist hs)

/-- The theorems have content: a text with one multi-byte character and an unterminated string. -/
example : tokenize ['é', ' ', '"', 'a'] = .ok
    ([⟨.unknown, 2⟩, ⟨.whitespace, 1⟩, ⟨.str, 2⟩],
     [⟨"Got an unknown token", ⟨0, 2⟩⟩, ⟨"Could not find closing delimiter `\"`", ⟨3, 5⟩⟩]) := by
  rfl

end Verif
