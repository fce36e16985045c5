import Verif.Model.KindClasses
import Verif.Props.Spelling
import Verif.Proof.Decide
import Verif.Props.ParseText

/-
C112: the class of a token can be read off its text.
-/
namespace Verif
open Lexer Lua Spec

/-- What the text of a token says about its class. -/
structure Spec.Classified (k : SyntaxKind) (w : Text) : Prop where
  keyword : k.isKeyword = true ↔ ∃ p ∈ keywords, p.1.toList = w
  punct : k.isPunct = true ↔ ∃ p ∈ operators, p.1.toList = w
  literal : k.isLiteral = true ↔ (∃ c v, w = c :: v ∧ (c.isDigit = true ∨ c = '\'' ∨ c = '"')) ∨
    ∃ c v, w = '[' :: c :: v ∧ (c = '[' ∨ c = '=')
  trivia : k.isTrivia = true ↔ (∃ v, w = '-' :: '-' :: v) ∨ ∃ c v, w = c :: v ∧ c ∈ spaces
  name : k = .ident ↔ (∃ c v, w = c :: v ∧ nameStart c = true) ∧ ∀ p ∈ keywords, p.1.toList ≠ w
  one : [k.isKeyword, k.isPunct, k.isLiteral, k.isTrivia, decide (k = .ident), decide (k = .unknown)].count true = 1
  unknown : k = .unknown → ∃ c, w = [c]

private def literalText : Text → Bool
  | c :: v => c.isDigit || c == '\'' || c == '"' || (c == '[' && (v.head? == some '[' || v.head? == some '='))
  | [] => false

private def triviaText : Text → Bool
  | c :: v => (c == '-' && v.head? == some '-') || decide (c ∈ spaces)
  | [] => false

private def nameText : Text → Bool
  | c :: _ => nameStart c
  | [] => false

private def keywordText (w : Text) : Bool := keywords.any fun p => p.1.toList == w
private def punctText (w : Text) : Bool := operators.any fun p => p.1.toList == w

private def ok (k : SyntaxKind) (w : Text) : Bool :=
  k.isKeyword == keywordText w && k.isPunct == punctText w && k.isLiteral == literalText w && k.isTrivia == triviaText w &&
    decide (k = .ident) == (nameText w && !keywordText w) &&
    [k.isKeyword, k.isPunct, k.isLiteral, k.isTrivia, decide (k = .ident), decide (k = .unknown)].count true == 1 &&
    (k != .unknown || w.length == 1)

private theorem of_ok {k : SyntaxKind} {w : Text} (h : ok k w = true) : Classified k w := by
  simp only [ok, Bool.and_eq_true, beq_iff_eq] at h
  obtain ⟨⟨⟨⟨⟨⟨h1, h2⟩, h3⟩, h4⟩, h5⟩, h6⟩, h7⟩ := h
  have hk : keywordText w = true ↔ ∃ p ∈ keywords, p.1.toList = w := by simp [keywordText]
  refine ⟨by rw [h1, hk], by rw [h2]; simp [punctText], ?_, ?_, ?_, h6, ?_⟩
  · rw [h3]
    cases w with
    | nil => simp [literalText]
    | cons c v =>
      simp only [literalText, Bool.or_eq_true, beq_iff_eq, Bool.and_eq_true, List.cons.injEq]
      constructor
      · rintro (((h | h) | h) | ⟨rfl, h⟩)
        · exact .inl ⟨c, v, ⟨rfl, rfl⟩, .inl h⟩
        · exact .inl ⟨c, v, ⟨rfl, rfl⟩, .inr (.inl h)⟩
        · exact .inl ⟨c, v, ⟨rfl, rfl⟩, .inr (.inr h)⟩
        · cases v with
          | nil => simp at h
          | cons d v => exact .inr ⟨d, v, ⟨rfl, rfl⟩, by simpa using h⟩
      · rintro (⟨_, _, ⟨rfl, rfl⟩, h | h | h⟩ | ⟨d, v', ⟨rfl, rfl⟩, h⟩)
        · exact .inl (.inl (.inl h))
        · exact .inl (.inl (.inr h))
        · exact .inl (.inr h)
        · exact .inr ⟨rfl, by simpa using h⟩
  · rw [h4]
    cases w with
    | nil => simp [triviaText]
    | cons c v =>
      simp only [triviaText, Bool.or_eq_true, beq_iff_eq, Bool.and_eq_true, List.cons.injEq, decide_eq_true_eq]
      constructor
      · rintro (⟨rfl, h⟩ | h)
        · cases v with
          | nil => simp at h
          | cons d v => exact .inl ⟨v, rfl, by simpa using h⟩
        · exact .inr ⟨c, v, ⟨rfl, rfl⟩, h⟩
      · rintro (⟨v', rfl, rfl⟩ | ⟨_, _, ⟨rfl, rfl⟩, h⟩)
        · exact .inl ⟨rfl, rfl⟩
        · exact .inr h
  · have : k = .ident ↔ decide (k = .ident) = true := by simp
    rw [this, h5, Bool.and_eq_true]
    refine and_congr ?_ ?_
    · cases w with
      | nil => simp [nameText]
      | cons c v => simp [nameText]
    · rw [Bool.not_eq_true', ← Bool.not_eq_true, hk]
      exact ⟨fun h p hp e => h ⟨p, hp, e⟩, fun h ⟨p, hp, e⟩ => h p hp e⟩
  · rintro rfl
    simp only [bne_self_eq_false, Bool.false_or, beq_iff_eq] at h7
    match w, h7 with
    | [c], _ => exact ⟨c, rfl⟩

private theorem fixed_ok : ∀ p ∈ keywords ++ operators, ok p.2 p.1.toList = true := by decide +kernel

private theorem text_of_keyword {w : Text} (h : keywordText w = true) :
    nameText w = true ∧ literalText w = false ∧ triviaText w = false ∧ punctText w = false := by
  obtain ⟨p, hp, e⟩ : ∃ p ∈ keywords, p.1.toList = w := by simpa [keywordText] using h
  have hall : ∀ p ∈ keywords, nameText p.1.toList = true ∧ literalText p.1.toList = false ∧ triviaText p.1.toList = false ∧
    punctText p.1.toList = false := by decide +kernel
  rw [← e]; exact hall p hp

private theorem text_of_punct {w : Text} (h : punctText w = true) :
    nameText w = false ∧ literalText w = false ∧ triviaText w = false := by
  obtain ⟨p, hp, e⟩ : ∃ p ∈ operators, p.1.toList = w := by simpa [punctText] using h
  have hall : ∀ p ∈ operators, nameText p.1.toList = false ∧ literalText p.1.toList = false ∧
    triviaText p.1.toList = false := by decide +kernel
  rw [← e]; exact hall p hp

private theorem digit_name {c : Char} (h : c.isDigit = true) : nameStart c = false := by
  simp only [Char.isDigit, Bool.and_eq_true, decide_eq_true_eq] at h
  simp only [nameStart, Char.isAlpha, Char.isUpper, Char.isLower, Bool.or_eq_false_iff, Bool.and_eq_false_iff,
    decide_eq_false_iff_not, beq_eq_false_iff_ne]
  refine ⟨⟨?_, ?_⟩, ?_⟩
  · rintro ⟨a, b⟩; simp only [ge_iff_le, UInt32.le_iff_toNat_le] at h a; simp at h a; omega
  · left; intro a; simp only [ge_iff_le, UInt32.le_iff_toNat_le] at h a; simp at h a; omega
  · rintro rfl; simp at h

private theorem digit_space {c : Char} (h : c.isDigit = true) : c ∉ spaces ∧ c ≠ '-' := by
  refine ⟨fun hm => ?_, ?_⟩
  · have : ∀ c ∈ spaces, c.isDigit = false := by decide
    rw [this c hm] at h; simp at h
  · rintro rfl; simp at h

private theorem name_space {c : Char} (h : nameStart c = true) : c ∉ spaces ∧ c ∉ ['-', '\'', '"', '['] := by
  refine ⟨fun hm => ?_, fun hm => ?_⟩
  · have : ∀ c ∈ spaces, nameStart c = false := by decide
    rw [this c hm] at h; simp at h
  · have : ∀ c ∈ ['-', '\'', '"', '['], nameStart c = false := by decide
    rw [this c hm] at h; simp at h

private theorem literal_text {w : Text} (h : literalText w = true) :
    keywordText w = false ∧ punctText w = false ∧ triviaText w = false ∧ nameText w = false := by
  refine ⟨?_, ?_, ?_, ?_⟩
  · cases hk : keywordText w with
    | false => rfl
    | true => rw [(text_of_keyword hk).2.1] at h; simp at h
  · cases hk : punctText w with
    | false => rfl
    | true => rw [(text_of_punct hk).2.1] at h; simp at h
  all_goals
    cases w with
    | nil => simp [literalText] at h
    | cons c v =>
      simp only [literalText, Bool.or_eq_true, beq_iff_eq, Bool.and_eq_true] at h
      rcases h with ((h | rfl) | rfl) | ⟨rfl, h⟩
      · simp [triviaText, nameText, digit_name h, digit_space h]
      · simp [triviaText, nameText]; try decide
      · simp [triviaText, nameText]; try decide
      · simp [triviaText, nameText]; try decide

private theorem trivia_text {w : Text} (h : triviaText w = true) :
    keywordText w = false ∧ punctText w = false ∧ literalText w = false ∧ nameText w = false := by
  have hl : literalText w = false := by
    cases hk : literalText w with
    | false => rfl
    | true => rw [(literal_text hk).2.2.1] at h; simp at h
  refine ⟨?_, ?_, hl, ?_⟩
  · cases hk : keywordText w with
    | false => rfl
    | true => rw [(text_of_keyword hk).2.2.1] at h; simp at h
  · cases hk : punctText w with
    | false => rfl
    | true => rw [(text_of_punct hk).2.2] at h; simp at h
  · cases w with
    | nil => rfl
    | cons c v =>
      simp only [triviaText, Bool.or_eq_true, beq_iff_eq, Bool.and_eq_true, decide_eq_true_eq] at h
      cases hn : nameText (c :: v) with
      | false => rfl
      | true =>
        have hn : nameStart c = true := hn
        rcases h with ⟨rfl, -⟩ | h
        · exact absurd (by decide) (name_space hn).2
        · exact absurd h (name_space hn).1

private theorem ok_literal {k : SyntaxKind} {w : Text} (hk : k = .str ∨ k = .number) (h : literalText w = true) :
    ok k w = true := by
  obtain ⟨h1, h2, h3, h4⟩ := literal_text h
  rcases hk with rfl | rfl <;> simp only [ok, h, h1, h2, h3, h4] <;> rfl

private theorem ok_trivia {k : SyntaxKind} {w : Text} (hk : k = .comment ∨ k = .whitespace) (h : triviaText w = true) :
    ok k w = true := by
  obtain ⟨h1, h2, h3, h4⟩ := trivia_text h
  rcases hk with rfl | rfl <;> simp only [ok, h, h1, h2, h3, h4] <;> rfl

private theorem spelled_ok {k : SyntaxKind} {w : Text} (h : Spelled k w) : ok k w = true := by
  cases h with
  | fixed h => exact fixed_ok _ h
  | @name c w hn _ hk =>
    have h1 : keywordText (c :: w) = false := by
      rw [← Bool.not_eq_true]; intro h
      obtain ⟨p, hp, e⟩ : ∃ p ∈ keywords, p.1.toList = c :: w := by simpa [keywordText] using h
      exact hk p hp e
    have h2 : nameText (c :: w) = true := hn
    have h3 : punctText (c :: w) = false := by
      cases hk : punctText (c :: w) with
      | false => rfl
      | true => rw [(text_of_punct hk).1] at h2; simp at h2
    have h4 : literalText (c :: w) = false := by
      cases hk : literalText (c :: w) with
      | false => rfl
      | true => rw [(literal_text hk).2.2.2] at h2; simp at h2
    have h5 : triviaText (c :: w) = false := by
      cases hk : triviaText (c :: w) with
      | false => rfl
      | true => rw [(trivia_text hk).2.2.2] at h2; simp at h2
    simp only [ok, h1, h2, h3, h4, h5]; rfl
  | @space w hn hs =>
    cases w with
    | nil => exact absurd rfl hn
    | cons c v => exact ok_trivia (.inr rfl) (by simp [triviaText, hs c (by simp)])
  | lineComment => exact ok_trivia (.inl rfl) rfl
  | blockComment => exact ok_trivia (.inl rfl) rfl
  | @quoted d body hd _ => exact ok_literal (.inl rfl) (by rcases hd with rfl | rfl <;> simp [literalText])
  | @long n body =>
    refine ok_literal (.inl rfl) ?_
    cases n <;> simp [longOpen, literalText, List.replicate_succ]
  | number hd _ _ => exact ok_literal (.inr rfl) (by simp [literalText, hd])
  | hex _ => exact ok_literal (.inr rfl) (by simp [literalText])
  | tilde => decide +kernel

private theorem misspelled_ok {k : SyntaxKind} {w : Text} (h : Misspelled k w) : ok k w = true := by
  cases h with
  | @quoted d body hd _ => exact ok_literal (.inl rfl) (by rcases hd with rfl | rfl <;> simp [literalText])
  | @long w c hc => exact ok_literal (.inl rfl) (by rcases hc with rfl | rfl <;> simp [literalText])
  | @char c hn hd hs hq ho =>
    have h2 : nameText [c] = false := hn
    have h1 : keywordText [c] = false := by
      cases hk : keywordText [c] with
      | false => rfl
      | true => rw [(text_of_keyword hk).1] at h2; simp at h2
    have h3 : punctText [c] = false := by
      rw [← Bool.not_eq_true]; intro h
      obtain ⟨p, hp, e⟩ : ∃ p ∈ operators, p.1.toList = [c] := by simpa [punctText] using h
      exact ho p hp e
    have h4 : literalText [c] = false := by
      simp only [List.mem_cons, not_or] at hq
      simp [literalText, hd, hq]
    have h5 : triviaText [c] = false := by simp [triviaText, hs]
    simp only [ok, h1, h2, h3, h4, h5]; rfl

/-- **C112**: every token of every file is a keyword, an operator, a literal, trivia, a name or unknown, exactly one of
these, and which of them can be read off its text. -/
theorem C112_classes (text : Text) (tree : Green) (errors : List SyntaxError) (h : parseText text = .ok (tree, errors)) :
    ∀ l ∈ tree.leaves, Classified l.1 l.2 := by
  obtain ⟨ls, tree', errors', h1, h2, h3, -, h4, h5, h6, -⟩ := parseText_tree text
  rw [h] at h2
  simp only [Except.ok.injEq, Prod.mk.injEq] at h2
  obtain ⟨rfl, rfl⟩ := h2
  intro l hl
  rw [h4, List.mem_map] at hl
  obtain ⟨x, hx, rfl⟩ := hl
  have := lexemes_spelled h1 x hx
  refine of_ok ?_
  by_cases he : x.err = none
  · rw [if_pos he] at this; exact spelled_ok this
  · rw [if_neg he] at this; exact misspelled_ok this

/-- A keyword is recognised by `from_keyword` on its text. -/
theorem C112_keyword (text : Text) (tree : Green) (errors : List SyntaxError) (h : parseText text = .ok (tree, errors)) :
    ∀ l ∈ tree.leaves, l.1.isKeyword = true → SyntaxKind.fromKeyword l.2 = some l.1 := by
  obtain ⟨ls, tree', errors', h1, h2, h3, -, h4, h5, h6, -⟩ := parseText_tree text
  rw [h] at h2
  simp only [Except.ok.injEq, Prod.mk.injEq] at h2
  obtain ⟨rfl, rfl⟩ := h2
  intro l hl hk
  rw [h4, List.mem_map] at hl
  obtain ⟨x, hx, rfl⟩ := hl
  simp only [lxOf] at hk ⊢
  have hs := lexemes_spelled h1 x hx
  obtain ⟨kw, k, err⟩ := x
  simp only at hk hs ⊢
  have hall : ∀ p ∈ keywords ++ operators, p.2.isKeyword = true → SyntaxKind.fromKeyword p.1.toList = some p.2 := by
    decide +kernel
  by_cases he : err = none
  · rw [if_pos he] at hs
    cases hs with
    | fixed h => exact hall _ h hk
    | _ => exact absurd hk (by decide)
  · rw [if_neg he] at hs
    cases hs <;> exact absurd hk (by decide)

/-- The tokens of a small file with an error, and their classes. -/
example : (parseText "x=~'".toList).toOption.map (fun p : Green × List SyntaxError =>
      p.1.leaves.map fun l => (l.1.isKeyword, l.1.isPunct, l.1.isLiteral, l.1)) =
    some [(false, false, false, .ident), (false, true, false, .eq), (false, false, false, .unknown),
      (false, false, true, .str)] := by
  rw [parseText_eq_eval]; decide +kernel

end Verif
