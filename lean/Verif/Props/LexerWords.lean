import Verif.Props.LexerStrings

/-
C17-C20: words, operators, white space, numerals.
-/
namespace Verif
open Lexer Lua Accept

/-! ### character classes agree with the specification -/

theorem toNat_eq_val (c : Char) : c.toNat = c.val.toNat := rfl

theorem isNumber_eq (c : Char) : isNumber c = c.isDigit := by
  unfold isNumber Char.isDigit
  rw [Bool.eq_iff_iff]
  simp only [decide_eq_true_eq, Bool.and_eq_true, ge_iff_le, UInt32.le_iff_toNat_le, toNat_eq_val]
  exact Iff.rfl

theorem isIdentStart_eq (c : Char) : isIdentStart c = nameStart c := by
  unfold isIdentStart nameStart Char.isAlpha Char.isUpper Char.isLower
  congr 1
  rw [Bool.eq_iff_iff]
  simp only [decide_eq_true_eq, Bool.or_eq_true, Bool.and_eq_true, ge_iff_le, UInt32.le_iff_toNat_le,
    toNat_eq_val]
  exact Iff.rfl

theorem isIdentContinue_eq (c : Char) : isIdentContinue c = nameChar c := by
  unfold isIdentContinue nameChar Char.isAlphanum
  rw [isIdentStart_eq, isNumber_eq, nameStart]
  cases c.isAlpha <;> cases c.isDigit <;> cases (c == '_') <;> rfl

theorem char_eq_iff (c d : Char) : c = d ↔ c.toNat = d.toNat := by
  constructor
  · rintro rfl; rfl
  · intro h
    apply Char.ext
    apply UInt32.toNat_inj.mp
    exact h

theorem isWhitespace_iff (c : Char) : isWhitespace c = true ↔ c ∈ spaces := by
  unfold isWhitespace spaces
  simp only [decide_eq_true_eq, List.mem_cons, List.not_mem_nil, or_false, char_eq_iff]
  have h1 : (' ' : Char).toNat = 32 := rfl
  have h2 : ('\t' : Char).toNat = 9 := rfl
  have h3 : ('\n' : Char).toNat = 10 := rfl
  have h4 : ('\r' : Char).toNat = 13 := rfl
  have h5 : ('\x0c' : Char).toNat = 12 := rfl
  rw [h1, h2, h3, h4, h5]
  omega

theorem isHex_eq (c : Char) : isHex c = isHexDigit c := by
  unfold isHex isHexDigit
  rw [isNumber_eq]
  congr 1
  rw [Bool.eq_iff_iff]
  simp only [decide_eq_true_eq, List.mem_cons, List.not_mem_nil, or_false, char_eq_iff]
  simp only [show 'a'.toNat = 97 from rfl, show 'b'.toNat = 98 from rfl, show 'c'.toNat = 99 from rfl,
    show 'd'.toNat = 100 from rfl, show 'e'.toNat = 101 from rfl, show 'f'.toNat = 102 from rfl,
    show 'A'.toNat = 65 from rfl, show 'B'.toNat = 66 from rfl, show 'C'.toNat = 67 from rfl,
    show 'D'.toNat = 68 from rfl, show 'E'.toNat = 69 from rfl, show 'F'.toNat = 70 from rfl]
  omega

/-! ### reaching the last arms of `lex_main` -/

/-- The closed form on a character which no earlier arm matches. -/
theorem lexForm_last {c : Char} {cs : Text}
    (h1 : c ∉ ['=', '~', '[', '.', ':', '>', '<', '-', '\'', '"']) (h2 : singleKind c = none) :
    lexForm c cs = if isIdentStart c then
        (((SyntaxKind.fromKeyword ((c :: cs).takeWhile isIdentContinue)).getD .ident, none),
          cs.dropWhile isIdentContinue)
      else if isNumber c then ((.number, none), numberForm (c :: cs))
      else if isWhitespace c then ((.whitespace, none), cs.dropWhile isWhitespace)
      else ((.unknown, some "Got an unknown token"), cs) := by
  simp only [List.mem_cons, List.not_mem_nil, or_false, not_or] at h1
  obtain ⟨a1, a2, a3, a4, a5, a6, a7, a8, a9, a10⟩ := h1
  unfold lexForm
  rw [if_neg a1, if_neg a2, if_neg a3, if_neg a4, if_neg a5, if_neg a6, if_neg a7, if_neg a8,
    if_neg (by simp [a9, a10]), h2]

/-- Letters, digits and white space are not matched by the earlier arms. -/
theorem special_chars : ∀ c : Char, (isIdentStart c || isNumber c || isWhitespace c) = true →
    c ∉ ['=', '~', '[', '.', ':', '>', '<', '-', '\'', '"'] ∧ singleKind c = none := by
  intro c h
  have h2 : ∀ d ∈ ['=', '~', '[', '.', ':', '>', '<', '-', '\'', '"', '(', ')', '{', '}', ']', ',', ';',
      '#', '+', '*', '/', '%', '^', '!'], (isIdentStart d || isNumber d || isWhitespace d) = false := by
    decide
  have hne : ∀ d ∈ ['=', '~', '[', '.', ':', '>', '<', '-', '\'', '"', '(', ')', '{', '}', ']', ',', ';',
      '#', '+', '*', '/', '%', '^', '!'], c ≠ d := by
    intro d hd e
    rw [← e] at hd
    rw [h2 c hd] at h
    exact absurd h (by decide)
  constructor
  · intro hm
    exact hne c (by
      simp only [List.mem_cons, List.not_mem_nil, or_false] at hm ⊢
      rcases hm with h | h | h | h | h | h | h | h | h | h <;> simp [h]) rfl
  · have e : ∀ d ∈ ['=', '~', '[', '.', ':', '>', '<', '-', '\'', '"', '(', ')', '{', '}', ']', ',', ';',
      '#', '+', '*', '/', '%', '^', '!'], (c == d) = false := by
      intro d hd; simpa using hne d hd
    unfold singleKind
    simp only [e '(' (by decide), e ')' (by decide), e '{' (by decide), e '}' (by decide),
      e ']' (by decide), e ',' (by decide), e ';' (by decide), e '#' (by decide), e '+' (by decide),
      e '*' (by decide), e '/' (by decide), e '%' (by decide), e '^' (by decide), e '!' (by decide)]
    rfl

theorem takeWhile_split {p : Char → Bool} {w rest : Text} (hw : ∀ c ∈ w, p c = true)
    (hr : (rest.head?.map p).getD false = false) :
    (w ++ rest).takeWhile p = w ∧ (w ++ rest).dropWhile p = rest := by
  constructor
  · rw [List.takeWhile_append_of_pos hw]
    cases rest with
    | nil => simp
    | cons c cs => simp at hr; simp [hr]
  · rw [List.dropWhile_append_of_pos hw]
    cases rest with
    | nil => simp
    | cons c cs => simp at hr; simp [hr]

/-! ### C17 -/

/-- The kind of a word according to the keyword table. -/
def wordKind (w : Text) : SyntaxKind :=
  ((keywords.find? fun p => p.1.toList == w).map (·.2)).getD .ident

theorem fromKeyword_eq (w : Text) : (SyntaxKind.fromKeyword w).getD .ident = wordKind w := by
  by_cases h : w ∈ keywords.map (·.1.toList)
  · have : ∀ w ∈ keywords.map (·.1.toList), (SyntaxKind.fromKeyword w).getD .ident = wordKind w := by
      decide
    exact this w h
  · have h1 : wordKind w = .ident := by
      unfold wordKind
      rw [List.find?_eq_none.mpr]
      · rfl
      · intro p hp e
        simp at e
        exact h (by rw [← e]; exact List.mem_map_of_mem (f := fun p : String × SyntaxKind => p.1.toList) hp)
    rw [h1]
    have h2 : SyntaxKind.fromKeyword w = none := by
      have hne : ∀ k ∈ keywords.map (·.1.toList), w ≠ k := fun k hk e => h (e ▸ hk)
      unfold SyntaxKind.fromKeyword
      rw [if_neg (hne _ (by decide)), if_neg (hne _ (by decide)), if_neg (hne _ (by decide)),
        if_neg (hne _ (by decide)), if_neg (hne _ (by decide)), if_neg (hne _ (by decide)),
        if_neg (hne _ (by decide)), if_neg (hne _ (by decide)), if_neg (hne _ (by decide)),
        if_neg (hne _ (by decide)), if_neg (hne _ (by decide)), if_neg (hne _ (by decide)),
        if_neg (hne _ (by decide)), if_neg (hne _ (by decide)), if_neg (hne _ (by decide)),
        if_neg (hne _ (by decide)), if_neg (hne _ (by decide)), if_neg (hne _ (by decide)),
        if_neg (hne _ (by decide)), if_neg (hne _ (by decide)), if_neg (hne _ (by decide)),
        if_neg (hne _ (by decide))]
    rw [h2]; rfl

/-- C17: a word, maximal in the text, is one token; its kind is the keyword of that spelling if there is
one, and identifier otherwise. -/
theorem C17_words (c : Char) (cs rest : Text) (hc : nameStart c = true) (hcs : ∀ x ∈ cs, nameChar x = true)
    (hr : ∀ x xs, rest = x :: xs → nameChar x = false) :
    firstToken (c :: cs ++ rest) = .ok (some (⟨wordKind (c :: cs), Text.len (c :: cs)⟩, none)) := by
  rw [← isIdentStart_eq] at hc
  have hcs' : ∀ x ∈ cs, isIdentContinue x = true := fun x hx => by rw [isIdentContinue_eq]; exact hcs x hx
  have hr' : (rest.head?.map isIdentContinue).getD false = false := by
    cases rest with
    | nil => rfl
    | cons x xs => simp [isIdentContinue_eq, hr x xs rfl]
  have hsp := special_chars c (by simp [hc])
  have h1 := takeWhile_split hcs' hr'
  have h2 := takeWhile_split (w := c :: cs) (by
    intro x hx
    rcases List.mem_cons.mp hx with rfl | hx
    · exact identStart_continue hc
    · exact hcs' x hx) hr'
  have hf : lexForm c (cs ++ rest) = ((wordKind (c :: cs), none), rest) := by
    rw [lexForm_last hsp.1 hsp.2, if_pos hc, ← List.cons_append, h2.1, h1.2, fromKeyword_eq]
  exact firstToken_of_form hf rfl

example : firstToken "elseif_".toList = .ok (some (⟨.ident, 7⟩, none)) ∧
    firstToken "elseif x".toList = .ok (some (⟨.elseifKw, 6⟩, none)) :=
  ⟨C17_words 'e' "lseif_".toList [] (by decide) (by decide) (by simp),
   C17_words 'e' "lseif".toList " x".toList (by decide) (by decide) (by
    intro x xs h
    have : (' ' : Char) = x := by simpa using congrArg List.head? h
    subst this; decide)⟩

/-! ### C18 -/

/-- C18: at an operator, the token is the longest operator that is a prefix of the text (leaving aside
texts that start a comment or a long string). -/
theorem C18_longest_match (op : String) (k : SyntaxKind) (h : (op, k) ∈ operators) (rest : Text)
    (hmax : ∀ p ∈ operators, p.1.toList <+: (op.toList ++ rest) → p.1.toList.length ≤ op.toList.length)
    (hcomment : ¬ (['-', '-'] <+: op.toList ++ rest))
    (hlong : ¬ (['[', '['] <+: op.toList ++ rest) ∧ ¬ (['[', '='] <+: op.toList ++ rest)) :
    firstToken (op.toList ++ rest) = .ok (some (⟨k, Text.len op.toList⟩, none)) := by
  -- two-character operators: what the maximality says about the next character
  have nohead : ∀ (x : Char), (∃ p ∈ operators, p.1.toList = op.toList ++ [x]) → rest.head? ≠ some x := by
    rintro x ⟨p, hp, e⟩ hx
    cases rest with
    | nil => simp at hx
    | cons y ys =>
      simp at hx; subst hx
      have := hmax p hp (by rw [e]; exact ⟨ys, by simp⟩)
      rw [e] at this; simp at this; omega
  have htwo : ∀ (x : Char) (k2 k1 : SyntaxKind), rest.head? ≠ some x → two x k2 k1 rest = ((k1, none), rest) := by
    intro x k2 k1 hx
    cases rest with
    | nil => rfl
    | cons y ys => simp at hx; simp [two, hx]
  have hcase : ∃ c cs, op.toList = c :: cs ∧ lexForm c (cs ++ rest) = ((k, none), rest) := by
    simp only [operators, List.mem_cons, Prod.mk.injEq, List.not_mem_nil, or_false] at h
    rcases h with ⟨rfl, rfl⟩ | ⟨rfl, rfl⟩ | ⟨rfl, rfl⟩ | ⟨rfl, rfl⟩ | ⟨rfl, rfl⟩ | ⟨rfl, rfl⟩ | ⟨rfl, rfl⟩ |
      ⟨rfl, rfl⟩ | ⟨rfl, rfl⟩ | ⟨rfl, rfl⟩ | ⟨rfl, rfl⟩ | ⟨rfl, rfl⟩ | ⟨rfl, rfl⟩ | ⟨rfl, rfl⟩ | ⟨rfl, rfl⟩ |
      ⟨rfl, rfl⟩ | ⟨rfl, rfl⟩ | ⟨rfl, rfl⟩ | ⟨rfl, rfl⟩ | ⟨rfl, rfl⟩ | ⟨rfl, rfl⟩ | ⟨rfl, rfl⟩ | ⟨rfl, rfl⟩ |
      ⟨rfl, rfl⟩ | ⟨rfl, rfl⟩ | ⟨rfl, rfl⟩ | ⟨rfl, rfl⟩ | ⟨rfl, rfl⟩
    · exact ⟨'+', [], rfl, rfl⟩
    · refine ⟨'-', [], rfl, ?_⟩
      cases rest with
      | nil => rfl
      | cons y ys =>
        have hy : y ≠ '-' := by rintro rfl; exact hcomment ⟨ys, rfl⟩
        show (if y = '-' then _ else _) = _
        rw [if_neg hy]
    · exact ⟨'*', [], rfl, rfl⟩
    · exact ⟨'/', [], rfl, rfl⟩
    · exact ⟨'%', [], rfl, rfl⟩
    · exact ⟨'^', [], rfl, rfl⟩
    · exact ⟨'#', [], rfl, rfl⟩
    · exact ⟨'=', ['='], rfl, rfl⟩
    · exact ⟨'~', ['='], rfl, rfl⟩
    · exact ⟨'<', ['='], rfl, rfl⟩
    · exact ⟨'>', ['='], rfl, rfl⟩
    · exact ⟨'<', [], rfl, htwo '=' .ltEq .lt (nohead '=' ⟨("<=", .ltEq), by decide, rfl⟩)⟩
    · exact ⟨'>', [], rfl, htwo '=' .gtEq .gt (nohead '=' ⟨(">=", .gtEq), by decide, rfl⟩)⟩
    · exact ⟨'=', [], rfl, htwo '=' .eqEq .eq (nohead '=' ⟨("==", .eqEq), by decide, rfl⟩)⟩
    · exact ⟨'(', [], rfl, rfl⟩
    · exact ⟨')', [], rfl, rfl⟩
    · exact ⟨'{', [], rfl, rfl⟩
    · exact ⟨'}', [], rfl, rfl⟩
    · refine ⟨'[', [], rfl, ?_⟩
      have hh : ¬ (rest.head? = some '[' ∨ rest.head? = some '=') := by
        rintro (h | h)
        · cases rest with
          | nil => simp at h
          | cons y ys => simp at h; subst h; exact hlong.1 ⟨ys, rfl⟩
        · cases rest with
          | nil => simp at h
          | cons y ys => simp at h; subst h; exact hlong.2 ⟨ys, rfl⟩
      show (if rest.head? = some '[' ∨ rest.head? = some '=' then _ else _) = _
      rw [if_neg hh]; rfl
    · exact ⟨']', [], rfl, rfl⟩
    · exact ⟨':', [':'], rfl, rfl⟩
    · exact ⟨';', [], rfl, rfl⟩
    · exact ⟨':', [], rfl, htwo ':' .doubleColon .colon (nohead ':' ⟨("::", .doubleColon), by decide, rfl⟩)⟩
    · exact ⟨',', [], rfl, rfl⟩
    · refine ⟨'.', [], rfl, ?_⟩
      have hh := nohead '.' ⟨("..", .doubleDot), by decide, rfl⟩
      cases rest with
      | nil => rfl
      | cons y ys =>
        simp at hh
        show (if y = '.' then _ else _) = _
        rw [if_neg hh]
    · exact ⟨'.', ['.'], rfl, htwo '.' .tripleDot .doubleDot (nohead '.' ⟨("...", .tripleDot), by decide, rfl⟩)⟩
    · exact ⟨'.', ['.', '.'], rfl, rfl⟩
    · exact ⟨'!', [], rfl, rfl⟩
  obtain ⟨c, cs, e, hf⟩ := hcase
  rw [e]
  exact firstToken_of_form hf rfl

/-- Not vacuous: `..` in `..x` is the longest operator. -/
example : firstToken "..x".toList = .ok (some (⟨.doubleDot, 2⟩, none)) :=
  C18_longest_match ".." .doubleDot (by decide) ['x'] (by decide) (by decide) (by decide)

/-! ### C19 -/

/-- C19: a maximal run of white space is one token. -/
theorem C19_whitespace_run (w rest : Text) (hne : w ≠ []) (hw : ∀ c ∈ w, c ∈ spaces)
    (hr : ∀ x xs, rest = x :: xs → x ∉ spaces) :
    firstToken (w ++ rest) = .ok (some (⟨.whitespace, w.len⟩, none)) := by
  cases w with
  | nil => exact absurd rfl hne
  | cons c cs =>
    have hcs : ∀ x ∈ cs, isWhitespace x = true := fun x hx => (isWhitespace_iff x).mpr (hw x (by simp [hx]))
    have hr' : (rest.head?.map isWhitespace).getD false = false := by
      cases rest with
      | nil => rfl
      | cons x xs =>
        have := hr x xs rfl
        rw [← isWhitespace_iff] at this
        simpa using this
    have hc := hw c (by simp)
    have hc1 : isIdentStart c = false ∧ isNumber c = false := by
      have : ∀ c ∈ spaces, isIdentStart c = false ∧ isNumber c = false := by decide
      exact this c hc
    have hc2 := (isWhitespace_iff c).mpr hc
    have hsp := special_chars c (by simp [hc2])
    have hf : lexForm c (cs ++ rest) = ((.whitespace, none), rest) := by
      rw [lexForm_last hsp.1 hsp.2]
      simp [hc1, hc2, (takeWhile_split hcs hr').2]
    exact firstToken_of_form hf rfl

theorem fromKeyword_ne_white (w : Text) : (SyntaxKind.fromKeyword w).getD .ident ≠ .whitespace ∧
    (SyntaxKind.fromKeyword w).getD .ident ≠ .comment ∧ (SyntaxKind.fromKeyword w).getD .ident ≠ .eof := by
  rw [fromKeyword_eq]
  unfold wordKind
  cases h : keywords.find? fun p => p.1.toList == w with
  | none => decide
  | some p =>
    have := List.mem_of_find?_eq_some h
    have hall : ∀ p ∈ keywords, p.2 ≠ .whitespace ∧ p.2 ≠ .comment ∧ p.2 ≠ .eof := by decide
    exact hall p this

theorem singleKind_mem {c : Char} {k : SyntaxKind} (h : singleKind c = some k) :
    (c, k) ∈ [('(', SyntaxKind.lParen), (')', .rParen), ('{', .lBrace), ('}', .rBrace), (']', .rBracket),
      (',', .comma), (';', .semicolon), ('#', .hash), ('+', .plus), ('*', .asterisk), ('/', .slash),
      ('%', .modulo), ('^', .caret), ('!', .bang)] := by
  by_cases hm : c ∈ ['(', ')', '{', '}', ']', ',', ';', '#', '+', '*', '/', '%', '^', '!']
  · have hall : ∀ c ∈ ['(', ')', '{', '}', ']', ',', ';', '#', '+', '*', '/', '%', '^', '!'],
        (c, (singleKind c).getD .eof) ∈ [('(', SyntaxKind.lParen), (')', .rParen), ('{', .lBrace),
          ('}', .rBrace), (']', .rBracket), (',', .comma), (';', .semicolon), ('#', .hash), ('+', .plus),
          ('*', .asterisk), ('/', .slash), ('%', .modulo), ('^', .caret), ('!', .bang)] := by decide
    have := hall c hm
    rwa [h] at this
  · exfalso
    have e : ∀ d ∈ ['(', ')', '{', '}', ']', ',', ';', '#', '+', '*', '/', '%', '^', '!'],
        (c == d) = false := by
      intro d hd; simp only [beq_eq_false_iff_ne]; rintro rfl; exact hm hd
    unfold singleKind at h
    simp only [e '(' (by decide), e ')' (by decide), e '{' (by decide), e '}' (by decide),
      e ']' (by decide), e ',' (by decide), e ';' (by decide), e '#' (by decide), e '+' (by decide),
      e '*' (by decide), e '/' (by decide), e '%' (by decide), e '^' (by decide), e '!' (by decide)] at h
    exact absurd h (by simp)

/-- A first token has kind `whitespace` exactly if it starts with white space, and then it is the maximal
run; in particular no other token starts with white space. -/
theorem lexForm_white (c : Char) (cs : Text) :
    ((lexForm c cs).1.1 = .whitespace ↔ isWhitespace c = true) ∧
    ((lexForm c cs).1.1 = .whitespace → (lexForm c cs).2 = cs.dropWhile isWhitespace) := by
  have two1 : ∀ x k2 k1 cs, k2 ≠ SyntaxKind.whitespace → k1 ≠ SyntaxKind.whitespace →
      (two x k2 k1 cs).1.1 ≠ .whitespace := by
    intro x k2 k1 cs h2 h1
    cases cs with
    | nil => exact h1
    | cons y ys => simp only [two]; split <;> assumption
  refine lexForm_cases (P := fun c cs r => (r.1.1 = .whitespace ↔ isWhitespace c = true) ∧
    (r.1.1 = .whitespace → r.2 = cs.dropWhile isWhitespace)) ?_ ?_ ?_ ?_ ?_ ?_ ?_ ?_ ?_ ?_ ?_ ?_ ?_ ?_ ?_ ?_ ?_ c cs
  · intro cs; simp [two1, isWhitespace]
  · intro cs; simp [two1, isWhitespace]
  · intro c cs _; simp [isWhitespace]
  · intros; simp [isWhitespace]
  · intro cs; simp [two1, isWhitespace]
  · intros; simp [isWhitespace]
  · intro cs; simp [two1, isWhitespace]
  · intro cs; simp [two1, isWhitespace]
  · intro cs; simp [two1, isWhitespace]
  · intros; simp [isWhitespace]
  · intros; simp [isWhitespace]
  · intro c cs h; rcases h with rfl | rfl <;> simp [isWhitespace]
  · intro c cs k h
    have := singleKind_mem h
    have hall : ∀ p ∈ [('(', SyntaxKind.lParen), (')', .rParen), ('{', .lBrace), ('}', .rBrace), (']', .rBracket),
      (',', .comma), (';', .semicolon), ('#', .hash), ('+', .plus), ('*', .asterisk), ('/', .slash),
      ('%', .modulo), ('^', .caret), ('!', .bang)], p.2 ≠ .whitespace ∧ isWhitespace p.1 = false := by decide
    have h2 := hall _ this
    simp only at h2
    simp [h2]
  · intro c cs h
    have h1 := (fromKeyword_ne_white ((c :: cs).takeWhile isIdentContinue)).1
    have h2 : isWhitespace c = false := by
      cases hw : isWhitespace c with
      | false => rfl
      | true =>
        have : ∀ c ∈ spaces, isIdentStart c = false := by decide
        rw [this c ((isWhitespace_iff c).mp hw)] at h
        exact absurd h (by decide)
    simp [h1, h2]
  · intro c cs h
    have h2 : isWhitespace c = false := by
      cases hw : isWhitespace c with
      | false => rfl
      | true =>
        have : ∀ c ∈ spaces, isNumber c = false := by decide
        rw [this c ((isWhitespace_iff c).mp hw)] at h
        exact absurd h (by decide)
    simp [h2]
  · intro c cs h; simp [h]
  · intro c cs _ _ _ h _; simp [h]

/-- C19, over whole texts: the words of `tokenize` with kind `whitespace` are exactly those that start
with an ASCII white space character; such a word consists of white space only and the next word does not
start with white space. -/
theorem C19_whitespace_tokens (text : Text) :
    ∃ tokens errors, ∃ words : List Text, tokenize text = .ok (tokens, errors) ∧
      words.flatten = text ∧ tokens.map (·.len) = words.map Text.len ∧
      (∀ i (h : i < tokens.length) (h' : i < words.length), tokens[i].kind = .whitespace ↔
        ∃ c cs, words[i] = c :: cs ∧ c ∈ spaces) ∧
      (∀ i (h : i < tokens.length) (h' : i < words.length), tokens[i].kind = .whitespace →
        (∀ c ∈ words[i], c ∈ spaces) ∧
        ∀ (h2 : i + 1 < words.length), ∀ c cs, words[i + 1] = c :: cs → c ∉ spaces) := by
  obtain ⟨ls, h⟩ := lexemes_exists text
  refine ⟨_, _, ls.map (·.word), tokenize_eq h, h.flatten, ?_, ?_, ?_⟩
  · rw [attach_tokens]; simp
  · simp only [attach_tokens, List.length_map, List.getElem_map]
    induction h with
    | nil => intro i hi; simp at hi
    | @cons s l rest ls h1 h2 ih =>
      intro i hi _
      cases i with
      | succ i => simpa using ih i (by simpa using hi) (by simpa using hi)
      | zero =>
        cases h1 with
        | @mk c cs w k e rest h3 h4 =>
          simp only [List.getElem_cons_zero]
          have := (lexForm_white c cs).1
          rw [h3] at this
          rw [this, isWhitespace_iff]
          have hne := (FirstLexeme.mk h3 h4).word_ne
          cases w with
          | nil => exact absurd rfl hne
          | cons x xs =>
            simp at h4
            constructor
            · intro hc; exact ⟨x, xs, rfl, h4.1 ▸ hc⟩
            · rintro ⟨c', cs', e, hc⟩; simp at e; rw [h4.1, e.1]; exact hc
  · simp only [attach_tokens, List.length_map, List.getElem_map]
    induction h with
    | nil => intro i hi; simp at hi
    | @cons s l rest ls h1 h2 ih =>
      intro i hi _ hk
      cases i with
      | succ i => simpa using ih i (by simpa using hi) (by simpa using hi) (by simpa using hk)
      | zero =>
        cases h1 with
        | @mk c cs w k e rest h3 h4 =>
          simp only [List.getElem_cons_zero] at hk ⊢
          have hw := lexForm_white c cs
          rw [h3] at hw
          have hc := hw.1.mp hk
          have hrest := hw.2 hk
          simp only at hrest
          have hword : w = c :: cs.takeWhile isWhitespace := by
            have e : w ++ rest = (c :: cs.takeWhile isWhitespace) ++ rest := by
              rw [← h4, hrest, List.cons_append, List.takeWhile_append_dropWhile]
            exact List.append_cancel_right e
          refine ⟨?_, ?_⟩
          · intro x hx
            rw [hword] at hx
            rcases List.mem_cons.mp hx with rfl | hx
            · exact (isWhitespace_iff _).mp hc
            · have := (List.all_eq_true.mp (List.all_takeWhile (p := isWhitespace) (l := cs))) x hx
              exact (isWhitespace_iff x).mp this
          · intro hlt x xs hx
            simp only [List.getElem_cons_succ] at hx
            have hr : ∃ ys, rest = x :: ys := by
              cases h2 with
              | nil => simp at hlt
              | cons h5 h6 =>
                simp only [List.getElem_cons_zero] at hx
                have := h5.append
                rw [hx] at this
                exact ⟨_, this⟩
            obtain ⟨ys, hr⟩ := hr
            have := List.head?_dropWhile_not isWhitespace cs
            rw [← hrest, hr] at this
            simp at this
            intro hm
            rw [(isWhitespace_iff x).mpr hm] at this
            exact absurd this (by decide)

/-! ### C20 -/

theorem skipFrac_other {rest : Text} (h : rest.head? ≠ some '.') : skipFrac rest = rest := by
  cases rest with
  | nil => rfl
  | cons c cs => simp at h; simp [skipFrac, h]

theorem skipExp_other {rest : Text} (h : rest.head? ≠ some 'e' ∧ rest.head? ≠ some 'E') : skipExp rest = rest := by
  cases rest with
  | nil => rfl
  | cons c cs => simp at h; simp [skipExp, h]

/-- A numeral's exponent without a `+` sign. -/
def NoPlus (e : Text) : Prop := '+' ∉ e

theorem skipExp_exponent {e rest : Text} (he : Exponent e) (hp : NoPlus e)
    (hr : ∀ x xs, rest = x :: xs → nameChar x = false ∧ x ≠ '.') : skipExp (e ++ rest) = rest := by
  have hd : (rest.head?.map isNumber).getD false = false := by
    cases rest with
    | nil => rfl
    | cons x xs =>
      have := (hr x xs rfl).1
      rw [← isIdentContinue_eq] at this
      simp [isIdentContinue] at this
      simp [this]
  cases he with
  | none =>
    refine skipExp_other ?_
    cases rest with
    | nil => simp
    | cons x xs =>
      have := (hr x xs rfl).1
      constructor
      · intro h; simp at h; subst h; exact absurd this (by decide)
      · intro h; simp at h; subst h; exact absurd this (by decide)
  | @some c sign ds hc hs hds hall =>
    have hall' : ∀ d ∈ ds, isNumber d = true := fun d hd => by rw [isNumber_eq]; exact hall d hd
    simp only [List.cons_append, skipExp]
    rw [if_pos hc]
    rcases hs with rfl | rfl | rfl
    · have : skipOpt (· == '-') (ds ++ rest) = ds ++ rest := by
        cases ds with
        | nil => exact absurd rfl hds
        | cons d ds =>
          have hdn : d ≠ '-' := by
            rintro rfl
            exact absurd (hall' '-' (by simp)) (by decide)
          simp [skipOpt, acceptSpec, hdn]
      simp only [List.nil_append, this]
      exact (takeWhile_split hall' hd).2
    · have : skipOpt (· == '-') ('-' :: (ds ++ rest)) = ds ++ rest := by simp [skipOpt, acceptSpec]
      simp only [List.cons_append, List.nil_append, this]
      exact (takeWhile_split hall' hd).2
    · exact absurd (by simp) hp

/-- C20.  Partial: decimal numerals must start with a digit and not use a `+` sign in the exponent, and
hexadecimal ones must use a small `x`. -/
theorem C20_numeral_partial (w rest : Text) (h : Numeral w) (hdot : w.head? ≠ some '.')
    (hplus : NoPlus w) (hX : ∀ t, w ≠ '0' :: 'X' :: t)
    (hr : ∀ x xs, rest = x :: xs → nameChar x = false ∧ x ≠ '.') :
    firstToken (w ++ rest) = .ok (some (⟨.number, w.len⟩, none)) := by
  have hrn : (rest.head?.map isNumber).getD false = false := by
    cases rest with
    | nil => rfl
    | cons x xs =>
      have := (hr x xs rfl).1
      rw [← isIdentContinue_eq] at this
      simp [isIdentContinue] at this
      simp [this]
  have hrh : (rest.head?.map isHex).getD false = false := by
    cases rest with
    | nil => rfl
    | cons x xs =>
      have := (hr x xs rfl).1
      rw [← isIdentContinue_eq] at this
      cases hh : isHex x with
      | false => simp [hh]
      | true =>
        exfalso
        simp only [isIdentContinue, Bool.or_eq_false_iff] at this
        simp only [isHex, this.2, Bool.false_or, decide_eq_true_eq] at hh
        have h3 : isIdentStart x = true := by
          simp only [isIdentStart, Bool.or_eq_true, decide_eq_true_eq]
          left; omega
        rw [h3] at this
        exact absurd this.1 (by decide)
  have main : ∀ c cs, w = c :: cs → isNumber c = true → numberForm (w ++ rest) = rest →
      firstToken (w ++ rest) = .ok (some (⟨.number, w.len⟩, none)) := by
    rintro c cs rfl hc hn
    have hsp := special_chars c (by simp [hc])
    have hi : isIdentStart c = false := by
      cases hi : isIdentStart c with
      | false => rfl
      | true =>
        exfalso
        simp only [isNumber, decide_eq_true_eq] at hc
        simp only [isIdentStart, Bool.or_eq_true, decide_eq_true_eq, beq_iff_eq] at hi
        rcases hi with hi | rfl
        · omega
        · revert hc; decide
    have hf : lexForm c (cs ++ rest) = ((.number, none), rest) := by
      rw [lexForm_last hsp.1 hsp.2, hi, if_neg (by decide), if_pos hc, ← List.cons_append, hn]
    exact firstToken_of_form hf rfl
  cases h with
  | @decimal ds frac e hds hall hfrac he =>
    have hall' : ∀ d ∈ ds, isNumber d = true := fun d hd => by rw [isNumber_eq]; exact hall d hd
    have hpe : NoPlus e := fun hm => hplus (by simp [hm])
    obtain ⟨c, cs, rfl⟩ : ∃ c cs, ds = c :: cs := by
      cases ds with
      | nil => exact absurd rfl hds
      | cons c cs => exact ⟨c, cs, rfl⟩
    refine main c (cs ++ frac ++ e) (by simp) (hall' c (by simp)) ?_
    have hehead : ∀ t, (e ++ rest).head? = some t → isNumber t = false ∧ t ≠ '.' ∧ t ≠ 'x' := by
      intro t ht
      cases he with
      | none =>
        cases rest with
        | nil => simp at ht
        | cons x xs =>
          simp at ht; subst ht
          have := (hr x xs rfl)
          refine ⟨by simpa using hrn, this.2, ?_⟩
          rintro rfl; exact absurd this.1 (by decide)
      | some hc _ _ _ =>
        simp at ht; subst ht
        rcases hc with rfl | rfl <;> decide
    have hnum : ∀ (u : Text), (∀ t, u.head? = some t → isNumber t = false) →
        (u.head?.map isNumber).getD false = false := by
      intro u hu
      cases u with
      | nil => rfl
      | cons x xs => simp [hu x rfl]
    -- not hexadecimal
    have hnx : numberForm (c :: cs ++ frac ++ e ++ rest)
        = skipExp (skipFrac ((c :: cs ++ frac ++ e ++ rest).dropWhile isNumber)) := by
      unfold numberForm
      split
      · rename_i t heq
        exfalso
        simp only [List.cons_append, List.cons.injEq] at heq
        obtain ⟨rfl, heq⟩ := heq
        cases cs with
        | cons d ds =>
          simp only [List.cons_append, List.cons.injEq] at heq
          have := hall' d (by simp)
          rw [heq.1] at this
          exact absurd this (by decide)
        | nil =>
          simp only [List.nil_append] at heq
          rcases hfrac with rfl | ⟨fs, rfl, _⟩
          · simp only [List.nil_append] at heq
            exact (hehead 'x' (by rw [heq]; rfl)).2.2 rfl
          · simp at heq
      · rfl
    rw [hnx]
    rcases hfrac with rfl | ⟨fs, rfl, hfs⟩
    · rw [List.append_nil, List.append_assoc,
        (takeWhile_split hall' (hnum _ fun t ht => (hehead t ht).1)).2, skipFrac_other]
      · exact skipExp_exponent he hpe hr
      · intro h; exact (hehead '.' h).2.1 rfl
    · have hfs' : ∀ d ∈ fs, isNumber d = true := fun d hd => by rw [isNumber_eq]; exact hfs d hd
      rw [List.append_assoc, List.append_assoc, (takeWhile_split hall' (by simp; decide)).2]
      simp only [List.cons_append, skipFrac, if_true]
      rw [(takeWhile_split hfs' (hnum _ fun t ht => (hehead t ht).1)).2]
      exact skipExp_exponent he hpe hr
  | fraction => simp at hdot
  | @hex x ds hx hds hall =>
    rcases hx with rfl | rfl
    · have hall' : ∀ d ∈ ds, isHex d = true := fun d hd => by rw [isHex_eq]; exact hall d hd
      refine main '0' ('x' :: ds) rfl (by decide) ?_
      show (ds ++ rest).dropWhile isHex = rest
      exact (takeWhile_split hall' hrh).2
    · exact absurd rfl (hX ds)

/-- The hypotheses are met by `12.5e-3`. -/
example : Numeral "12.5e-3".toList :=
  .decimal (ds := ['1', '2']) (frac := ['.', '5']) (e := ['e', '-', '3']) (by decide) (by decide)
    (.inr ⟨['5'], rfl, by decide⟩) (.some (.inl rfl) (sign := ['-']) (ds := ['3']) (.inr (.inl rfl)) (by decide) (by decide))

/-- C20 fails for each of the excluded forms: `1e+5`, `.5` and `0XF` are cut short. -/
theorem C20_numeral_fails :
    (Numeral ['1', 'e', '+', '5'] ∧ firstToken ['1', 'e', '+', '5'] = .ok (some (⟨.number, 2⟩, none))) ∧
    (Numeral ['.', '5'] ∧ firstToken ['.', '5'] = .ok (some (⟨.dot, 1⟩, none))) ∧
    (Numeral ['0', 'X', 'F'] ∧ firstToken ['0', 'X', 'F'] = .ok (some (⟨.number, 1⟩, none))) := by
  refine ⟨⟨?_, by rfl⟩, ⟨?_, by rfl⟩, ⟨?_, by rfl⟩⟩
  · exact .decimal (ds := ['1']) (frac := []) (e := ['e', '+', '5']) (by decide) (by decide) (.inl rfl)
      (.some (.inl rfl) (sign := ['+']) (ds := ['5']) (.inr (.inr rfl)) (by decide) (by decide))
  · exact .fraction (ds := ['5']) (e := []) (by decide) (by decide) .none
  · exact .hex (x := 'X') (ds := ['F']) (.inr rfl) (by decide) (by decide)

end Verif
