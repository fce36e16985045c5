import Verif.Spec.Spelling
import Verif.Props.LexerRelex
import Verif.Props.LexerWords
import Verif.Proof.ValidationProof

/-
C75: the kind of a token tells how it is written.
-/
namespace Verif
open Spec Lua Lexer Accept

private theorem mem_takeWhile {p : Char → Bool} {s : Text} {c : Char} (h : c ∈ s.takeWhile p) : p c = true :=
  List.all_eq_true.1 List.all_takeWhile c h

private theorem takeDrop {p : Char → Bool} {s : Text} : s = s.takeWhile p ++ s.dropWhile p ∧ ∀ c ∈ s.takeWhile p, p c = true :=
  ⟨List.takeWhile_append_dropWhile.symm, fun _ h => mem_takeWhile h⟩

private theorem all_of_dropWhile {p : Char → Bool} {s : Text} (h : s.dropWhile p = []) : ∀ c ∈ s, p c = true := by
  have h1 := takeDrop (p := p) (s := s)
  rw [h, List.append_nil] at h1
  rw [h1.1]; exact h1.2

private theorem skipExp_nil {s : Text} (h : skipExp s = []) : s = [] ∨ ∃ c sign ds, s = c :: (sign ++ ds) ∧
    (c = 'e' ∨ c = 'E') ∧ (sign = [] ∨ sign = ['-']) ∧ ∀ d ∈ ds, d.isDigit = true := by
  cases s with
  | nil => exact .inl rfl
  | cons c cs =>
    simp only [skipExp] at h
    split at h
    · rename_i hc
      refine .inr ?_
      have hd := all_of_dropWhile h
      simp only [isNumber_eq] at hd
      rcases cs with _ | ⟨x, xs⟩
      · exact ⟨c, [], [], rfl, hc, .inl rfl, by simp⟩
      · by_cases hx : x = '-'
        · subst hx
          simp [skipOpt, acceptSpec] at hd
          exact ⟨c, ['-'], xs, rfl, hc, .inr rfl, hd⟩
        · simp [skipOpt, acceptSpec, hx] at hd
          exact ⟨c, [], x :: xs, rfl, hc, .inl rfl, by simpa using hd⟩
    · simp at h

private theorem numberTail {s : Text} (h : skipExp (skipFrac s) = []) : NumberTail s := by
  cases s with
  | nil => exact .mk (frac := []) (e := []) (.inl rfl) (.inl rfl)
  | cons c cs =>
    simp only [skipFrac] at h
    split at h
    · rename_i hc
      subst hc
      have hs := takeDrop (p := isNumber) (s := cs)
      rw [hs.1, show '.' :: (cs.takeWhile isNumber ++ cs.dropWhile isNumber)
        = ('.' :: cs.takeWhile isNumber) ++ cs.dropWhile isNumber from rfl]
      exact .mk (.inr ⟨_, rfl, by simpa only [isNumber_eq] using hs.2⟩) (skipExp_nil h)
    · exact .mk (frac := []) (.inl rfl) (skipExp_nil h)

private theorem spelled_number {c : Char} {w : Text} (hc : isNumber c = true) (h : numberForm (c :: w) = []) :
    Spelled .number (c :: w) := by
  unfold numberForm at h
  split at h
  · rename_i cs e
    simp only [List.cons.injEq] at e
    obtain ⟨rfl, rfl⟩ := e
    have := all_of_dropWhile h
    simp only [isHex_eq] at this
    exact .hex this
  · rw [List.dropWhile_cons, if_pos hc] at h
    have hs := takeDrop (p := isNumber) (s := w)
    rw [hs.1]
    rw [isNumber_eq] at hc
    exact .number hc (by simpa only [isNumber_eq] using hs.2) (numberTail h)

private theorem spelled_two {x : Char} {k2 k1 : SyntaxKind} {w : Text} {e : Option String} {k : SyntaxKind}
    (h : two x k2 k1 w = ((k, e), [])) : e = none ∧ ((w = [] ∧ k = k1) ∨ (w = [x] ∧ k = k2)) := by
  cases w with
  | nil => simp [two] at h; simp [h]
  | cons y ys =>
    simp only [two] at h
    split at h
    · simp at h; simp [*]
    · simp at h

private theorem stringForm_nil (d : Char) (hd : d = '\'' ∨ d = '"') (s : Text) : (stringForm d s).2 = [] →
    ((stringForm d s).1 = none → ∃ body, s = body ++ [d] ∧ '\n' ∉ body) ∧ '\n' ∉ s := by
  fun_induction stringForm d s with
  | case1 => simp
  | case2 => simp
  | case3 => simp
  | case4 cs h1 h2 =>
    intro h
    simp only at h
    subst h
    exact ⟨fun _ => ⟨[], rfl, by simp⟩, by simpa using Ne.symm h2⟩
  | case5 cs h1 h2 h3 => simp [stringForm]
  | case6 h1 h2 h3 xs ih =>
    intro h
    obtain ⟨ih1, ih2⟩ := ih h
    have hn : '\n' ≠ d := by rcases hd with rfl | rfl <;> decide
    refine ⟨fun e => ?_, by simp [ih2, hn]⟩
    obtain ⟨body, rfl, hb⟩ := ih1 e
    exact ⟨'\\' :: d :: body, rfl, by simp [hb, hn]⟩
  | case7 h1 h2 h3 x xs hx ih =>
    intro h
    obtain ⟨ih1, ih2⟩ := ih h
    refine ⟨fun e => ?_, by simpa using ih2⟩
    obtain ⟨body, e, hb⟩ := ih1 e
    exact ⟨'\\' :: body, by rw [e]; rfl, by simp [hb]⟩
  | case8 c cs h1 h2 h3 h4 ih =>
    intro h
    obtain ⟨ih1, ih2⟩ := ih h
    refine ⟨fun e => ?_, by simp [ih2, Ne.symm h2]⟩
    obtain ⟨body, rfl, hb⟩ := ih1 e
    exact ⟨c :: body, rfl, by simp [hb, Ne.symm h2]⟩

private theorem takeWhile_eq (cs : Text) : cs.takeWhile (· == '=') = List.replicate (cs.takeWhile (· == '=')).length '=' := by
  rw [List.eq_replicate_iff]
  exact ⟨rfl, fun b hb => by simpa using mem_takeWhile hb⟩

private theorem findClose_split (n : Nat) (s : Text) : ∀ r, findClose n s = some r →
    ∃ p, s = p ++ ']' :: (List.replicate n '=' ++ r) := by
  fun_induction findClose n s with
  | case1 s cs h1 h2 =>
    intro r h
    simp only [Option.some.injEq] at h
    obtain ⟨p, hp⟩ := skipClose_suffix s
    refine ⟨p, ?_⟩
    rw [← hp, h1, ← h, ← h2, ← takeWhile_eq, List.takeWhile_append_dropWhile]
  | case2 s cs h1 h2 ih =>
    intro r h
    obtain ⟨q, hq⟩ := ih r h
    obtain ⟨p, hp⟩ := skipClose_suffix s
    refine ⟨p ++ ']' :: (cs.takeWhile (· == '=') ++ q), ?_⟩
    rw [← hp, h1]
    simp only [List.append_assoc, List.cons_append]
    rw [← hq, List.takeWhile_append_dropWhile]
  | case3 => simp

private theorem spelled_long {cs : Text} (h1 : (bracketForm cs).1 = none) (h2 : (bracketForm cs).2 = []) :
    Spelled .str ('[' :: cs) := by
  simp only [bracketForm] at h1 h2
  generalize hn : (cs.takeWhile (· == '=')).length = n at h1 h2
  have hcs : cs = List.replicate n '=' ++ cs.dropWhile (· == '=') := by
    rw [← hn, ← takeWhile_eq, List.takeWhile_append_dropWhile]
  generalize cs.dropWhile (· == '=') = s at h1 h2 hcs
  simp only [closeForm] at h1 h2
  cases hf : findClose n (acceptSpec (· == '[') s).2 with
  | none => rw [hf] at h1; simp at h1
  | some r =>
    simp only [hf] at h1 h2
    obtain ⟨p, hp⟩ := findClose_split n _ r hf
    rcases s with _ | ⟨x, xs⟩
    · simp [acceptSpec] at h1
    by_cases hx : x = '['
    · subst hx
      simp only [acceptSpec, beq_self_eq_true, if_true] at hp h1
      rcases r with _ | ⟨y, ys⟩
      · simp [acceptSpec] at h1
      by_cases hy : y = ']'
      · subst hy
        simp [acceptSpec] at h2
        subst h2
        rw [hcs, hp]
        have := @Spelled.long n p
        simpa [longOpen, longClose] using this
      · simp [acceptSpec, hy] at h1
    · simp [acceptSpec, hx] at h1

/-- A word that is one token is written as its kind says. -/
theorem lexForm_spelled (c : Char) (w : Text) (k : SyntaxKind) (e : Option String) (h : lexForm c w = ((k, e), [])) :
    if e = none then Spelled k (c :: w) else Misspelled k (c :: w) := by
  have op : ∀ {s : String} {k : SyntaxKind}, (s, k) ∈ operators → Spelled k s.toList :=
    fun h => .fixed (List.mem_append_right _ h)
  revert h
  refine lexForm_cases (P := fun c w r => r = ((k, e), []) → if e = none then Spelled k (c :: w) else Misspelled k (c :: w))
    ?_ ?_ ?_ ?_ ?_ ?_ ?_ ?_ ?_ ?_ ?_ ?_ ?_ ?_ ?_ ?_ ?_ c w
  · intro cs h
    obtain ⟨rfl, ⟨rfl, rfl⟩ | ⟨rfl, rfl⟩⟩ := spelled_two h
    · exact op (s := "=") (by decide)
    · exact op (s := "==") (by decide)
  · intro cs h
    obtain ⟨rfl, ⟨rfl, rfl⟩ | ⟨rfl, rfl⟩⟩ := spelled_two h
    · exact .tilde
    · exact op (s := "~=") (by decide)
  · intro c cs hc h
    simp only [Prod.mk.injEq] at h
    obtain ⟨⟨rfl, h1⟩, h2⟩ := h
    split
    · rename_i he
      exact spelled_long (h1.trans he) h2
    · exact .long hc
  · intro cs _ _ h
    simp only [Prod.mk.injEq] at h
    obtain ⟨⟨rfl, rfl⟩, rfl⟩ := h
    exact op (s := "[") (by decide)
  · intro cs h
    obtain ⟨rfl, ⟨rfl, rfl⟩ | ⟨rfl, rfl⟩⟩ := spelled_two h
    · exact op (s := "..") (by decide)
    · exact op (s := "...") (by decide)
  · intro cs _ h
    simp only [Prod.mk.injEq] at h
    obtain ⟨⟨rfl, rfl⟩, rfl⟩ := h
    exact op (s := ".") (by decide)
  · intro cs h
    obtain ⟨rfl, ⟨rfl, rfl⟩ | ⟨rfl, rfl⟩⟩ := spelled_two h
    · exact op (s := ":") (by decide)
    · exact op (s := "::") (by decide)
  · intro cs h
    obtain ⟨rfl, ⟨rfl, rfl⟩ | ⟨rfl, rfl⟩⟩ := spelled_two h
    · exact op (s := ">") (by decide)
    · exact op (s := ">=") (by decide)
  · intro cs h
    obtain ⟨rfl, ⟨rfl, rfl⟩ | ⟨rfl, rfl⟩⟩ := spelled_two h
    · exact op (s := "<") (by decide)
    · exact op (s := "<=") (by decide)
  · intro cs h
    simp only [Prod.mk.injEq] at h
    obtain ⟨⟨rfl, rfl⟩, h⟩ := h
    have noNl : ∀ t : Text, t.dropWhile (fun c => !(c == '\n')) = [] → '\n' ∉ t := by
      intro t ht hm
      have := all_of_dropWhile ht _ hm
      simp at this
    simp only [if_true]
    unfold commentForm at h
    split at h
    · exact .blockComment
    · exact .lineComment (by simpa using noNl _ h)
    · exact .lineComment (noNl _ h)
  · intro cs _ h
    simp only [Prod.mk.injEq] at h
    obtain ⟨⟨rfl, rfl⟩, rfl⟩ := h
    exact op (s := "-") (by decide)
  · intro c cs hc h
    simp only [Prod.mk.injEq] at h
    obtain ⟨⟨rfl, h1⟩, h2⟩ := h
    obtain ⟨h3, h4⟩ := stringForm_nil c hc cs h2
    split
    · rename_i he
      obtain ⟨body, rfl, hb⟩ := h3 (h1.trans he)
      exact .quoted hc hb
    · exact .quoted hc h4
  · intro c cs k' hk h
    simp only [Prod.mk.injEq] at h
    obtain ⟨⟨rfl, rfl⟩, rfl⟩ := h
    have hs : (singleKind c).isSome = true := by rw [hk]; rfl
    have hc : c ∈ ['(', ')', '{', '}', ']', ',', ';', '#', '+', '*', '/', '%', '^', '!'] := by
      apply Classical.byContradiction
      intro hn
      simp only [List.mem_cons, List.not_mem_nil, or_false, not_or] at hn
      simp [singleKind, hn] at hs
    have hd : ∀ c ∈ ['(', ')', '{', '}', ']', ',', ';', '#', '+', '*', '/', '%', '^', '!'],
        ∃ p ∈ operators, p.1.toList = [c] ∧ singleKind c = some p.2 := by decide
    obtain ⟨⟨s, k⟩, h1, h2, h3⟩ := hd c hc
    rw [hk] at h3
    simp at h3 h2
    rw [if_pos rfl, ← h2, h3]
    exact op h1
  · intro c cs hc h
    simp only [Prod.mk.injEq] at h
    obtain ⟨⟨h1, rfl⟩, h2⟩ := h
    have hall := all_of_dropWhile h2
    have hcc : isIdentContinue c = true := by simp [isIdentContinue, hc]
    have htw : (c :: cs).takeWhile isIdentContinue = c :: cs := by
      have := takeDrop (p := isIdentContinue) (s := c :: cs)
      rw [List.dropWhile_cons, if_pos hcc, h2, List.append_nil] at this
      exact this.1.symm
    rw [htw, fromKeyword_eq] at h1
    rw [if_pos rfl]
    unfold wordKind at h1
    cases hf : keywords.find? fun p => p.1.toList == c :: cs with
    | none =>
      rw [hf] at h1
      simp at h1
      subst h1
      refine .name (by rw [← isIdentStart_eq]; exact hc) (fun x hx => by rw [← isIdentContinue_eq]; exact hall x hx) ?_
      intro p hp
      have := List.find?_eq_none.1 hf p hp
      simpa using this
    | some p =>
      rw [hf] at h1
      simp at h1
      have h3 := List.find?_some hf
      have h4 := List.mem_of_find?_eq_some hf
      simp at h3
      rw [← h3, ← h1]
      exact .fixed (List.mem_append_left _ h4)
  · intro c cs hc h
    simp only [Prod.mk.injEq] at h
    obtain ⟨⟨rfl, rfl⟩, h2⟩ := h
    exact spelled_number hc h2
  · intro c cs hc h
    simp only [Prod.mk.injEq] at h
    obtain ⟨⟨rfl, rfl⟩, h2⟩ := h
    rw [if_pos rfl]
    refine .space (by simp) ?_
    intro x hx
    rcases List.mem_cons.1 hx with rfl | hx
    · exact (isWhitespace_iff _).1 hc
    · exact (isWhitespace_iff _).1 (all_of_dropWhile h2 _ hx)
  · intro c cs h1 h2 h3 h4 h5 h
    simp only [Prod.mk.injEq] at h
    obtain ⟨⟨rfl, rfl⟩, rfl⟩ := h
    refine .char (by rw [← isIdentStart_eq]; exact h2) (by rw [← isNumber_eq]; exact h3)
      (fun hm => by rw [(isWhitespace_iff _).2 hm] at h4; simp at h4) (fun hm => h5 (by
        revert hm; simp only [List.mem_cons, List.not_mem_nil, or_false]; rintro (h | h | h) <;> simp [h])) ?_
    intro p hp e
    have hall : ∀ p ∈ operators, ∀ c : Char, p.1.toList = [c] → c ∈ ['=', '~', '[', '.', ':', '>', '<', '-', '\'', '"'] ∨
        (singleKind c).isSome = true := by
      intro p hp c e
      have hd : ∀ p ∈ operators, p.1.toList.length = 1 → ∀ c ∈ p.1.toList,
          c ∈ ['=', '~', '[', '.', ':', '>', '<', '-', '\'', '"'] ∨ (singleKind c).isSome = true := by decide
      exact hd p hp (by rw [e]; rfl) c (by rw [e]; simp)
    rcases hall p hp c e with h | h
    · exact h5 h
    · rw [h1] at h; simp at h

/-- The lexemes of a text, each written as its kind says. -/
theorem lexemes_spelled {s : Text} {ls : List Lexeme} (h : Lexemes s ls) :
    ∀ l ∈ ls, if l.err = none then Spelled l.kind l.word else Misspelled l.kind l.word := by
  induction h with
  | nil => simp
  | cons h _ ih =>
    intro l hl
    rcases List.mem_cons.1 hl with rfl | hl
    · cases h with
      | @mk c cs w k e rest h1 h2 =>
        cases w with
        | nil =>
          have := (lexForm_suffix c cs).length_le
          rw [h1] at this
          simp at h2
          rw [← h2] at this
          simp at this
          omega
        | cons d w =>
          simp at h2
          obtain ⟨rfl, rfl⟩ := h2
          obtain ⟨e', h3, h4⟩ := lexForm_trunc c w _ (by rw [h1])
          rw [h1] at h3 h4
          simp only at h3 h4
          have := lexForm_spelled c w k e' h3
          simp only
          cases e <;> cases e' <;> simp at h4 <;> simpa using this
    · exact ih l hl

private theorem attach_err (pos : Nat) (ls : List Lexeme) (i : Nat) (l : Lexeme) (hl : ls[i]? = some l) :
    ∃ r, (tokenRanges pos ((attach pos ls).map (·.1)))[i]? = some r ∧
      ∀ m, l.err = some m → (⟨m, r⟩ : SyntaxError) ∈ (attach pos ls).filterMap (·.2) := by
  induction ls generalizing pos i with
  | nil => simp at hl
  | cons x xs ih =>
    cases i with
    | zero =>
      simp only [List.getElem?_cons_zero, Option.some.injEq] at hl
      subst hl
      refine ⟨Range.ofLen pos x.word.len, by simp [attach, tokenRanges, Range.ofLen], ?_⟩
      intro m hm
      simp [attach, hm]
    | succ i =>
      simp only [List.getElem?_cons_succ] at hl
      obtain ⟨r, h1, h2⟩ := ih (pos + x.word.len) i hl
      refine ⟨r, by simpa [attach, tokenRanges] using h1, ?_⟩
      intro m hm
      simp only [attach, List.filterMap_cons]
      have := h2 m hm
      cases x.err <;> simp [this]

/-- **C75**: every token of every text is written as its kind says, or it is a broken token of its kind and an error is
reported on exactly the token. -/
theorem C75_tokens (text : Text) : ∃ (tokens : List Token) (errors : List SyntaxError) (words : List Text),
    tokenize text = .ok (tokens, errors) ∧ words.flatten = text ∧ tokens.map (·.len) = words.map Text.len ∧
    ∀ (i : Nat) (t : Token) (w : Text), tokens[i]? = some t → words[i]? = some w →
      Spelled t.kind w ∨
      (Misspelled t.kind w ∧ ∃ e ∈ errors, some e.range = (tokenRanges 0 tokens)[i]?) := by
  obtain ⟨ls, h⟩ := lexemes_exists text
  refine ⟨_, _, ls.map (·.word), tokenize_eq h, h.flatten, by rw [attach_tokens]; simp, ?_⟩
  intro i t w ht hw
  rw [attach_tokens] at ht
  simp only [List.getElem?_map, Option.map_eq_some_iff] at ht hw
  obtain ⟨l, hl, rfl⟩ := ht
  obtain ⟨l', hl', rfl⟩ := hw
  rw [hl] at hl'
  obtain rfl := Option.some.inj hl'
  have hs := lexemes_spelled h l (List.mem_of_getElem? hl)
  obtain ⟨r, h1, h2⟩ := attach_err 0 ls i l hl
  cases he : l.err with
  | none => rw [if_pos he] at hs; exact .inl hs
  | some m =>
    rw [if_neg (by simp [he])] at hs
    exact .inr ⟨hs, _, h2 m he, h1.symm⟩

/-- **C75**: every token in the tree of a file without errors is written as its kind says. -/
theorem C75_tree (text : Text) (tree : Green) (h : parseText text = .ok (tree, [])) :
    ∀ l ∈ tree.leaves, Spelled l.1 l.2 := by
  obtain ⟨ls, ts, h1, h2, h3, h4, h5⟩ := parseText_main text
  obtain ⟨ls', tree', errors, h1', h', _, _, hl, _⟩ := parseText_tree text
  obtain rfl := h1.unique h1'
  rw [h] at h5 h'
  simp only [Except.ok.injEq, Prod.mk.injEq] at h5 h'
  obtain ⟨rfl, rfl⟩ := h'
  obtain ⟨_, h5⟩ := h5
  have h6 := (List.append_eq_nil_iff.1 h5.symm).2
  intro l hm
  rw [hl, List.mem_map] at hm
  obtain ⟨x, hx, rfl⟩ := hm
  have hs := lexemes_spelled h1 x hx
  obtain ⟨i, hi⟩ := List.getElem?_of_mem hx
  obtain ⟨r, _, h7⟩ := attach_err 0 ls i x hi
  cases he : x.err with
  | none => rw [if_pos he] at hs; exact hs
  | some m => have := h7 m he; rw [h6] at this; simp at this

/-- **C75**: keywords and operators are written in one way only. -/
theorem C75_fixed {k : SyntaxKind} {w : Text} (h : Spelled k w) (s : String) (hs : (s, k) ∈ keywords ++ operators) :
    w = s.toList := by
  have hd : ∀ p ∈ keywords ++ operators, p.2 ∉ [SyntaxKind.ident, .whitespace, .comment, .str, .number, .unknown] ∧
      ∀ q ∈ keywords ++ operators, p.2 = q.2 → p = q := by decide
  have h1 := hd _ hs
  cases h with
  | fixed h => have := congrArg Prod.fst (h1.2 _ h rfl); simp only at this; rw [this]
  | _ => simp at h1

/-- **C75**: names are written with letters, digits and underscores and are not keywords. -/
theorem C75_name {w : Text} (h : Spelled .ident w) : ∃ c v, w = c :: v ∧ nameStart c = true ∧
    (∀ x ∈ v, nameChar x = true) ∧ ∀ p ∈ keywords, p.1.toList ≠ w := by
  cases h with
  | fixed h =>
    have hd : ∀ p ∈ keywords ++ operators, p.2 ≠ .ident := by decide
    exact absurd rfl (hd _ h)
  | name h1 h2 h3 => exact ⟨_, _, rfl, h1, h2, h3⟩

/-! ### the kind of a text -/

private def kindOf (w : Text) : SyntaxKind :=
  match (keywords ++ operators).find? (fun p => p.1.toList == w) with
  | some p => p.2
  | none => match w with
    | [] => .unknown
    | c :: _ => if nameStart c then .ident else if c.isDigit then .number else if c ∈ spaces then .whitespace
      else if c = '-' then .comment else if c = '~' then .unknown else .str

private theorem table_none {w : Text} (h : ∀ p ∈ keywords ++ operators, p.1.toList ≠ w) :
    (keywords ++ operators).find? (fun p => p.1.toList == w) = none := by
  rw [List.find?_eq_none]
  intro p hp
  simpa using h p hp

private theorem kindOf_spelled {k : SyntaxKind} {w : Text} (h : Spelled k w) : kindOf w = k := by
  have digit : ∀ {c : Char} {v : Text}, c.isDigit = true → kindOf (c :: v) = .number := by
    intro c v hc
    have h1 : nameStart c = false := by
      cases h : nameStart c with
      | false => rfl
      | true =>
        simp only [nameStart, Char.isAlpha, Char.isUpper, Char.isLower, Char.isDigit, Bool.or_eq_true, Bool.and_eq_true,
          decide_eq_true_eq, beq_iff_eq, ge_iff_le] at h hc
        rcases h with (h | h) | h
        · have := UInt32.le_trans h.1 hc.2; revert this; decide
        · have := UInt32.le_trans h.1 hc.2; revert this; decide
        · subst h; revert hc; decide
    have hd : ∀ p ∈ keywords ++ operators, ∀ d ∈ p.1.toList.head?, d.isDigit = false := by decide
    unfold kindOf
    rw [table_none]
    · simp [h1, hc]
    · intro p hp e
      have := hd p hp c (by simp [e])
      rw [hc] at this; cases this
  have str : ∀ {c : Char} {v : Text}, c = '\'' ∨ c = '"' → kindOf (c :: v) = .str := by
    intro c v hc
    have hd : ∀ p ∈ keywords ++ operators, ∀ d ∈ p.1.toList.head?, d ≠ '\'' ∧ d ≠ '"' := by decide
    unfold kindOf
    rw [table_none]
    · rcases hc with rfl | rfl <;> rfl
    · intro p hp e
      have := hd p hp c (by simp [e])
      rcases hc with rfl | rfl <;> simp at this
  cases h with
  | @fixed s k h =>
    have hd : ∀ p ∈ keywords ++ operators, kindOf p.1.toList = p.2 := by decide
    exact hd _ h
  | @name c w h1 h2 h3 =>
    unfold kindOf
    rw [table_none]
    · simp [h1]
    · intro p hp e
      rcases List.mem_append.1 hp with hp | hp
      · exact h3 p hp e
      · have hd : ∀ p ∈ operators, ∀ d ∈ p.1.toList.head?, nameStart d = false := by decide
        have := hd p hp c (by simp [e])
        rw [h1] at this; cases this
  | space h1 h2 =>
    cases w with
    | nil => exact absurd rfl h1
    | cons c w =>
      have hc := h2 c (by simp)
      have h3 : nameStart c = false ∧ c.isDigit = false := by
        have hd : ∀ c ∈ spaces, nameStart c = false ∧ c.isDigit = false := by decide
        exact hd c hc
      unfold kindOf
      rw [table_none]
      · simp [h3.1, h3.2, hc]
      · intro p hp e
        have hd : ∀ p ∈ keywords ++ operators, ∀ d ∈ p.1.toList.head?, d ∉ spaces := by decide
        exact hd p hp c (by simp [e]) hc
  | lineComment h =>
    unfold kindOf
    rw [table_none]; · rfl
    intro p hp e
    have hd : ∀ p ∈ keywords ++ operators, p.1.toList.take 2 ≠ ['-', '-'] := by decide
    exact hd p hp (by simp [e])
  | blockComment =>
    unfold kindOf
    rw [table_none]; · rfl
    intro p hp e
    have hd : ∀ p ∈ keywords ++ operators, p.1.toList.take 2 ≠ ['-', '-'] := by decide
    exact hd p hp (by simp [e])
  | quoted h1 h2 => exact str h1
  | @long n body =>
    have e : ∃ c v, longOpen n ++ body ++ longClose n = '[' :: c :: v := by
      cases n with
      | zero => exact ⟨_, _, rfl⟩
      | succ n => exact ⟨_, _, rfl⟩
    obtain ⟨c, v, e⟩ := e
    rw [e]
    unfold kindOf
    rw [table_none]; · rfl
    intro p hp e
    have hd : ∀ p ∈ keywords ++ operators, p.1.toList.head? = some '[' → p.1.toList.length = 1 := by decide
    have := hd p hp (by simp [e])
    rw [e] at this; simp at this
  | number h1 => exact digit h1
  | hex => exact digit (by decide)
  | tilde => decide

/-- **C75**: the text of a token tells its kind. -/
theorem C75_unique {k k' : SyntaxKind} {w : Text} (h : Spelled k w) (h' : Spelled k' w) : k = k' :=
  (kindOf_spelled h).symm.trans (kindOf_spelled h')

/-- Names and strings can be told apart; both kinds of error occur. -/
example : Spelled .ident "endx".toList ∧ Spelled .str "'a\\'b'".toList ∧ Spelled .str "[=[ ]] ]=]".toList ∧
    Spelled .number "0x1F".toList ∧ Spelled .number "1.e-5".toList ∧ Misspelled .str "'a".toList ∧
    Misspelled .unknown "$".toList ∧ ¬ Spelled .ident "end".toList := by
  refine ⟨.name (c := 'e') (w := ['n', 'd', 'x']) (by decide) (by decide) (by decide),
    .quoted (d := '\'') (body := "a\\'b".toList) (.inl rfl) (by decide),
    .long (n := 1) (body := " ]] ".toList), .hex (ds := "1F".toList) (by decide),
    .number (d := '1') (ds := []) (tail := ".e-5".toList) (by decide) (by decide)
      (.mk (frac := ['.']) (e := ['e', '-', '5']) (.inr ⟨[], rfl, by decide⟩)
        (.inr ⟨'e', ['-'], ['5'], rfl, .inl rfl, .inr rfl, by decide⟩)),
    .quoted (d := '\'') (body := ['a']) (.inl rfl) (by decide), .char (by decide) (by decide) (by decide) (by decide) (by decide), ?_⟩
  intro h
  obtain ⟨_, _, _, _, _, h⟩ := C75_name h
  exact h ("end", .endKw) (by decide) rfl

end Verif
