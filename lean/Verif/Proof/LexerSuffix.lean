import Verif.Proof.LexerForms

/-
Every closed form returns a suffix of its input.
-/
namespace Verif
namespace Lexer
open Accept

theorem acceptSpec_suffix (p : Char → Bool) (s : Text) : (acceptSpec p s).2 <:+ s := by
  cases s with
  | nil => exact List.suffix_refl _
  | cons c cs =>
    simp only [acceptSpec]
    split
    · exact List.suffix_cons _ _
    · exact List.suffix_refl _

theorem skipClose_suffix (s : Text) : skipClose s <:+ s := by
  fun_induction skipClose s with
  | case1 => exact List.suffix_refl _
  | case2 cs ih => exact ih.trans ((List.suffix_cons _ _).trans (List.suffix_cons _ _))
  | case3 => exact List.suffix_refl _
  | case4 c cs _ _ ih => exact ih.trans (List.suffix_cons _ _)

theorem findClose_suffix (n : Nat) (s r : Text) (h : findClose n s = some r) : r <:+ s := by
  fun_induction findClose n s with
  | case1 s cs hs hl =>
    simp at h
    subst h
    have := skipClose_suffix s
    rw [hs] at this
    exact (List.dropWhile_suffix _).trans ((List.suffix_cons _ _).trans this)
  | case2 s cs hs hl ih =>
    have := skipClose_suffix s
    rw [hs] at this
    exact (ih h).trans ((List.dropWhile_suffix _).trans ((List.suffix_cons _ _).trans this))
  | case3 => simp at h

theorem closeForm_suffix (n : Nat) (s : Text) : (closeForm n s).2 <:+ s := by
  unfold closeForm
  have h1 := acceptSpec_suffix (· == '[') s
  generalize acceptSpec (· == '[') s = p at *
  obtain ⟨b, s'⟩ := p
  simp only at h1 ⊢
  cases h : findClose n s' with
  | none => simp
  | some r =>
    exact ((acceptSpec_suffix _ r).trans (findClose_suffix _ _ _ h)).trans h1

theorem bracketForm_suffix (s : Text) : (bracketForm s).2 <:+ s :=
  (closeForm_suffix _ _).trans (List.dropWhile_suffix _)

theorem commentForm_suffix (s : Text) : commentForm s <:+ s := by
  unfold commentForm
  refine (List.dropWhile_suffix _).trans ?_
  split
  · exact (bracketForm_suffix _).trans (List.suffix_cons _ _)
  · exact List.suffix_cons _ _
  · exact List.suffix_refl _

theorem stringForm_suffix (d : Char) (s : Text) : (stringForm d s).2 <:+ s := by
  fun_induction stringForm d s with
  | case1 => exact List.suffix_refl _
  | case2 => exact List.suffix_refl _
  | case3 => exact List.suffix_refl _
  | case4 => exact List.suffix_cons _ _
  | case5 => simp_all
  | case6 _ _ _ xs ih => exact ih.trans ((List.suffix_cons _ _).trans (List.suffix_cons _ _))
  | case7 _ _ _ x xs _ ih => exact ih.trans (List.suffix_cons _ _)
  | case8 _ _ _ _ _ _ ih => exact ih.trans (List.suffix_cons _ _)

theorem skipFrac_suffix (s : Text) : skipFrac s <:+ s := by
  cases s with
  | nil => exact List.suffix_refl _
  | cons c cs =>
    simp only [skipFrac]
    split
    · exact (List.dropWhile_suffix _).trans (List.suffix_cons _ _)
    · exact List.suffix_refl _

theorem skipExp_suffix (s : Text) : skipExp s <:+ s := by
  cases s with
  | nil => exact List.suffix_refl _
  | cons c cs =>
    simp only [skipExp]
    split
    · exact (List.dropWhile_suffix _).trans ((acceptSpec_suffix _ cs).trans (List.suffix_cons _ _))
    · exact List.suffix_refl _

theorem numberForm_suffix (c : Char) (cs : Text) (hc : isNumber c = true) : numberForm (c :: cs) <:+ cs := by
  unfold numberForm
  split
  · rename_i h
    simp at h
    rw [h.2]
    exact (List.dropWhile_suffix _).trans (List.suffix_cons _ _)
  · rw [List.dropWhile_cons, if_pos hc]
    exact (skipExp_suffix _).trans ((skipFrac_suffix _).trans (List.dropWhile_suffix _))

theorem two_suffix (x : Char) (k2 k1 : SyntaxKind) (cs : Text) : (two x k2 k1 cs).2 <:+ cs := by
  cases cs with
  | nil => exact List.suffix_refl _
  | cons y ys =>
    simp only [two]
    split
    · exact List.suffix_cons _ _
    · exact List.suffix_refl _

/-- Case analysis on the first characters of the text. -/
theorem lexForm_cases {P : Char → Text → LexResult SyntaxKind × Text → Prop}
    (eq : ∀ cs, P '=' cs (two '=' .eqEq .eq cs))
    (ne : ∀ cs, P '~' cs (two '=' .notEq .unknown cs))
    (long : ∀ c cs, c = '[' ∨ c = '=' →
      P '[' (c :: cs) ((.str, (bracketForm (c :: cs)).1), (bracketForm (c :: cs)).2))
    (lBracket : ∀ cs, cs.head? ≠ some '[' → cs.head? ≠ some '=' → P '[' cs ((.lBracket, none), cs))
    (dots : ∀ cs, P '.' ('.' :: cs) (two '.' .tripleDot .doubleDot cs))
    (dot : ∀ cs, cs.head? ≠ some '.' → P '.' cs ((.dot, none), cs))
    (colon : ∀ cs, P ':' cs (two ':' .doubleColon .colon cs))
    (gt : ∀ cs, P '>' cs (two '=' .gtEq .gt cs))
    (lt : ∀ cs, P '<' cs (two '=' .ltEq .lt cs))
    (comment : ∀ cs, P '-' ('-' :: cs) ((.comment, none), commentForm cs))
    (minus : ∀ cs, cs.head? ≠ some '-' → P '-' cs ((.minus, none), cs))
    (str : ∀ c cs, c = '\'' ∨ c = '"' → P c cs ((.str, (stringForm c cs).1), (stringForm c cs).2))
    (single : ∀ c cs k, singleKind c = some k → P c cs ((k, none), cs))
    (ident : ∀ c cs, isIdentStart c = true →
      P c cs (((SyntaxKind.fromKeyword ((c :: cs).takeWhile isIdentContinue)).getD .ident, none),
        cs.dropWhile isIdentContinue))
    (number : ∀ c cs, isNumber c = true → P c cs ((.number, none), numberForm (c :: cs)))
    (white : ∀ c cs, isWhitespace c = true → P c cs ((.whitespace, none), cs.dropWhile isWhitespace))
    (other : ∀ c cs, singleKind c = none → isIdentStart c = false → isNumber c = false →
      isWhitespace c = false → c ∉ ['=', '~', '[', '.', ':', '>', '<', '-', '\'', '"'] →
      P c cs ((.unknown, some "Got an unknown token"), cs))
    (c : Char) (cs : Text) : P c cs (lexForm c cs) := by
  unfold lexForm
  by_cases h1 : c = '='
  · subst h1; exact eq cs
  rw [if_neg h1]
  by_cases h2 : c = '~'
  · subst h2; exact ne cs
  rw [if_neg h2]
  by_cases h3 : c = '['
  · subst h3
    rw [if_pos rfl]
    by_cases h : cs.head? = some '[' ∨ cs.head? = some '='
    · rw [if_pos h]
      cases cs with
      | nil => simp at h
      | cons y ys => simp at h; exact long y ys h
    · rw [if_neg h]
      exact lBracket cs (fun e => h (Or.inl e)) (fun e => h (Or.inr e))
  rw [if_neg h3]
  by_cases h4 : c = '.'
  · subst h4
    rw [if_pos rfl]
    cases cs with
    | nil => exact dot [] (by simp)
    | cons y ys =>
      show P _ _ (if y = '.' then _ else _)
      by_cases h : y = '.'
      · subst h; rw [if_pos rfl]; exact dots ys
      · rw [if_neg h]; exact dot _ (by simpa using h)
  rw [if_neg h4]
  by_cases h5 : c = ':'
  · subst h5; exact colon cs
  rw [if_neg h5]
  by_cases h6 : c = '>'
  · subst h6; exact gt cs
  rw [if_neg h6]
  by_cases h7 : c = '<'
  · subst h7; exact lt cs
  rw [if_neg h7]
  by_cases h8 : c = '-'
  · subst h8
    rw [if_pos rfl]
    cases cs with
    | nil => exact minus [] (by simp)
    | cons y ys =>
      show P _ _ (if y = '-' then _ else _)
      by_cases h : y = '-'
      · subst h; rw [if_pos rfl]; exact comment ys
      · rw [if_neg h]; exact minus _ (by simpa using h)
  rw [if_neg h8]
  by_cases h9 : c = '\'' ∨ c = '"'
  · rw [if_pos h9]; exact str c cs h9
  rw [if_neg h9]
  cases hs : singleKind c with
  | some k => exact single c cs k hs
  | none =>
    show P _ _ (if isIdentStart c = true then _ else _)
    by_cases h10 : isIdentStart c = true
    · rw [if_pos h10]; exact ident c cs h10
    rw [if_neg h10]
    by_cases h11 : isNumber c = true
    · rw [if_pos h11]; exact number c cs h11
    rw [if_neg h11]
    by_cases h12 : isWhitespace c = true
    · rw [if_pos h12]; exact white c cs h12
    rw [if_neg h12]
    exact other c cs hs (by simpa using h10) (by simpa using h11) (by simpa using h12)
      (by simp_all)

theorem lexForm_suffix (c : Char) (cs : Text) : (lexForm c cs).2 <:+ cs := by
  refine lexForm_cases (P := fun c cs r => r.2 <:+ cs) ?_ ?_ ?_ ?_ ?_ ?_ ?_ ?_ ?_ ?_ ?_ ?_ ?_ ?_ ?_ ?_ ?_ c cs
  · intro cs; exact two_suffix _ _ _ _
  · intro cs; exact two_suffix _ _ _ _
  · intro c cs _; exact bracketForm_suffix _
  · intros; exact List.suffix_refl _
  · intro cs; exact (two_suffix _ _ _ _).trans (List.suffix_cons _ _)
  · intros; exact List.suffix_refl _
  · intro cs; exact two_suffix _ _ _ _
  · intro cs; exact two_suffix _ _ _ _
  · intro cs; exact two_suffix _ _ _ _
  · intro cs; exact (commentForm_suffix _).trans (List.suffix_cons _ _)
  · intros; exact List.suffix_refl _
  · intros; exact stringForm_suffix _ _
  · intros; exact List.suffix_refl _
  · intros; exact List.dropWhile_suffix _
  · intro c cs h; exact numberForm_suffix _ _ h
  · intros; exact List.dropWhile_suffix _
  · intros; exact List.suffix_refl _

end Lexer
end Verif
