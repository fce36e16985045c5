import Verif.Spec.Exchange
import Verif.Props.Stability
import Verif.Proof.ReparseProof
import Verif.Props.Accepted
import Verif.Proof.Decide

/-
C123: names, strings, numbers and comments may be exchanged.
-/
namespace Verif
open Lexer Lua Accept Spec PTree

namespace Exch

/-! ### the lexer -/

private theorem number_chars {t : Text} (h : Spelled .number t) : '\'' ∉ t ∧ '"' ∉ t ∧ '[' ∉ t := by
  have key : ∀ q : Char, q = '\'' ∨ q = '"' ∨ q = '[' → q ∉ t := by
    intro q hq hm
    have nd : Char.isDigit q = false := by rcases hq with rfl | rfl | rfl <;> decide
    generalize hk : SyntaxKind.number = k at h
    cases h with
    | @fixed s k hm =>
      subst hk
      have : ∀ p ∈ keywords ++ operators, p.2 ≠ .number := by decide
      exact this _ hm rfl
    | name => cases hk
    | space => cases hk
    | lineComment => cases hk
    | blockComment => cases hk
    | quoted => cases hk
    | long => cases hk
    | tilde => cases hk
    | @number d ds tail h1 h2 h3 =>
      simp only [List.mem_cons, List.mem_append] at hm
      rcases hm with rfl | hm | hm
      · rw [nd] at h1; cases h1
      · have := h2 _ hm; rw [nd] at this; cases this
      · cases h3 with
        | mk h4 h5 =>
          rcases List.mem_append.1 hm with hm | hm
          · rcases h4 with rfl | ⟨ds, rfl, hd⟩
            · cases hm
            · simp only [List.mem_cons] at hm
              rcases hm with rfl | hm
              · rcases hq with hq | hq | hq <;> cases hq
              · have := hd _ hm; rw [nd] at this; cases this
          · rcases h5 with rfl | ⟨c, sign, ds, rfl, hc, hs, hd⟩
            · cases hm
            · simp only [List.mem_cons, List.mem_append] at hm
              rcases hm with rfl | hm | hm
              · rcases hq with rfl | rfl | rfl <;> simp at hc
              · rcases hs with rfl | rfl
                · cases hm
                · simp at hm; subst hm; rcases hq with hq | hq | hq <;> cases hq
              · have := hd _ hm; rw [nd] at this; cases this
    | @hex ds h1 =>
      simp only [List.mem_cons] at hm
      rcases hm with rfl | rfl | hm
      · rcases hq with hq | hq | hq <;> cases hq
      · rcases hq with hq | hq | hq <;> cases hq
      · have := h1 _ hm
        revert this
        rcases hq with rfl | rfl | rfl <;> decide
  exact ⟨key _ (.inl rfl), key _ (.inr (.inl rfl)), key _ (.inr (.inr rfl))⟩

private theorem operators_grow : ∀ s ∈ operators, ∀ p ∈ operators, s.1.toList <+: p.1.toList →
    s.1.toList.length < p.1.toList.length →
    ∃ q ∈ operators, q.1.toList = p.1.toList.take (s.1.toList.length + 1) := by decide +kernel

private theorem operators_last : ∀ q ∈ operators, q.1.toList.length ≥ 2 →
    ∃ x ∈ ['=', ':', '.'], q.1.toList.getLast? = some x := by decide +kernel

private theorem bracket_kind : ∀ p ∈ operators, p.1 = "[" → p.2 = .lBracket := by decide

/-- What a token is does not depend on which of certain characters comes behind it. -/
theorem reads_change' {w : Text} {k : SyntaxKind} {err : Option String} {c c' : Char} {r r' : Text}
    (h : Reads w k err (c :: r)) (hc : c ≠ '\n' ∧ c ≠ '\x00')
    (hc' : c' ∉ spaces ++ ['=', ':', '.', '-', ']', '\n', '\x00']) (hbr : k = .lBracket → c' ≠ '[')
    (hname : nameChar c' = true → nameChar c = true) (hnum : k = .number → c' = '\'' ∨ c' = '"' ∨ c' = '[') :
    Reads w k err (c' :: r') := by
  simp only [List.mem_append, not_or] at hc'
  obtain ⟨hs, ho⟩ := hc'
  simp only [List.mem_cons, List.not_mem_nil, or_false, not_or] at ho
  obtain ⟨o1, o2, o3, o4, o6, o7, o8⟩ := ho
  have hn : nameChar c = false → nameChar c' = false := by
    intro h
    cases h2 : nameChar c' with
    | false => rfl
    | true => rw [hname h2] at h; cases h
  generalize e : c :: r = rest at h
  cases h with
  | keyword h1 h2 => exact .keyword h1 (by subst e; simpa using hn (h2 c rfl))
  | name h1 h2 h3 h4 => exact .name h1 h2 h3 (by subst e; simpa using hn (h4 c rfl))
  | space h1 h2 h3 => exact .space h1 h2 (by simpa using hs)
  | @operator s k rest h1 h2 h3 h4 =>
    subst e
    refine .operator h1 (fun p hp hpre => ?_) (by simpa using fun _ => o4) (by
      intro hs; simpa using ⟨hbr (bracket_kind _ h1 hs), o1⟩)
    refine Nat.le_of_not_lt fun hlt => ?_
    have hsp : s.toList <+: p.1.toList := List.prefix_of_prefix_length_le (List.prefix_append _ _) hpre (Nat.le_of_lt hlt)
    obtain ⟨q, hq, eq⟩ := operators_grow (s, k) h1 p hp hsp hlt
    have hql : q.1.toList.length = s.toList.length + 1 := by rw [eq, List.length_take]; simp only; omega
    have hq2 : q.1.toList <+: s.toList ++ c' :: r' := by rw [eq]; exact (List.take_prefix _ _).trans hpre
    have hq3 : q.1.toList = s.toList ++ [c'] := by
      have : s.toList ++ [c'] <+: s.toList ++ c' :: r' := ⟨r', by simp⟩
      exact (List.prefix_of_prefix_length_le hq2 this (by simp; omega)).eq_of_length (by simp; omega)
    have hs0 : s.toList.length ≥ 1 := by
      have : ∀ p ∈ operators, p.1.toList.length ≥ 1 := by decide
      exact this _ h1
    obtain ⟨x, hx, hl⟩ := operators_last q hq (by omega)
    rw [hq3, List.getLast?_concat] at hl
    simp only [Option.some.injEq] at hl
    subst hl
    simp only [List.mem_cons, List.not_mem_nil, or_false] at hx
    rcases hx with hx | hx | hx
    · exact o1 hx
    · exact o2 hx
    · exact o3 hx
  | tilde h1 => exact .tilde (by simpa using o1)
  | number h1 h2 =>
    refine .number h1 fun p q hpq hp hsp => ?_
    cases p with
    | nil => exact hp rfl
    | cons x p =>
      simp only [List.cons_append, List.cons.injEq] at hpq
      obtain ⟨rfl, -⟩ := hpq
      obtain ⟨n1, n2, n3⟩ := number_chars hsp
      rcases hnum rfl with rfl | rfl | rfl
      · exact n1 (by simp)
      · exact n2 (by simp)
      · exact n3 (by simp)
  | quoted h1 h2 h3 => exact .quoted h1 h2 h3
  | quotedEnd h1 h2 h3 => subst e; simp at h3; exact absurd h3 hc.2
  | quotedLine h1 h2 h3 => subst e; simp at h3; exact absurd h3 hc.1
  | long h1 h2 => exact .long h1 h2
  | longBad h1 h2 h3 h4 h5 =>
    refine .longBad h1 h2 h3 ?_ h5
    rcases h4 with h4 | ⟨h4, h6, -, -⟩
    · exact .inl h4
    · exact .inr ⟨h4, h6, by simpa using o1, by simpa using o6⟩
  | longEnd => cases e
  | lineComment h1 h2 h3 => subst e; simp at h3; exact absurd h3 hc.1
  | blockComment h1 h2 h3 h4 h5 => subst e; simp at h5; exact absurd h5 hc.1
  | blockCommentEnd => cases e
  | other h1 h2 h3 h4 h5 => exact .other h1 h2 h3 h4 h5

theorem reads_change {w : Text} {k : SyntaxKind} {err : Option String} {c c' : Char} {r r' : Text}
    (h : Reads w k err (c :: r)) (hc : c ≠ '\n' ∧ c ≠ '\x00')
    (hc' : c' ∉ spaces ++ ['=', ':', '.', '-', '[', ']', '\n', '\x00'])
    (hname : nameChar c' = true → nameChar c = true) (hnum : k = .number → c' = '\'' ∨ c' = '"') :
    Reads w k err (c' :: r') := by
  have hsub : ∀ x ∈ spaces ++ ['=', ':', '.', '-', ']', '\n', '\x00'], x ∈ spaces ++ ['=', ':', '.', '-', '[', ']', '\n', '\x00'] := by decide
  refine reads_change' h hc (fun hm => hc' (hsub _ hm)) (fun _ e => hc' (by rw [e]; decide)) hname fun hk => ?_
  rcases hnum hk with h | h
  · exact .inl h
  · exact .inr (.inl h)

/-- Lexemes with exchanged words. -/
inductive Lex : List Lexeme → List Lexeme → Prop
  | nil : Lex [] []
  | cons {k e w w' ls ls'} : Exchanged k w w' → Lex ls ls' → Lex (⟨w, k, e⟩ :: ls) (⟨w', k, e⟩ :: ls')

private theorem quote_name {c : Char} (h : c = '\'' ∨ c = '"') : nameChar c = false := by
  rcases h with rfl | rfl <;> decide

private theorem reads_quoted {w : Text} (h : IsQuoted w) (rest : Text) : Reads w .str none rest := by
  obtain ⟨d, body, h1, h2, h3, rfl⟩ := h
  exact .quoted h1 h2 h3

private theorem reads_unique {w : Text} {k k' e e' rest} (hw : w ≠ []) (h : Reads w k e rest) (h' : Reads w k' e' rest) :
    k = k' ∧ e = e' := by
  obtain ⟨w0, k0, e0, r0, -, hu⟩ := C82_rules_total (w ++ rest) (by simp [hw])
  obtain ⟨-, rfl, rfl, -⟩ := hu _ _ _ _ rfl h
  obtain ⟨-, rfl, rfl, -⟩ := hu _ _ _ _ rfl h'
  exact ⟨rfl, rfl⟩

private theorem name_start {c : Char} (h : nameStart c = true) : nameChar c = true ∧
    c ∉ spaces ++ ['=', ':', '.', '-', '[', ']', '\n', '\x00'] ∧ c ≠ '\n' ∧ c ≠ '\x00' := by
  have h1 : ∀ x ∈ spaces ++ ['=', ':', '.', '-', '[', ']', '\n', '\x00'], nameStart x = false := by decide
  refine ⟨?_, fun hm => ?_, ?_, ?_⟩
  · unfold nameStart at h
    unfold nameChar
    simp only [Bool.or_eq_true] at h ⊢
    rcases h with h | h
    · exact .inl (by simp [Char.isAlphanum, h])
    · exact .inr h
  · rw [h1 c hm] at h; cases h
  · rintro rfl; revert h; decide
  · rintro rfl; revert h; decide

/-- A whole number is not continued by anything but letters, digits, `_` and `.`. -/
private theorem digits_end {w p : Text} {c : Char} (h : IsDigits w) (hs : Spelled .number (w ++ c :: p)) (hc : nameChar c = false)
    (hd : c ≠ '.') : False := by
  obtain ⟨hne, hw⟩ := h
  have nd : ∀ c : Char, c.isDigit = true → nameChar c = true := by
    intro c h
    simp [nameChar, Char.isAlphanum, h]
  have tail_head : ∀ {t : Text} {x : Char}, NumberTail t → t.head? = some x → x = '.' ∨ x = 'e' ∨ x = 'E' := by
    intro t x ht hx
    cases ht with
    | mk h1 h2 =>
      rcases h1 with rfl | ⟨ds, rfl, -⟩
      · rcases h2 with rfl | ⟨c, sign, ds, rfl, h3, -⟩
        · cases hx
        · simp at hx; subst hx; exact .inr h3
      · simp at hx; exact .inl hx.symm
  have key : ∀ {x : Char}, x = c ∨ x.isDigit = true → x = '.' ∨ x = 'e' ∨ x = 'E' → False := by
    intro x h1 h2
    rcases h1 with rfl | h1
    · rcases h2 with h | rfl | rfl
      · exact hd h
      · revert hc; decide
      · revert hc; decide
    · rcases h2 with rfl | rfl | rfl <;> revert h1 <;> decide
  generalize e : w ++ c :: p = z at hs
  generalize hk : SyntaxKind.number = k at hs
  cases hs with
  | fixed hm => subst hk; exact absurd hm (by
      intro hm
      have : ∀ p ∈ keywords ++ operators, p.2 ≠ .number := by decide
      exact this _ hm rfl)
  | @number d ds tail h1 h2 h3 =>
    have hX : ∀ x ∈ d :: ds, x.isDigit = true := by
      intro x hx
      rcases List.mem_cons.1 hx with rfl | hx
      · exact h1
      · exact h2 x hx
    rcases List.append_eq_append_iff.1 (show w ++ c :: p = (d :: ds) ++ tail by simpa using e) with ⟨q, e1, e2⟩ | ⟨q, e1, e2⟩
    · cases q with
      | nil => exact key (.inl rfl) (tail_head h3 (x := c) (by rw [show tail = c :: p by simpa using e2.symm]; rfl))
      | cons x q =>
        simp only [List.cons_append, List.cons.injEq] at e2
        obtain ⟨rfl, -⟩ := e2
        rw [nd c (hX c (by rw [e1]; simp))] at hc
        cases hc
    · cases q with
      | nil => exact key (.inl rfl) (tail_head h3 (x := c) (by rw [show tail = c :: p by simpa using e2]; rfl))
      | cons x q => exact key (.inr (hw x (by rw [e1]; simp))) (tail_head h3 (x := x) (by rw [e2]; rfl))
  | @hex ds h1 =>
    cases w with
    | nil => exact hne rfl
    | cons a w =>
      simp only [List.cons_append, List.cons.injEq] at e
      obtain ⟨rfl, e⟩ := e
      cases w with
      | nil =>
        simp only [List.nil_append, List.cons.injEq] at e
        obtain ⟨rfl, -⟩ := e
        revert hc; decide
      | cons b w =>
        simp only [List.cons_append, List.cons.injEq] at e
        obtain ⟨rfl, -⟩ := e
        have := hw 'x' (by simp)
        revert this; decide
  | _ => cases hk

private theorem number_start {w rest : Text} {e} (h : Reads w .number e rest) : (∃ c v, w = c :: v ∧ c.isDigit = true) ∧ e = none := by
  generalize hk : SyntaxKind.number = k at h
  cases h with
  | keyword hm => subst hk; exact absurd hm (by
      intro hm
      have : ∀ p ∈ keywords, p.2 ≠ .number := by decide
      exact this _ hm rfl)
  | operator hm => subst hk; exact absurd hm (by
      intro hm
      have : ∀ p ∈ operators, p.2 ≠ .number := by decide
      exact this _ hm rfl)
  | number hs =>
    refine ⟨?_, rfl⟩
    generalize hk : SyntaxKind.number = k at hs
    cases hs with
    | fixed hm => subst hk; exact absurd hm (by
        intro hm
        have : ∀ p ∈ keywords ++ operators, p.2 ≠ .number := by decide
        exact this _ hm rfl)
    | number h1 => exact ⟨_, _, rfl, h1⟩
    | hex => exact ⟨_, _, rfl, by decide⟩
    | _ => cases hk
  | _ => cases hk

/-- The word of an exchanged token is read in the same way, whatever comes behind. -/
private theorem reads_word {k : SyntaxKind} {e : Option String} {w w' rest : Text} (hw : w ≠ []) (h : Reads w k e rest)
    (hx : Exchanged k w w')
    (hn : k = .number → w ≠ w' → ∀ c, rest.head? = some c → nameChar c = false ∧ c ≠ '.') : Reads w' k e rest := by
  cases hx with
  | same => exact h
  | number hd =>
    by_cases hww : w = w'
    · rw [← hww]; exact h
    obtain ⟨-, rfl⟩ := number_start h
    refine .number ?_ fun p q hpq hp hs => ?_
    · obtain ⟨h1, h2⟩ := hd
      cases w' with
      | nil => exact absurd rfl h1
      | cons d ds =>
        have := Spelled.number (d := d) (ds := ds) (tail := []) (h2 d (by simp)) (fun x hx => h2 x (by simp [hx]))
          (.mk (frac := []) (e := []) (.inl rfl) (.inl rfl))
        simpa using this
    · cases p with
      | nil => exact hp rfl
      | cons c p =>
        obtain ⟨h1, h2⟩ := hn rfl hww c (by rw [hpq]; rfl)
        exact digits_end hd hs h1 h2
  | name hn =>
    obtain ⟨c, v, rfl, h1, h2, h3⟩ := hn
    cases h with
    | keyword hm => exact absurd hm (by
        intro hm
        have : ∀ p ∈ keywords, p.2 ≠ .ident := by decide
        exact this _ hm rfl)
    | operator hm => exact absurd hm (by
        intro hm
        have : ∀ p ∈ operators, p.2 ≠ .ident := by decide
        exact this _ hm rfl)
    | name g1 g2 g3 g4 => exact .name h1 h2 h3 g4
  | string ho hn =>
    have he : e = none := by
      have : Reads w .str none rest := by
        rcases ho with ho | ⟨n, body, h1, h2, rfl⟩
        · exact reads_quoted ho rest
        · exact .long h1 h2
      exact (reads_unique hw h this).2
    subst he
    rcases hn with hn | ⟨n, body, h1, h2, rfl⟩
    · exact reads_quoted hn rest
    · exact .long h1 h2
  | comment hn =>
    obtain ⟨v, rfl, h1, h2⟩ := hn
    cases h with
    | keyword hm => exact absurd hm (by
        intro hm
        have : ∀ p ∈ keywords, p.2 ≠ .comment := by decide
        exact this _ hm rfl)
    | operator hm => exact absurd hm (by
        intro hm
        have : ∀ p ∈ operators, p.2 ≠ .comment := by decide
        exact this _ hm rfl)
    | lineComment g1 g2 g3 => exact .lineComment h1 h2 g3
    | blockComment g1 g2 g3 g4 g5 => exact .lineComment h1 h2 g5
    | blockCommentEnd => exact .lineComment h1 h2 (.inl rfl)

private theorem comment_start {w rest : Text} {e} (h : Reads w .comment e rest) : ∃ v, w = '-' :: v := by
  generalize hk : SyntaxKind.comment = k at h
  cases h with
  | keyword hm => subst hk; exact absurd hm (by
      intro hm
      have : ∀ p ∈ keywords, p.2 ≠ .comment := by decide
      exact this _ hm rfl)
  | operator hm => subst hk; exact absurd hm (by
      intro hm
      have : ∀ p ∈ operators, p.2 ≠ .comment := by decide
      exact this _ hm rfl)
  | lineComment g1 g2 g3 => exact ⟨_, rfl⟩
  | blockComment g1 g2 g3 g4 g5 => exact ⟨_, rfl⟩
  | blockCommentEnd => exact ⟨_, rfl⟩
  | _ => cases hk

private theorem ident_start {w rest : Text} {e} (h : Reads w .ident e rest) : ∃ c v, w = c :: v ∧ nameStart c = true := by
  generalize hk : SyntaxKind.ident = k at h
  cases h with
  | keyword hm => subst hk; exact absurd hm (by
      intro hm
      have : ∀ p ∈ keywords, p.2 ≠ .ident := by decide
      exact this _ hm rfl)
  | operator hm => subst hk; exact absurd hm (by
      intro hm
      have : ∀ p ∈ operators, p.2 ≠ .ident := by decide
      exact this _ hm rfl)
  | name g1 => exact ⟨_, _, rfl, g1⟩
  | _ => cases hk

/-- The same characters decide how the token before an exchanged one is read. -/
private theorem reads_before {w : Text} {k k2 : SyntaxKind} {e e2 : Option String} {v v' rest rest' r0 : Text} (hv : v ≠ [])
    (h : Reads w k e (v ++ rest)) (h2 : Reads v k2 e2 r0) (hx : Exchanged k2 v v')
    (hn : k = .number → v ≠ v' → ∀ c, v.head? = some c → nameChar c = false ∧ c ≠ '.')
    (hb : k = .lBracket → v ≠ v' → v'.head? ≠ some '[') : Reads w k e (v' ++ rest') := by
  by_cases hvv : v = v'
  · subst hvv
    obtain ⟨c, cs, rfl⟩ := List.exists_cons_of_ne_nil hv
    exact reads_next _ h
  cases hx with
  | number hd =>
    obtain ⟨⟨c, cs, rfl, hc⟩, -⟩ := number_start h2
    obtain ⟨c', cs', rfl⟩ := List.exists_cons_of_ne_nil hd.1
    have hc' : c'.isDigit = true := hd.2 c' (by simp)
    have nd : ∀ c : Char, c.isDigit = true → nameChar c = true := by intro c h; simp [nameChar, Char.isAlphanum, h]
    have dd : ∀ c : Char, c.isDigit = true → c ∉ spaces ++ ['=', ':', '.', '-', '[', ']', '\n', '\x00'] ∧ c ≠ '\n' ∧ c ≠ '\x00' := by
      intro c hc
      have h1 : ∀ x ∈ spaces ++ ['=', ':', '.', '-', '[', ']', '\n', '\x00'], Char.isDigit x = false := by decide
      refine ⟨fun hm => ?_, ?_, ?_⟩
      · rw [h1 c hm] at hc; cases hc
      · rintro rfl; revert hc; decide
      · rintro rfl; revert hc; decide
    refine reads_change h (dd c hc).2 (dd c' hc').1 (fun _ => nd c hc) fun hk => ?_
    have := (hn hk hvv c rfl).1
    rw [nd c hc] at this
    cases this
  | same =>
    obtain ⟨c, cs, rfl⟩ := List.exists_cons_of_ne_nil hv
    exact reads_next _ h
  | name hn' =>
    obtain ⟨c', cs', rfl, g1, -⟩ := hn'
    obtain ⟨c, cs, rfl, g2⟩ := ident_start h2
    obtain ⟨a1, a2, -⟩ := name_start g1
    obtain ⟨b1, -, b2, b3⟩ := name_start g2
    exact reads_change h ⟨b2, b3⟩ a2 (fun _ => b1) (fun hk => by
      have := (hn hk hvv c rfl).1
      rw [b1] at this
      cases this)
  | string ho hn' =>
    obtain ⟨c', cs', rfl, g1⟩ : ∃ c cs, v' = c :: cs ∧ (c = '\'' ∨ c = '"' ∨ c = '[') := by
      rcases hn' with ⟨d, body, h1, -, -, rfl⟩ | ⟨n, body, -, -, rfl⟩
      · exact ⟨_, _, rfl, by rcases h1 with h | h <;> simp [h]⟩
      · exact ⟨'[', _, by simp [longOpen]; rfl, by simp⟩
    obtain ⟨c, cs, rfl, g2⟩ : ∃ c cs, v = c :: cs ∧ c ∈ ['\'', '"', '['] := by
      rcases ho with ⟨d, body, h1, -, -, rfl⟩ | ⟨n, body, -, -, rfl⟩
      · exact ⟨_, _, rfl, by rcases h1 with rfl | rfl <;> simp⟩
      · exact ⟨'[', _, by simp [longOpen]; rfl, by simp⟩
    refine reads_change' h ?_ ?_ ?_ ?_ (fun _ => g1)
    · simp only [List.mem_cons, List.not_mem_nil, or_false] at g2
      rcases g2 with rfl | rfl | rfl <;> decide
    · rcases g1 with rfl | rfl | rfl <;> decide
    · intro hk e
      exact hb hk hvv (by rw [e]; rfl)
    · intro hq
      exfalso
      revert hq
      rcases g1 with rfl | rfl | rfl <;> decide
  | comment hn' =>
    obtain ⟨v', rfl, -, -⟩ := hn'
    obtain ⟨u, rfl⟩ := comment_start h2
    exact reads_next _ h

private theorem exchanged_ne {k : SyntaxKind} {w w' : Text} (hw : w ≠ []) (h : Exchanged k w w') : w' ≠ [] := by
  cases h with
  | same => exact hw
  | name h => obtain ⟨c, v, rfl, -⟩ := h; simp
  | string _ h =>
    rcases h with ⟨d, b, -, -, -, rfl⟩ | ⟨n, b, -, -, rfl⟩
    · simp
    · simp [longOpen]
  | comment h => obtain ⟨v, rfl, -⟩ := h; simp
  | number h => exact h.1

/-- **C123**, the tokens. -/
theorem lexemes_exchange : ∀ {s : Text} {ls ls' : List Lexeme}, Lexemes s ls → Lex ls ls' →
    ApartL (ls.map lxOf) (ls'.map lxOf) →
    Lexemes (ls'.map (·.word)).flatten ls' := by
  intro s ls ls' h
  induction h generalizing ls' with
  | nil => intro hx _; cases hx; exact .nil
  | @cons s l rest ls hf hl ih =>
    intro hx hn
    obtain ⟨w, k, e⟩ := l
    cases hx with
    | @cons _ _ _ w' _ ls'' hx hxs =>
      have hs := hf.append
      simp only at hs
      rw [hs] at hf
      obtain ⟨hw, hr⟩ := firstLexeme_reads.1 hf
      have ih' := ih hxs ⟨fun i w w' k v v' h1 h2 h3 h4 => hn.number (i + 1) w w' k v v' (by simpa using h1) (by simpa using h2)
        (by simpa using h3) (by simpa using h4), fun i w k v v' h1 h2 h3 => hn.bracket (i + 1) w k v v' (by simpa using h1)
        (by simpa using h2) (by simpa using h3)⟩
      refine .cons (rest := (ls''.map (·.word)).flatten) ?_ ih'
      show FirstLexeme (w' ++ (ls''.map (·.word)).flatten) _ _
      refine firstLexeme_reads.2 ⟨exchanged_ne hw hx, ?_⟩
      cases hl with
      | nil =>
        cases hxs
        exact reads_word hw hr hx (fun _ _ c hc => by cases hc)
      | @cons _ l2 rest2 ls2 hf2 hl2 =>
        obtain ⟨v, k2, e2⟩ := l2
        cases hxs with
        | @cons _ _ _ v' _ ls3 hx2 hxs2 =>
          have hs2 := hf2.append
          rw [hs2] at hr hf2
          obtain ⟨hv, hr2⟩ := firstLexeme_reads.1 hf2
          have apart : k = .number → w ≠ w' ∨ v ≠ v' → ∀ c, v.head? = some c → nameChar c = false ∧ c ≠ '.' := by
            intro hk
            subst hk
            exact hn.number 0 w w' k2 v v' rfl rfl rfl rfl
          refine reads_before hv (reads_word hw hr hx fun hk hww c hc => apart hk (.inl hww) c ?_) hr2 hx2
            (fun hk hvv => apart hk (.inr hvv)) (fun hk hvv => by
              subst hk
              exact hn.bracket 0 w k2 v v' rfl rfl rfl hvv)
          obtain ⟨x, xs, rfl⟩ := List.exists_cons_of_ne_nil hv
          exact hc

/-! ### the tree -/

/-- Tokens with exchanged words. -/
inductive Ex : List Lx → List Lx → Prop
  | nil : Ex [] []
  | cons {k w w' ls ls'} : Exchanged k w w' → Ex ls ls' → Ex ((k, w) :: ls) ((k, w') :: ls')

theorem Ex.length {a b : List Lx} (h : Ex a b) : a.length = b.length := by
  induction h with
  | nil => rfl
  | cons _ _ ih => simp [ih]

theorem Ex.app {a b c d : List Lx} (h : Ex a b) (h' : Ex c d) : Ex (a ++ c) (b ++ d) := by
  induction h with
  | nil => exact h'
  | cons hx _ ih => exact .cons hx ih

theorem Ex.kinds {a b : List Lx} (h : Ex a b) : realKinds a = realKinds b := by
  induction h with
  | nil => rfl
  | @cons k w w' ls ls' _ _ ih =>
    simp only [realKinds] at ih ⊢
    simp only [List.filter_cons]
    by_cases ht : k.isTrivia = true
    · simpa [isTriv, ht] using ih
    · simpa [isTriv, ht] using ih

theorem Ex.lex : ∀ {ls : List Lexeme} {b : List Lx}, Ex (ls.map lxOf) b → ∃ ls', Lex ls ls' ∧ ls'.map lxOf = b := by
  intro ls
  induction ls with
  | nil => intro b h; cases h; exact ⟨[], .nil, rfl⟩
  | cons l ls ih =>
    intro b h
    obtain ⟨w, k, e⟩ := l
    cases h with
    | cons hx h =>
      obtain ⟨ls', h1, rfl⟩ := ih h
      exact ⟨_, .cons hx h1, rfl⟩

theorem Lex.ex {a b : List Lexeme} (h : Lex a b) : Ex (a.map lxOf) (b.map lxOf) := by
  induction h with
  | nil => exact .nil
  | cons hx _ ih => exact .cons hx ih

mutual
theorem retold_leaves : ∀ {g g' : Green}, Retold g g' → Ex g.leaves g'.leaves
  | _, _, .token h => by simpa [Green.leaves] using Ex.cons h .nil
  | _, _, .node h => by simpa [Green.leaves] using retoldL_leaves h
theorem retoldL_leaves : ∀ {gs gs' : List Green}, RetoldL gs gs' → Ex (Green.leavesL gs) (Green.leavesL gs')
  | _, _, .nil => by simpa [Green.leavesL] using Ex.nil
  | _, _, .cons h hs => by simpa [Green.leavesL] using (retold_leaves h).app (retoldL_leaves hs)
end

mutual
theorem retold_unique : ∀ {g a b : Green}, Retold g a → Retold g b → a.leaves = b.leaves → a = b
  | _, _, _, .token _, .token _, e => by simpa [Green.leaves] using e
  | _, _, _, .node h, .node h', e => by
    rw [retoldL_unique h h' (by simpa [Green.leaves] using e)]
theorem retoldL_unique : ∀ {g a b : List Green}, RetoldL g a → RetoldL g b → Green.leavesL a = Green.leavesL b → a = b
  | _, _, _, .nil, .nil, _ => rfl
  | _, _, _, .cons h hs, .cons h' hs', e => by
    simp only [Green.leavesL] at e
    obtain ⟨e1, e2⟩ := List.append_inj e (by rw [← (retold_leaves h).length, ← (retold_leaves h').length])
    rw [retold_unique h h' e1, retoldL_unique hs hs' e2]
end

theorem retoldL_app {a b c d : List Green} (h : RetoldL a b) (h' : RetoldL c d) : RetoldL (a ++ c) (b ++ d) := by
  match h with
  | .nil => exact h'
  | .cons g gs => exact .cons g (retoldL_app gs h')

theorem Ex.leaves {a b : List Lx} (h : Ex a b) : RetoldL (a.map leaf) (b.map leaf) := by
  induction h with
  | nil => exact .nil
  | cons hx _ ih => exact .cons (.token hx) ih

theorem same_app {g g' : Green} {a b c d : List SyntaxError} (h : SameErrors g g' a b) (h' : SameErrors g g' c d) :
    SameErrors g g' (a ++ c) (b ++ d) := by
  induction h with
  | nil => exact h'
  | cons hx _ ih => exact .cons hx ih

/-- The two sinks stand at the same token. -/
structure St (X X' todo todo' : List Lx) : Prop where
  before : ∃ q q', X = q ++ todo ∧ X' = q' ++ todo' ∧ q.length = q'.length
  ex : Ex todo todo'

theorem St.drop {X X' a b c d : List Lx} (h : St X X' (a ++ c) (b ++ d)) (hl : a.length = b.length) (hx : Ex c d) :
    St X X' c d := by
  obtain ⟨q, q', h1, h2, h3⟩ := h.before
  exact ⟨⟨q ++ a, q' ++ b, by simp [h1], by simp [h2], by simp [h3, hl]⟩, hx⟩

theorem Ex.trivia {a b : List Lx} (h : Ex a b) : Ex (a.takeWhile isTriv) (b.takeWhile isTriv) ∧ Ex (afterTriv a) (afterTriv b) := by
  induction h with
  | nil => exact ⟨.nil, .nil⟩
  | @cons k w w' ls ls' hx h ih =>
    simp only [afterTriv, List.takeWhile_cons, List.dropWhile_cons] at ih ⊢
    by_cases ht : k.isTrivia = true
    · simp only [isTriv, ht, ↓reduceIte]
      exact ⟨.cons hx ih.1, ih.2⟩
    · simp only [isTriv, ht]
      exact ⟨.nil, .cons hx h⟩

theorem St.trivia {X X' a b : List Lx} (h : St X X' a b) : St X X' (afterTriv a) (afterTriv b) := by
  have hx := h.ex.trivia
  have h' : St X X' (a.takeWhile isTriv ++ afterTriv a) (b.takeWhile isTriv ++ afterTriv b) := by
    simpa [afterTriv, List.takeWhile_append_dropWhile] using h
  exact h'.drop hx.1.length hx.2

theorem St.place {g g' : Green} {a b : List Lx} (h : St g.leaves g'.leaves a b) :
    AtSameToken g g' (wlen g.leaves - wlen a) (wlen g'.leaves - wlen b) := by
  obtain ⟨q, q', h1, h2, h3⟩ := h.before
  refine ⟨q.length, ?_, ?_⟩
  · rw [h1]; simp [wlen, wordsOf, List.flatMap_def]
  · rw [h2, h3]; simp [wlen, wordsOf, List.flatMap_def]

/-- What the two sinks do with a tree. -/
structure Out (g g' : Green) (p p' : Placed) : Prop where
  greens : RetoldL p.greens p'.greens
  errs : SameErrors g g' p.errs p'.errs
  rest : St g.leaves g'.leaves p.rest p'.rest

mutual
theorem place_ex (g g' : Green) (t : PTree) (a b : List Lx) (h : St g.leaves g'.leaves a b) :
    Out g g' (place (wlen g.leaves) t a) (place (wlen g'.leaves) t b) := by
  have ht := h.trivia
  have hl : RetoldL (lead a) (lead b) := h.ex.trivia.1.leaves
  cases t with
  | tok k =>
    simp only [place]
    generalize afterTriv a = ra at *
    generalize afterTriv b = rb at *
    obtain ⟨q, ex⟩ := ht
    cases ex with
    | nil => exact ⟨hl, .nil, ⟨q, .nil⟩⟩
    | @cons k w w' ls ls' hx hxs =>
      exact ⟨retoldL_app hl (.cons (.token hx) .nil), .nil,
        St.drop (a := [(k, w)]) (b := [(k, w')]) ⟨q, .cons hx hxs⟩ rfl hxs⟩
  | err e => exact ⟨.nil, .cons ⟨rfl, h.place, h.place⟩ .nil, h⟩
  | node k cs =>
    have o := placeL_ex g g' cs _ _ ht
    exact ⟨retoldL_app hl (.cons (.node o.greens) .nil), o.errs, o.rest⟩
  | errNode cs e =>
    have o := placeL_ex g g' cs _ _ ht
    exact ⟨retoldL_app hl (.cons (.node o.greens) .nil), same_app o.errs (.cons ⟨rfl, ht.place, o.rest.place⟩ .nil), o.rest⟩
theorem placeL_ex (g g' : Green) (ts : List PTree) (a b : List Lx) (h : St g.leaves g'.leaves a b) :
    Out g g' (placeL (wlen g.leaves) ts a) (placeL (wlen g'.leaves) ts b) := by
  cases ts with
  | nil => exact ⟨.nil, .nil, h⟩
  | cons t ts =>
    have o := place_ex g g' t a b h
    have o' := placeL_ex g g' ts _ _ o.rest
    exact ⟨retoldL_app o.greens o'.greens, same_app o.errs o'.errs, o'.rest⟩
end

theorem attach_ex (g g' : Green) : ∀ {a b : List Lexeme} (q q' : List Lx), Lex a b → q.length = q'.length →
    g.leaves = q ++ a.map lxOf → g'.leaves = q' ++ b.map lxOf →
    SameErrors g g' ((attach (wlen q) a).filterMap (·.2)) ((attach (wlen q') b).filterMap (·.2)) := by
  intro a b q q' h
  induction h generalizing q q' with
  | nil => intros; exact .nil
  | @cons k e w w' ls ls' hx hxs ih =>
    intro hl h1 h2
    have := ih (q ++ [(k, w)]) (q' ++ [(k, w')]) (by simp [hl]) (by simp [h1, lxOf]) (by simp [h2, lxOf])
    simp only [wlen_append, wlen_cons, wlen_nil, Nat.add_zero] at this
    simp only [attach]
    cases e with
    | none => simpa using this
    | some e =>
      simp only [Option.map_some, List.filterMap_cons_some]
      have p1 : AtSameToken g g' (wlen q) (wlen q') := by
        refine ⟨q.length, ?_, ?_⟩
        · rw [h1]; simp [wlen, wordsOf, List.flatMap_def]
        · rw [h2, hl]; simp [wlen, wordsOf, List.flatMap_def]
      have p2 : AtSameToken g g' (wlen q + w.len) (wlen q' + w'.len) := by
        refine ⟨q.length + 1, ?_, ?_⟩
        · rw [h1]; simp [wlen, wordsOf, List.flatMap_def, List.take_append, lxOf, List.take_of_length_le]
        · rw [h2, hl]; simp [wlen, wordsOf, List.flatMap_def, List.take_append, lxOf, List.take_of_length_le]
      exact .cons ⟨rfl, p1, p2⟩ this

end Exch

open Exch in
/-- **C123** Exchange any names for other names, any complete strings for strings, any numbers for whole numbers, any comments for comments to
the end of the line: the new text is parsed into the same tree with the words exchanged, and the same errors are
reported at the same places. The text need not be correct. -/
theorem C123_exchange (text : Text) (tree tree' : Green) (errors : List SyntaxError)
    (h : parseText text = .ok (tree, errors)) (hr : Retold tree tree') (hn : Apart tree tree') :
    ∃ errors', parseText tree'.text = .ok (tree', errors') ∧ SameErrors tree tree' errors errors' := by
  obtain ⟨ls, ts, h1, h2, h3, -, h4⟩ := parseText_main text
  rw [h] at h4
  simp only [Except.ok.injEq, Prod.mk.injEq] at h4
  obtain ⟨e1, e2⟩ := h4
  have hl : tree.leaves = ls.map lxOf := by
    have := placeL_leaves text.len ts (ls.map lxOf)
    rw [e1]; simp [Green.leaves, Green.leavesL, this]
  have hx := retold_leaves hr
  rw [hl] at hx
  obtain ⟨ls', hlex, hl'⟩ := hx.lex
  have ht : tree'.text = (ls'.map (·.word)).flatten := by
    rw [text_leaves, ← hl']; simp [wordsOf, lxOf, Function.comp_def]
  have hls' : Lexemes tree'.text ls' := by
    rw [ht]
    refine lexemes_exchange h1 hlex ?_
    rw [← hl, hl']
    exact hn
  obtain ⟨ls2, ts2, g1, g2, g3, -, g4⟩ := parseText_main tree'.text
  obtain rfl := Lexemes.unique g1 hls'
  rw [← hlex.ex.kinds] at g2 g3
  obtain rfl := parseKinds_ts h2 h3 g2 g3
  have n1 : text.len = wlen tree.leaves := by rw [hl, wlen, (lexemes_lx h1).1]
  have n2 : tree'.text.len = wlen tree'.leaves := by rw [← hl', wlen, (lexemes_lx g1).1]
  have o := placeL_ex tree tree' ts (ls.map lxOf) (ls2.map lxOf) ⟨⟨[], [], hl, hl'.symm, rfl⟩, hlex.ex⟩
  rw [← n1, ← n2] at o
  refine ⟨(placeL tree'.text.len ts (ls2.map lxOf)).errs ++ (attach 0 ls2).filterMap (·.2), g4.trans ?_, ?_⟩
  · refine congrArg Except.ok (Prod.ext ?_ rfl)
    refine (retold_unique hr ?_ ?_).symm
    · rw [e1]
      exact .node (.cons (.node (retoldL_app o.greens o.rest.ex.leaves)) .nil)
    · have := placeL_leaves tree'.text.len ts (ls2.map lxOf)
      rw [← hl']; simp [Green.leaves, Green.leavesL, this]
  · rw [e2]
    exact same_app o.errs (attach_ex tree tree' [] [] hlex rfl hl hl'.symm)

namespace Exch

theorem retold_kind {g g' : Green} (h : Retold g g') : g'.kind = g.kind ∧ g'.isNode = g.isNode := by
  cases h <;> exact ⟨rfl, rfl⟩

theorem retoldL_filter {a b : List Green} (h : RetoldL a b) : RetoldL (a.filter (·.isNode)) (b.filter (·.isNode)) := by
  match h with
  | .nil => exact .nil
  | .cons (g := g) h hs =>
    have hk := (retold_kind h).2
    have := retoldL_filter hs
    by_cases hg : g.isNode = true
    · rw [List.filter_cons_of_pos hg, List.filter_cons_of_pos (by rw [hk]; exact hg)]; exact .cons h this
    · rw [List.filter_cons_of_neg hg, List.filter_cons_of_neg (by rw [hk]; exact hg)]; exact this

theorem nodesIn_ex {g g' : Green} (h : Retold g g') : RetoldL (nodesIn g) (nodesIn g') := by
  cases h with
  | token => exact .nil
  | node h => exact retoldL_filter h

theorem retoldL_mem {a b : List Green} (h : RetoldL a b) {c' : Green} (hc : c' ∈ b) : ∃ c ∈ a, Retold c c' := by
  match h with
  | .nil => cases hc
  | .cons h hs =>
    rcases List.mem_cons.1 hc with rfl | hc
    · exact ⟨_, by simp, h⟩
    · obtain ⟨c, h1, h2⟩ := retoldL_mem hs hc
      exact ⟨c, by simp [h1], h2⟩

theorem retoldL_countP {a b : List Green} (h : RetoldL a b) (p : SyntaxKind → Bool) :
    b.countP (fun c => p c.kind) = a.countP (fun c => p c.kind) := by
  match h with
  | .nil => rfl
  | .cons h hs => simp only [List.countP_cons, (retold_kind h).1, retoldL_countP hs p]

mutual
theorem nodes_ex : ∀ {g g' : Green} (o o' : Nat) (p' : Nat × Green), Retold g g' → p' ∈ g'.nodes o' →
    ∃ p ∈ g.nodes o, Retold p.2 p'.2
  | _, _, _, _, _, .token _, h => by simp [Green.nodes] at h
  | _, _, o, o', p', .node (k := k) (cs := cs) hs, h => by
    simp only [Green.nodes, List.mem_cons] at h
    rcases h with rfl | h
    · exact ⟨(o, .node k cs), by simp [Green.nodes], .node hs⟩
    · obtain ⟨p, h1, h2⟩ := nodesL_ex o o' p' hs h
      exact ⟨p, by simp [Green.nodes, h1], h2⟩
theorem nodesL_ex : ∀ {g g' : List Green} (o o' : Nat) (p' : Nat × Green), RetoldL g g' → p' ∈ Green.nodesL o' g' →
    ∃ p ∈ Green.nodesL o g, Retold p.2 p'.2
  | _, _, _, _, _, .nil, h => by simp [Green.nodesL] at h
  | _, _, o, o', p', .cons h1 hs, h => by
    simp only [Green.nodesL, List.mem_append] at h
    rcases h with h | h
    · obtain ⟨p, h3, h4⟩ := nodes_ex o o' p' h1 h
      exact ⟨p, by simp [Green.nodesL, h3], h4⟩
    · obtain ⟨p, h3, h4⟩ := nodesL_ex _ _ p' hs h
      exact ⟨p, by simp only [Green.nodesL, List.mem_append]; exact .inr h3, h4⟩
end

mutual
theorem nodes_leaves : ∀ (g : Green) (o : Nat) (p : Nat × Green), p ∈ g.nodes o → ∀ l ∈ p.2.leaves, l ∈ g.leaves
  | .token _ _, _, _, h => by simp [Green.nodes] at h
  | .node k cs, o, p, h => by
    simp only [Green.nodes, List.mem_cons] at h
    rcases h with rfl | h
    · intro l hl; exact hl
    · intro l hl
      simp only [Green.leaves]
      exact nodesL_leaves cs o p h l hl
theorem nodesL_leaves : ∀ (g : List Green) (o : Nat) (p : Nat × Green), p ∈ Green.nodesL o g →
    ∀ l ∈ p.2.leaves, l ∈ Green.leavesL g
  | [], _, _, h => by simp [Green.nodesL] at h
  | g :: gs, o, p, h => by
    simp only [Green.nodesL, List.mem_append] at h
    intro l hl
    simp only [Green.leavesL, List.mem_append]
    rcases h with h | h
    · exact .inl (nodes_leaves g o p h l hl)
    · exact .inr (nodesL_leaves gs _ p h l hl)
end

theorem fine_ex {g g' : Green} (h : Retold g g') (hf : Fine g) (hs : ∀ w, (SyntaxKind.str, w) ∈ g'.leaves → StringOk w) :
    Fine g' := by
  have hk := (retold_kind h).1
  have hn := nodesIn_ex h
  refine ⟨fun hk' => ?_, fun hk' => ?_, fun w hw => ?_⟩
  · obtain ⟨m, h1, h2, h3, h4⟩ := hf.exprStmt (by rw [← hk]; exact hk')
    rw [h1] at hn
    generalize nodesIn g' = N at *
    match hn with
    | .cons (g' := m') hm .nil =>
      have hmn := nodesIn_ex hm
      refine ⟨m', rfl, by rw [(retold_kind hm).1]; exact h2, ?_, fun c hc => ?_⟩
      · rw [← h3]; exact retoldL_countP hmn (fun k => k == .callExpr || k == .methodCallExpr)
      · obtain ⟨c0, h5, h6⟩ := retoldL_mem hmn hc
        rw [(retold_kind h6).1]
        exact h4 c0 h5
  · obtain ⟨l, r, h1, h2, h3, h4⟩ := hf.assignStmt (by rw [← hk]; exact hk')
    rw [h1] at hn
    generalize nodesIn g' = N at *
    match hn with
    | .cons (g' := l') hl (.cons (g' := r') hr .nil) =>
      refine ⟨l', r', rfl, by rw [(retold_kind hl).1]; exact h2, by rw [(retold_kind hr).1]; exact h3, fun c hc => ?_⟩
      obtain ⟨c0, h5, h6⟩ := retoldL_mem (nodesIn_ex hl) hc
      rw [(retold_kind h6).1]
      exact h4 c0 h5
  · exact hs w (by rw [hw]; simp [Green.leaves, Green.leavesL])

end Exch

open Exch in
/-- **C123** So renaming, editing strings and editing comments never makes a correct file incorrect, as long as the
strings have only known escapes. -/
theorem C123_accepted (text : Text) (tree tree' : Green) (h : sourceFileParse text = .ok (tree, []))
    (hr : Retold tree tree') (hn : Apart tree tree')
    (hs : ∀ w, (SyntaxKind.str, w) ∈ tree'.leaves → StringOk w) :
    sourceFileParse tree'.text = .ok (tree', []) := by
  obtain ⟨h1, h2⟩ := (C78_accepted text tree).1 h
  obtain ⟨errors', h3, h4⟩ := C123_exchange text tree tree' [] h1 hr hn
  cases h4
  refine (C78_accepted _ _).2 ⟨h3, fun p' hp' => ?_⟩
  obtain ⟨p, h5, h6⟩ := nodes_ex 0 0 p' hr hp'
  exact fine_ex h6 (h2 p h5) fun w hw => hs w (nodes_leaves tree' 0 p' hp' _ hw)

/-! ### examples -/

namespace Exch
/-- the tree of `--c⏎local n=s` and of an `if` behind it -/
def sample (c n s : Text) (more : List Green) : Green :=
  .node .sourceFile [.node .block ([.token .comment c, .token .whitespace ['\n'],
    .node .localAssignStmt [.token .localKw "local".toList, .token .whitespace [' '],
      .node .multiName [.node .name [.token .ident n]], .token .eq ['='],
      .node .multivalExpr [.node .literal [.token .str s]]]] ++ more)]

def brokenIf : Green := .node .ifStmt [.token .ifKw "if".toList, .node .error [], .node .block []]

/-- the tree of `a=3n=4` -/
def numbers (n : Text) : Green :=
  .node .sourceFile [.node .block [
    .node .assignStmt [.node .multivalExpr [.node .nameRef [.token .ident ['a']]], .token .eq ['='],
      .node .multivalExpr [.node .literal [.token .number ['3']]]],
    .node .assignStmt [.node .multivalExpr [.node .nameRef [.token .ident n]], .token .eq ['='],
      .node .multivalExpr [.node .literal [.token .number ['4']]]]]]

/-- the tree of `a=3n=4`, with another first number -/
def numbers2 (m n : Text) : Green :=
  .node .sourceFile [.node .block [
    .node .assignStmt [.node .multivalExpr [.node .nameRef [.token .ident ['a']]], .token .eq ['='],
      .node .multivalExpr [.node .literal [.token .number m]]],
    .node .assignStmt [.node .multivalExpr [.node .nameRef [.token .ident n]], .token .eq ['='],
      .node .multivalExpr [.node .literal [.token .number ['4']]]]]]

/-- the tree of `a=m⏎b=4` -/
def numbers3 (m : Text) : Green :=
  .node .sourceFile [.node .block [
    .node .assignStmt [.node .multivalExpr [.node .nameRef [.token .ident ['a']]], .token .eq ['='],
      .node .multivalExpr [.node .literal [.token .number m]]], .token .whitespace ['\n'],
    .node .assignStmt [.node .multivalExpr [.node .nameRef [.token .ident ['b']]], .token .eq ['='],
      .node .multivalExpr [.node .literal [.token .number ['4']]]]]]

/-- the tree of `t[s]=1` -/
def indexed (s : Text) : Green :=
  .node .sourceFile [.node .block [.node .assignStmt [
    .node .multivalExpr [.node .indexExpr [.node .nameRef [.token .ident ['t']],
      .node .index [.token .lBracket ['['], .node .literal [.token .str s], .token .rBracket [']']]]],
    .token .eq ['='], .node .multivalExpr [.node .literal [.token .number ['1']]]]]]

theorem apart_none {g g' : Green} (h : ∀ l ∈ g.leaves, l.1 ≠ .number ∧ l.1 ≠ .lBracket) : Apart g g' :=
  ⟨fun _ _ _ _ _ _ h1 => absurd rfl (h _ (List.mem_of_getElem? h1)).1,
    fun _ _ _ _ _ h1 => absurd rfl (h _ (List.mem_of_getElem? h1)).2⟩

theorem sample_parse : parseText "--x\nlocal a='s'if".toList =
    .ok (sample "--x".toList ['a'] "'s'".toList [brokenIf],
      [⟨"Expected an expression", ⟨17, 17⟩⟩, ⟨"Expected ThenKw, got Eof", ⟨17, 17⟩⟩, ⟨"Expected EndKw, got Eof", ⟨17, 17⟩⟩]) := by
  rw [parseText_eq_eval]; decide +kernel

theorem sample_ok : sourceFileParse "--x\nlocal a='s'".toList = .ok (sample "--x".toList ['a'] "'s'".toList [], []) := by
  rw [sourceFileParse_eq_eval]; decide +kernel

theorem retold_refl : ∀ g : Green, Retold g g := by
  have key : ∀ n : Nat, (∀ g : Green, sizeOf g < n → Retold g g) ∧ ∀ gs : List Green, sizeOf gs < n → RetoldL gs gs := by
    intro n
    induction n with
    | zero => exact ⟨fun _ h => absurd h (by omega), fun _ h => absurd h (by omega)⟩
    | succ n ih =>
      refine ⟨fun g h => ?_, fun gs h => ?_⟩
      · cases g with
        | token k w => exact .token (.same k w)
        | node k cs => simp at h; exact .node (ih.2 cs (by omega))
      · cases gs with
        | nil => exact .nil
        | cons g gs => simp at h; exact .cons (ih.1 g (by omega)) (ih.2 gs (by omega))
  exact fun g => (key (sizeOf g + 1)).1 g (by omega)

theorem quoted_plain {d : Char} {body : Text} (h1 : ∀ c ∈ body, c ≠ '\x00' ∧ c ≠ '\n') (h2 : d ∉ body) : QuotedBody d body :=
  ⟨h1, fun p q e => absurd (by rw [e]; simp) h2⟩

theorem sample_retold (more : List Green) : Retold (sample "--x".toList ['a'] "'s'".toList more)
    (sample "-- note".toList "longer".toList "\"it's\"".toList more) := by
  have hm : RetoldL more more := by
    have := retold_refl (.node .block more)
    cases this with | node h => exact h
  have hq : IsQuoted "'s'".toList := ⟨'\'', ['s'], .inl rfl, quoted_plain (by decide) (by decide), by decide, rfl⟩
  refine .node (.cons (.node (.cons (.token (.comment ⟨" note".toList, rfl, by decide, ?_⟩)) (.cons (retold_refl _)
    (.cons (.node (.cons (retold_refl _) (.cons (retold_refl _) (.cons (.node (.cons (.node (.cons (.token (.name ?_)) .nil))
      .nil)) (.cons (retold_refl _) (.cons (.node (.cons (.node (.cons (.token (.string (.inl hq) (.inl ?_))) .nil)) .nil)) .nil)))))) hm)))) .nil)
  · intro t h; cases h
  · exact ⟨'l', "onger".toList, rfl, by decide, by decide, by decide⟩
  · exact ⟨'"', "it's".toList, .inr rfl, quoted_plain (by decide) (by decide), by decide, rfl⟩
end Exch

open Exch in
/-- The hypotheses of `C123_exchange` are met by a broken file, all three kinds of token exchanged at once. -/
theorem C123_exchange_example : ∃ errors', parseText "-- note\nlocal longer=\"it's\"if".toList =
    .ok (sample "-- note".toList "longer".toList "\"it's\"".toList [brokenIf], errors') ∧ errors'.length = 3 := by
  obtain ⟨errors', h1, h2⟩ := C123_exchange _ _ _ _ sample_parse (sample_retold _) (apart_none (by decide))
  refine ⟨errors', h1, ?_⟩
  cases h2 with | cons _ h2 => cases h2 with | cons _ h2 => cases h2 with | cons _ h2 => cases h2; rfl

open Exch in
/-- The hypotheses of `C123_accepted` are met. -/
theorem C123_accepted_example : sourceFileParse "-- note\nlocal longer=\"it's\"".toList =
    .ok (sample "-- note".toList "longer".toList "\"it's\"".toList [], []) := by
  have key := C123_accepted _ _ _ sample_ok (sample_retold _) ?_ ?_
  · have e : (sample "-- note".toList "longer".toList "\"it's\"".toList []).text = "-- note\nlocal longer=\"it's\"".toList := by
      decide
    rw [e] at key
    exact key
  · exact apart_none (by decide)
  · intro w hw
    simp [sample, Green.leaves, Green.leavesL] at hw
    subst hw
    exact ⟨"it's".toList, .plain (by decide) (.plain (by decide) (.plain (by decide) (.plain (by decide) .nil))),
      .inl ⟨'"', .inr rfl, rfl⟩⟩

open Exch in
/-- **C123** Why names directly behind numbers are excluded: in the correct file `a=3b=4` the second name may not be
changed to `e1`. -/
theorem C123_number_fails : parseText "a=3b=4".toList = .ok (numbers ['b'], []) ∧
    Retold (numbers ['b']) (numbers ['e', '1']) ∧ ¬ ∃ tree, parseText (numbers ['e', '1']).text = .ok (tree, []) := by
  refine ⟨by rw [parseText_eq_eval]; decide +kernel, ?_, ?_⟩
  · refine .node (.cons (.node (.cons (retold_refl _) (.cons (.node (.cons (.node (.cons (.node (.cons (.token (.name ?_))
      .nil)) .nil)) (.cons (retold_refl _) (.cons (retold_refl _) .nil)))) .nil))) .nil)
    exact ⟨'e', ['1'], rfl, by decide, by decide, by decide⟩
  · rintro ⟨tree, h⟩
    have h2 : parseText (numbers ['e', '1']).text = .ok (.node .sourceFile [.node .block [
        .node .assignStmt [.node .multivalExpr [.node .nameRef [.token .ident ['a']]], .token .eq ['='],
          .node .multivalExpr [.node .literal [.token .number ['3', 'e', '1']]]],
        .node .error [.token .eq ['=']], .node .error [.token .number ['4']]]],
        [⟨"Expected a statement", ⟨5, 6⟩⟩, ⟨"A literal cannot be the start of a statement", ⟨6, 7⟩⟩]) := by
      rw [parseText_eq_eval]; decide +kernel
    rw [h2] at h
    simp at h

namespace Exch
private theorem numbers3_retold (m m' : Text) (h : IsDigits m') : Retold (numbers3 m) (numbers3 m') := by
  refine .node (.cons (.node (.cons (.node (.cons (retold_refl _) (.cons (retold_refl _) (.cons (.node (.cons (.node (.cons
    (.token (.number h)) .nil)) .nil)) .nil)))) (.cons (retold_refl _) (.cons (retold_refl _) .nil)))) .nil)

private theorem long_plain {n : Nat} {body : Text} (h : ']' ∉ body) : LongBody n body :=
  fun p q e => absurd (by rw [e]; simp) h

private theorem sample_long : Retold (sample "--x".toList ['a'] "'s'".toList []) (sample "--x".toList ['a'] "[=[it's]=]".toList []) := by
  have hq : IsQuoted "'s'".toList := ⟨'\'', ['s'], .inl rfl, quoted_plain (by decide) (by decide), by decide, rfl⟩
  have hl : IsLong "[=[it's]=]".toList := ⟨1, "it's".toList, long_plain (by decide), by decide, by decide⟩
  exact .node (.cons (.node (.cons (retold_refl _) (.cons (retold_refl _)
    (.cons (.node (.cons (retold_refl _) (.cons (retold_refl _) (.cons (retold_refl _) (.cons (retold_refl _)
      (.cons (.node (.cons (.node (.cons (.token (.string (.inl hq) (.inr hl))) .nil)) .nil)) .nil)))))) .nil)))) .nil)

private theorem indexed_retold : Retold (indexed "'s'".toList) (indexed "[[x]]".toList) := by
  have hq : IsQuoted "'s'".toList := ⟨'\'', ['s'], .inl rfl, quoted_plain (by decide) (by decide), by decide, rfl⟩
  have hl : IsLong "[[x]]".toList := ⟨0, ['x'], long_plain (by decide), by decide, by decide⟩
  exact .node (.cons (.node (.cons (.node (.cons (.node (.cons (.node (.cons (retold_refl _) (.cons (.node (.cons (retold_refl _)
    (.cons (.node (.cons (.token (.string (.inl hq) (.inr hl))) .nil)) (.cons (retold_refl _) .nil)))) .nil))) .nil))
    (.cons (retold_refl _) (.cons (retold_refl _) .nil)))) .nil)) .nil)

private theorem numbers2_retold (m m' n : Text) (h : IsDigits m') : Retold (numbers2 m n) (numbers2 m' n) := by
  refine .node (.cons (.node (.cons (.node (.cons (retold_refl _) (.cons (retold_refl _) (.cons (.node (.cons (.node (.cons
    (.token (.number h)) .nil)) .nil)) .nil)))) (.cons (retold_refl _) .nil))) .nil)
end Exch

open Exch in
/-- The hypotheses of `C123_accepted` are met by a file in which a number is exchanged. -/
theorem C123_digits_example : sourceFileParse "a=120\nb=4".toList = .ok (numbers3 "120".toList, []) := by
  have key := C123_accepted "a=0x7f\nb=4".toList (numbers3 "0x7f".toList) (numbers3 "120".toList) ?_
    (numbers3_retold _ _ ⟨by decide, by decide⟩) ?_ ?_
  · exact key
  · rw [sourceFileParse_eq_eval]; decide +kernel
  · refine ⟨fun i w w' k v v' h1 h2 h3 h4 h5 c hc => ?_, fun i w k v v' h1 =>
      absurd rfl ((by decide : ∀ l ∈ (numbers3 "0x7f".toList).leaves, l.1 ≠ .lBracket) _ (List.mem_of_getElem? h1))⟩
    have e1 : (numbers3 "0x7f".toList).leaves = [(.ident, ['a']), (.eq, ['=']), (.number, "0x7f".toList), (.whitespace, ['\n']),
      (.ident, ['b']), (.eq, ['=']), (.number, ['4'])] := by decide
    rw [e1] at h1 h3
    match i, h1, h3 with
    | 2, _, h3 =>
      simp at h3
      obtain ⟨-, rfl⟩ := h3
      simp at hc
      subst hc
      decide
    | 0, h1, _ | 1, h1, _ | 3, h1, _ | 4, h1, _ | 5, h1, _ => simp at h1
    | 6, _, h3 => simp at h3
    | n + 7, h1, _ => simp at h1
  · intro w hw
    simp [numbers3, Green.leaves, Green.leavesL] at hw

open Exch in
/-- **C123** And why numbers directly before a name are: in the correct file `a=0xaxb=4` the number may not be changed to `0`. -/
theorem C123_digits_fails : parseText "a=0xaxb=4".toList = .ok (numbers2 "0xa".toList "xb".toList, []) ∧
    Retold (numbers2 "0xa".toList "xb".toList) (numbers2 ['0'] "xb".toList) ∧
    ¬ ∃ tree, parseText (numbers2 ['0'] "xb".toList).text = .ok (tree, []) := by
  refine ⟨by rw [parseText_eq_eval]; decide +kernel, numbers2_retold _ _ _ ⟨by decide, by decide⟩, ?_⟩
  rintro ⟨tree, h⟩
  have h2 : parseText (numbers2 ['0'] "xb".toList).text = .ok (.node .sourceFile [.node .block [
      .node .assignStmt [.node .multivalExpr [.node .nameRef [.token .ident ['a']]], .token .eq ['='],
        .node .multivalExpr [.node .literal [.token .number "0xb".toList]]],
      .node .error [.token .eq ['=']], .node .error [.token .number ['4']]]],
      [⟨"Expected a statement", ⟨5, 6⟩⟩, ⟨"A literal cannot be the start of a statement", ⟨6, 7⟩⟩]) := by
    rw [parseText_eq_eval]; decide +kernel
  rw [h2] at h
  simp at h

open Exch in
/-- The hypotheses of `C123_accepted` are met by a file in which a string is exchanged for a long one. -/
theorem C123_long_example : sourceFileParse "--x\nlocal a=[=[it's]=]".toList =
    .ok (sample "--x".toList ['a'] "[=[it's]=]".toList [], []) := by
  have key := C123_accepted _ _ _ sample_ok sample_long (apart_none (by decide)) ?_
  · have e : (sample "--x".toList ['a'] "[=[it's]=]".toList []).text = "--x\nlocal a=[=[it's]=]".toList := by
      decide
    rw [e] at key
    exact key
  · intro w hw
    simp [sample, Green.leaves, Green.leavesL] at hw
    subst hw
    exact ⟨"it's".toList, .plain (by decide) (.plain (by decide) (.plain (by decide) (.plain (by decide) .nil))),
      .inr ⟨1, by decide⟩⟩

open Exch in
/-- **C123** And why a long string may not be put directly behind `[`: in the correct file `t['s']=1`, `'s'` may not be changed to
`[[x]]`. -/
theorem C123_long_fails : parseText "t['s']=1".toList = .ok (indexed "'s'".toList, []) ∧
    Retold (indexed "'s'".toList) (indexed "[[x]]".toList) ∧
    ¬ ∃ tree, parseText (indexed "[[x]]".toList).text = .ok (tree, []) := by
  refine ⟨by rw [parseText_eq_eval]; decide +kernel, indexed_retold, ?_⟩
  rintro ⟨tree, h⟩
  have h2 : parseText (indexed "[[x]]".toList).text = .ok (.node .sourceFile [.node .block [
      .node .exprStmt [.node .multivalExpr [.node .callExpr [.node .nameRef [.token .ident ['t']],
        .node .callArgs [.token .str "[[[x]]".toList]]]],
      .node .error [.token .rBracket [']']], .node .error [.token .eq ['=']], .node .error [.token .number ['1']]]],
      [⟨"Expected a statement", ⟨7, 8⟩⟩, ⟨"Expected a statement", ⟨8, 9⟩⟩,
        ⟨"A literal cannot be the start of a statement", ⟨9, 10⟩⟩]) := by
    rw [parseText_eq_eval]; decide +kernel
  rw [h2] at h
  simp at h

end Verif
