import Verif.Spec.Inlining
import Verif.Proof.WrapChecks
import Verif.Props.Complaints

/-
Writing an expression between other tokens: the tokens.
-/
namespace Verif
namespace Put
open Lexer Accept PTree Lua Nest
open Spec (expressionKinds Reads Spelled openers closers)

private theorem number_closers {t : Text} (h : Spelled .number t) : ∀ q ∈ closers, q ∉ t := by
  intro q hq hm
  have nd : Char.isDigit q = false := (by decide : ∀ q ∈ closers, Char.isDigit q = false) q hq
  have nh : q ≠ '.' ∧ q ≠ 'e' ∧ q ≠ 'E' ∧ q ≠ '-' ∧ q ≠ '+' ∧ q ≠ '0' ∧ q ≠ 'x' ∧ q ≠ 'X' :=
    (by decide : ∀ q ∈ closers, q ≠ '.' ∧ q ≠ 'e' ∧ q ≠ 'E' ∧ q ≠ '-' ∧ q ≠ '+' ∧ q ≠ '0' ∧ q ≠ 'x' ∧ q ≠ 'X') q hq
  generalize hk : SyntaxKind.number = k at h
  cases h with
  | @fixed s k hm =>
    subst hk
    have : ∀ p ∈ keywords ++ operators, p.2 ≠ .number := by decide
    exact this _ hm rfl
  | name => cases hk
  | space => cases hk
  | lineComment => cases hk
  | blockComment => cases hk
  | quoted => cases hk
  | long => cases hk
  | tilde => cases hk
  | @number d ds tail h1 h2 h3 =>
    simp only [List.mem_cons, List.mem_append] at hm
    rcases hm with rfl | hm | hm
    · rw [nd] at h1; cases h1
    · have := h2 _ hm; rw [nd] at this; cases this
    · cases h3 with
      | mk h4 h5 =>
        rcases List.mem_append.1 hm with hm | hm
        · rcases h4 with rfl | ⟨ds, rfl, hd⟩
          · cases hm
          · simp only [List.mem_cons] at hm
            rcases hm with rfl | hm
            · exact nh.1 rfl
            · have := hd _ hm; rw [nd] at this; cases this
        · rcases h5 with rfl | ⟨c, sign, ds, rfl, hc, hs, hd⟩
          · cases hm
          · simp only [List.mem_cons, List.mem_append] at hm
            rcases hm with rfl | hm | hm
            · simp [nh] at hc
            · rcases hs with rfl | rfl
              · cases hm
              · simp at hm; simp [hm] at nh
            · have := hd _ hm; rw [nd] at this; cases this
  | @hex ds h1 =>
    simp only [List.mem_cons] at hm
    rcases hm with rfl | rfl | hm
    · simp at nh
    · simp at nh
    · have := h1 _ hm
      exact absurd this ((by decide : ∀ q ∈ closers, ¬ isHexDigit q = true) q hq)

private theorem grow : ∀ s ∈ operators, ∀ p ∈ operators, s.1.toList <+: p.1.toList →
    s.1.toList.length < p.1.toList.length →
    ∃ q ∈ operators, q.1.toList = p.1.toList.take (s.1.toList.length + 1) := by decide +kernel

private theorem op_last : ∀ q ∈ operators, q.1.toList.length ≥ 2 →
    ∃ x ∈ ['=', ':', '.'], q.1.toList.getLast? = some x := by decide +kernel

/-- Behind the last token of an expression, one of these characters may stand. -/
theorem reads_closer {w : Text} {k : SyntaxKind} {rest : Text} {c' : Char} (r' : Text) (h : Reads w k none rest)
    (hk : k ≠ .comment) (hk' : k ≠ .whitespace) (hc : c' ∈ closers) : Reads w k none (c' :: r') := by
  obtain ⟨hn, o1, o2, o3, o4, o5⟩ := (by decide : ∀ c ∈ closers, nameChar c = false ∧ c ≠ '=' ∧ c ≠ ':' ∧ c ≠ '.' ∧ c ≠ '-' ∧ c ≠ '[') c' hc
  generalize he : (none : Option String) = err at h
  cases h with
  | keyword h1 h2 => exact .keyword h1 (by simpa using hn)
  | name h1 h2 h3 h4 => exact .name h1 h2 h3 (by simpa using hn)
  | space h1 h2 h3 => exact absurd rfl hk'
  | @operator s k rest h1 h2 h3 h4 =>
    refine .operator h1 (fun p hp hpre => ?_) (by simpa using fun _ => o4) (by simpa using fun _ => ⟨o5, o1⟩)
    refine Nat.le_of_not_lt fun hlt => ?_
    have hsp : s.toList <+: p.1.toList := List.prefix_of_prefix_length_le (List.prefix_append _ _) hpre (Nat.le_of_lt hlt)
    obtain ⟨q, hq, eq⟩ := grow (s, k) h1 p hp hsp hlt
    have hql : q.1.toList.length = s.toList.length + 1 := by rw [eq, List.length_take]; simp only; omega
    have hq2 : q.1.toList <+: s.toList ++ c' :: r' := by rw [eq]; exact (List.take_prefix _ _).trans hpre
    have hq3 : q.1.toList = s.toList ++ [c'] := by
      have : s.toList ++ [c'] <+: s.toList ++ c' :: r' := ⟨r', by simp⟩
      exact (List.prefix_of_prefix_length_le hq2 this (by simp; omega)).eq_of_length (by simp; omega)
    have hs0 : s.toList.length ≥ 1 := by
      have : ∀ p ∈ operators, p.1.toList.length ≥ 1 := by decide
      exact this _ h1
    obtain ⟨x, hx, hl⟩ := op_last q hq (by omega)
    rw [hq3, List.getLast?_concat] at hl
    simp only [Option.some.injEq] at hl
    subst hl
    simp only [List.mem_cons, List.not_mem_nil, or_false] at hx
    rcases hx with hx | hx | hx
    · exact o1 hx
    · exact o2 hx
    · exact o3 hx
  | tilde h1 => exact .tilde (by simpa using o1)
  | number h1 h2 =>
    refine .number h1 fun p q hpq hp hsp => ?_
    cases p with
    | nil => exact hp rfl
    | cons x p =>
      simp only [List.cons_append, List.cons.injEq] at hpq
      obtain ⟨rfl, -⟩ := hpq
      exact number_closers hsp _ hc (by simp)
  | quoted h1 h2 h3 => exact .quoted h1 h2 h3
  | quotedEnd => cases he
  | quotedLine => cases he
  | long h1 h2 => exact .long h1 h2
  | longBad => cases he
  | longEnd => cases he
  | lineComment => exact absurd rfl hk
  | blockComment => exact absurd rfl hk
  | blockCommentEnd => exact absurd rfl hk
  | other => cases he

private theorem opener_grow : ∀ s ∈ operators, s.2 ∈ openers → ∀ p ∈ operators, s.1.toList <+: p.1.toList →
    s.1.toList.length < p.1.toList.length → s.1.toList = ['='] ∧ p.1.toList = ['=', '='] := by decide +kernel

/-- Behind these tokens, the first character of an expression may stand. -/
theorem reads_opener {w : Text} {k : SyntaxKind} {rest : Text} {c' : Char} (r' : Text) (h : Reads w k none rest)
    (hk : k = .whitespace ∨ k ∈ openers) (h1 : c' ≠ '=') (h2 : c' ∉ spaces) : Reads w k none (c' :: r') := by
  have no : k ∉ openers → k ≠ .whitespace → False := by
    intro a b
    rcases hk with h | h
    · exact b h
    · exact a h
  generalize he : (none : Option String) = err at h
  cases h with
  | keyword h3 h4 =>
    exfalso
    have : ∀ p ∈ keywords, p.2 ∉ openers ∧ p.2 ≠ .whitespace := by decide
    exact no (this _ h3).1 (this _ h3).2
  | space h3 h4 h5 => exact .space h3 h4 (by simpa using h2)
  | @operator s k rest h3 h4 h5 h6 =>
    have hko : k ∈ openers := by
      rcases hk with rfl | h
      · have : ∀ p ∈ operators, p.2 ≠ .whitespace := by decide
        exact absurd rfl (this _ h3)
      · exact h
    have hne : ∀ p ∈ operators, p.2 ∈ openers → p.1 ≠ "-" ∧ p.1 ≠ "[" := by decide
    refine .operator h3 (fun p hp hpre => ?_) (fun e => absurd e (hne _ h3 hko).1) (fun e => absurd e (hne _ h3 hko).2)
    refine Nat.le_of_not_lt fun hlt => ?_
    have hsp : s.toList <+: p.1.toList := List.prefix_of_prefix_length_le (List.prefix_append _ _) hpre (Nat.le_of_lt hlt)
    obtain ⟨e1, e2⟩ := opener_grow (s, k) h3 hko p hp hsp hlt
    simp only at e1
    rw [e1, e2] at hpre
    simp at hpre
    exact h1 hpre.symm
  | name | tilde | number | quoted | quotedEnd | quotedLine | long | longBad | longEnd | lineComment | blockComment | blockCommentEnd | other =>
    exact (no (by decide) (by decide)).elim

/-- The first character of an expression. -/
theorem first_char {w : Text} {k : SyntaxKind} {rest : Text} (h : Reads w k none rest) (hk : k ∈ exprFirst) :
    ∃ c t, w = c :: t ∧ c ≠ '=' ∧ c ∉ spaces := by
  have start : ∀ c : Char, nameStart c = true → c ≠ '=' ∧ c ∉ spaces := by
    intro c hc
    refine ⟨?_, fun hm => ?_⟩
    · rintro rfl; revert hc; decide
    · have : ∀ c ∈ spaces, nameStart c = false := by decide
      rw [this c hm] at hc; cases hc
  have digit : ∀ c : Char, c.isDigit = true → c ≠ '=' ∧ c ∉ spaces := by
    intro c hc
    refine ⟨?_, fun hm => ?_⟩
    · rintro rfl; revert hc; decide
    · have : ∀ c ∈ spaces, c.isDigit = false := by decide
      rw [this c hm] at hc; cases hc
  generalize he : (none : Option String) = err at h
  cases h with
  | keyword h1 h2 =>
    have : ∀ p ∈ keywords, p.1.toList ≠ [] ∧ ∀ c, p.1.toList.head? = some c → c ≠ '=' ∧ c ∉ spaces := by decide +kernel
    obtain ⟨a1, a2⟩ := this _ h1
    obtain ⟨c, t, e⟩ := List.exists_cons_of_ne_nil a1
    exact ⟨c, t, e, a2 c (by simp only at e ⊢; rw [e]; rfl)⟩
  | operator h1 =>
    have : ∀ p ∈ operators, p.2 ∈ exprFirst → p.1.toList ≠ [] ∧ ∀ c, p.1.toList.head? = some c → c ≠ '=' ∧ c ∉ spaces := by decide +kernel
    obtain ⟨a1, a2⟩ := this _ h1 hk
    obtain ⟨c, t, e⟩ := List.exists_cons_of_ne_nil a1
    exact ⟨c, t, e, a2 c (by simp only at e ⊢; rw [e]; rfl)⟩
  | name h1 => exact ⟨_, _, rfl, start _ h1⟩
  | number h1 =>
    generalize hkk : SyntaxKind.number = k at h1
    cases h1 with
    | @fixed s k hm =>
      subst hkk
      have : ∀ p ∈ keywords ++ operators, p.2 ≠ .number := by decide
      exact absurd rfl (this _ hm)
    | number h1 => exact ⟨_, _, rfl, digit _ h1⟩
    | hex => exact ⟨_, _, rfl, by decide⟩
    | name | space | lineComment | blockComment | quoted | long | tilde => cases hkk
  | quoted h1 =>
    refine ⟨_, _, rfl, ?_⟩
    rcases h1 with rfl | rfl <;> decide
  | long h1 =>
    refine ⟨'[', _, rfl, by decide⟩
  | quotedEnd | quotedLine | longBad | longEnd | other => cases he
  | space | tilde | lineComment | blockComment | blockCommentEnd => exact absurd hk (by decide)

/-- Behind some tokens the text may change, if the last one stays what it is. -/
theorem lexemes_follow {lb lb' : List Lexeme} {b' : Text} (hb' : Lexemes b' lb') :
    ∀ {la : List Lexeme} {text : Text}, Lexemes text (la ++ lb) → (∀ l ∈ la, l.err = none) →
    (∀ l rest, la.getLast? = some l → Reads l.word l.kind none rest → Reads l.word l.kind none b') →
    Lexemes ((la.map (·.word)).flatten ++ b') (la ++ lb') := by
  intro la
  induction la with
  | nil => intro _ _ _ _; exact hb'
  | cons l la ih =>
    intro text h he hl
    generalize hx : l :: la ++ lb = ls at h
    cases h with
    | nil => cases hx
    | @cons s l' rest ls h1 h2 =>
      simp only [List.cons_append, List.cons.injEq] at hx
      obtain ⟨rfl, rfl⟩ := hx
      have ih := ih h2 (fun x hx => he x (List.mem_cons_of_mem _ hx)) (fun x r hx => hl x r (by
        cases la with
        | nil => simp at hx
        | cons => simpa using hx))
      have her := he l (List.mem_cons_self ..)
      obtain ⟨w, k, err⟩ := l
      simp only at her
      subst her
      have e := h1.append
      simp only at e
      subst e
      obtain ⟨hw, hr1⟩ := firstLexeme_reads.1 h1
      have := Lexemes.cons (firstLexeme_reads.2 ⟨hw, (show Reads w k none ((la.map (·.word)).flatten ++ b') from ?_)⟩) ih
      · simpa using this
      · cases la with
        | nil => exact hl _ _ rfl hr1
        | cons l2 la =>
          have hne := h2.words_ne l2 (by simp)
          have hr : rest = l2.word ++ ((la ++ lb).map (·.word)).flatten := by rw [← h2.flatten]; simp
          obtain ⟨z, zs, hz⟩ := List.exists_cons_of_ne_nil hne
          rw [hr, hz] at hr1
          simp only [List.map_cons, List.flatten_cons, hz, List.cons_append]
          exact reads_next _ hr1

theorem lexemes_of_ok {text : Text} {tree : Green} (h : sourceFileParse text = .ok (tree, [])) :
    ∃ ls, Lexemes text ls ∧ ls.map lxOf = tree.leaves ∧ ∀ l ∈ ls, l.err = none := by
  obtain ⟨p1, -⟩ := (C78_accepted text tree).1 h
  obtain ⟨ls, ts, l1, -, -, -, e1⟩ := parseText_main text
  obtain ⟨ls', tree', errs', l1', q1, -, -, lv1, -⟩ := parseText_tree text
  obtain rfl := l1.unique l1'
  rw [p1] at q1 e1
  simp only [Except.ok.injEq, Prod.mk.injEq] at q1 e1
  obtain ⟨rfl, rfl⟩ := q1
  obtain ⟨-, f1⟩ := e1
  obtain ⟨-, x1⟩ := List.append_eq_nil_iff.1 f1.symm
  exact ⟨ls, l1, by rw [lv1], (errs_none 0).1 x1⟩

end Put
end Verif
