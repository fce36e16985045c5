import Verif.Props.LexerStrings

/-
C15, C16: long brackets and comments.
-/
namespace Verif
open Lexer Lua Accept

/-- What the code looks for instead of the close bracket: a `]` which is not preceded by a backslash and
is followed by exactly `n` equals signs.  `Plain n body` says the body has none. -/
def Plain (n : Nat) (body : Text) : Prop :=
  ∀ p q, body = p ++ ']' :: q → p.getLast? = some '\\' ∨ (q.takeWhile (· == '=')).length ≠ n

theorem skipClose_esc (cs : Text) : skipClose ('\\' :: ']' :: cs) = skipClose cs := by
  rw [skipClose]

theorem skipClose_other {c : Char} {cs : Text} (h : c ≠ ']') (h2 : c = '\\' → cs.head? ≠ some ']') :
    skipClose (c :: cs) = skipClose cs := by
  rw [skipClose]
  · rw [if_neg h]
  · rintro ds rfl rfl; simp at h2

theorem skipClose_bracket (cs : Text) : skipClose (']' :: cs) = ']' :: cs := by
  rw [skipClose]
  · simp
  · rintro ds h; exact absurd h (by decide)

/-- Scanning a body followed by a `]` stops at the first `]` not preceded by a backslash. -/
theorem skipClose_body : ∀ (body tail : Text), (tail = [] ∨ (tail.head? = some ']' ∧ body.getLast? ≠ some '\\')) →
    skipClose (body ++ tail) = tail ∨
    ∃ p q, body = p ++ ']' :: q ∧ p.getLast? ≠ some '\\' ∧ skipClose (body ++ tail) = ']' :: (q ++ tail) := by
  intro body
  generalize hn : body.length = n
  induction n using Nat.strongRecOn generalizing body with
  | ind n ih =>
    intro tail ht
    match body with
    | [] =>
      left
      rcases ht with rfl | ⟨h, _⟩
      · rfl
      · cases tail with
        | nil => simp at h
        | cons c cs => simp at h; subst h; exact skipClose_bracket cs
    | [c] =>
      by_cases hc : c = ']'
      · right; subst hc; exact ⟨[], [], rfl, by simp, skipClose_bracket _⟩
      · left
        rw [List.singleton_append, skipClose_other hc ?_]
        · rcases ih 0 (by simp at hn; omega) [] rfl tail (by
            rcases ht with h | h
            · exact Or.inl h
            · exact Or.inr ⟨h.1, by simp⟩) with h | ⟨p, q, h, _⟩
          · exact h
          · simp at h
        · intro e
          rcases ht with rfl | ⟨h, h2⟩
          · simp
          · subst e; simp at h2
    | c :: d :: cs =>
      by_cases hc : c = ']'
      · right; subst hc; exact ⟨[], d :: cs, rfl, by simp, skipClose_bracket _⟩
      · by_cases he : c = '\\' ∧ d = ']'
        · obtain ⟨rfl, rfl⟩ := he
          simp only [List.cons_append]
          rw [skipClose_esc]
          rcases ih cs.length (by simp at hn; omega) cs rfl tail (by
            rcases ht with h | h
            · exact Or.inl h
            · refine Or.inr ⟨h.1, ?_⟩
              cases cs with
              | nil => simp
              | cons x xs => simpa [List.getLast?_cons_cons] using h.2) with h | ⟨p, q, h1, h2, h3⟩
          · exact Or.inl h
          · right
            refine ⟨'\\' :: ']' :: p, q, by rw [h1]; rfl, ?_, h3⟩
            cases p with
            | nil => simp
            | cons x xs => simpa [List.getLast?_cons_cons] using h2
        · have h2 : c = '\\' → (d :: (cs ++ tail)).head? ≠ some ']' := by
            intro e h; simp at h; exact he ⟨e, h⟩
          simp only [List.cons_append]
          rw [skipClose_other hc h2]
          rcases ih (d :: cs).length (by simp at hn ⊢; omega) (d :: cs) rfl tail (by
            rcases ht with h | h
            · exact Or.inl h
            · refine Or.inr ⟨h.1, ?_⟩
              simpa [List.getLast?_cons_cons] using h.2) with h | ⟨p, q, h1, h2', h3⟩
          · exact Or.inl h
          · right
            refine ⟨c :: p, q, by rw [h1]; rfl, ?_, h3⟩
            cases p with
            | nil =>
              simp at h1 ⊢
              intro e; exact he ⟨e, h1.1⟩
            | cons x xs => simpa [List.getLast?_cons_cons] using h2'

theorem getLast_append_ne {a b : Text} (h : b ≠ []) : (a ++ b).getLast? = b.getLast? := by
  rw [List.getLast?_append]
  cases hb : b.getLast? with
  | none => simp [List.getLast?_eq_none_iff] at hb; exact absurd hb h
  | some x => rfl

/-- The condition is inherited by the part after a `]` and its equals signs. -/
theorem Plain.tail {n : Nat} {p q : Text} (h : Plain n (p ++ ']' :: q)) :
    Plain n (q.dropWhile (· == '=')) := by
  intro p' q' e
  have hq : q = q.takeWhile (· == '=') ++ (p' ++ ']' :: q') := by
    rw [← e]; exact List.takeWhile_append_dropWhile.symm
  have := h (p ++ ']' :: q.takeWhile (· == '=') ++ p') q' (by
    conv => lhs; rw [hq]
    simp)
  rcases this with h1 | h1
  · cases hp : p' with
    | nil =>
      exfalso
      rw [hp, List.append_nil] at h1
      cases ht : q.takeWhile (· == '=') with
      | nil => rw [ht] at h1; simp at h1
      | cons x xs =>
        rw [ht] at h1
        have hall : ∀ y ∈ (x :: xs), y = '=' := by
          intro y hy
          rw [← ht] at hy
          have := (List.all_eq_true.mp (List.all_takeWhile (p := (· == '=')) (l := q))) y hy
          simpa using this
        have hm : '\\' ∈ (x :: xs) := by
          rw [show p ++ ']' :: x :: xs = (p ++ [']']) ++ (x :: xs) by simp,
            getLast_append_ne (by simp)] at h1
          exact List.mem_of_getLast? h1
        exact absurd (hall _ hm) (by decide)
    | cons x xs =>
      left
      rw [hp, show p ++ ']' :: q.takeWhile (· == '=') ++ x :: xs
        = (p ++ ']' :: q.takeWhile (· == '=')) ++ (x :: xs) by simp, getLast_append_ne (by simp)] at h1
      exact h1
  · exact Or.inr h1

theorem dropWhile_append_of_head {p : Char → Bool} {a b : Text} (h : (b.head?.map p).getD false = false) :
    (a ++ b).dropWhile p = a.dropWhile p ++ b ∧ (a ++ b).takeWhile p = a.takeWhile p := by
  induction a with
  | nil =>
    cases b with
    | nil => simp
    | cons c cs => simp at h; simp [h]
  | cons x xs ih =>
    by_cases hx : p x
    · simp [hx, ih]
    · simp [hx]

/-- With a body the code can handle, the scan finds the close bracket. -/
theorem findClose_body (n : Nat) (rest : Text) : ∀ body : Text, Plain n body →
    body.getLast? ≠ some '\\' →
    findClose n (body ++ ']' :: (List.replicate n '=' ++ ']' :: rest)) = some (']' :: rest) := by
  intro body
  generalize hn : body.length = m
  induction m using Nat.strongRecOn generalizing body with
  | ind m ih =>
    intro hp hl
    rcases skipClose_body body (']' :: (List.replicate n '=' ++ ']' :: rest)) (Or.inr ⟨rfl, hl⟩) with h | ⟨p, q, h1, h2, h3⟩
    · rw [findClose_some _ h]
      have ht : (List.replicate n '=' ++ ']' :: rest).takeWhile (· == '=') = List.replicate n '=' := by
        rw [(dropWhile_append_of_head (by rfl)).2]
        simp [List.takeWhile_replicate]
      have hd : (List.replicate n '=' ++ ']' :: rest).dropWhile (· == '=') = ']' :: rest := by
        rw [(dropWhile_append_of_head (by rfl)).1]
        simp [List.dropWhile_replicate]
      rw [ht, hd]; simp
    · rw [findClose_some _ h3]
      have hd := @dropWhile_append_of_head (· == '=') q (']' :: (List.replicate n '=' ++ ']' :: rest)) (by rfl)
      rw [hd.1, hd.2]
      have hne : ¬ (q.takeWhile (· == '=')).length = n := by
        rcases hp p q h1 with h | h
        · exact absurd h h2
        · exact h
      rw [if_neg hne]
      have hsuf : q.dropWhile (· == '=') <:+ q := List.dropWhile_suffix _
      refine ih (q.dropWhile (· == '=')).length ?_ _ rfl (Plain.tail (h1 ▸ hp)) ?_
      · have := hsuf.length_le
        rw [h1] at hn; simp at hn; omega
      · intro hlast
        apply hl
        obtain ⟨u, hu⟩ := hsuf
        have hne : q.dropWhile (· == '=') ≠ [] := by intro e; rw [e] at hlast; simp at hlast
        rw [h1, ← hu, show p ++ ']' :: (u ++ q.dropWhile (· == '=')) = (p ++ ']' :: u) ++ q.dropWhile (· == '=') by simp,
          getLast_append_ne hne]
        exact hlast

/-- With no candidate close bracket in the rest of the text, the scan reaches the end. -/
theorem findClose_none_of_plain (n : Nat) : ∀ s : Text, Plain n s → findClose n s = none := by
  intro s
  generalize hn : s.length = m
  induction m using Nat.strongRecOn generalizing s with
  | ind m ih =>
    intro hp
    have h0 := skipClose_body s [] (Or.inl rfl)
    rw [List.append_nil] at h0
    rcases h0 with h | ⟨p, q, h1, h2, h3⟩
    · exact findClose_none n h
    · rw [List.append_nil] at h3
      rw [findClose_some n h3]
      have hne : ¬ (q.takeWhile (· == '=')).length = n := by
        rcases hp p q h1 with h | h
        · exact absurd h h2
        · exact h
      rw [if_neg hne]
      refine ih (q.dropWhile (· == '=')).length ?_ _ rfl (Plain.tail (h1 ▸ hp))
      have := (List.dropWhile_suffix (p := (· == '=')) (l := q)).length_le
      rw [h1] at hn; simp at hn; omega

theorem bracketForm_open (n : Nat) (s : Text) :
    bracketForm (List.replicate n '=' ++ '[' :: s) = closeForm n ('[' :: s) := by
  unfold bracketForm
  rw [(dropWhile_append_of_head (by rfl)).1, (dropWhile_append_of_head (by rfl)).2]
  simp [List.takeWhile_replicate, List.dropWhile_replicate]

theorem lexForm_long (n : Nat) (s : Text) :
    lexForm '[' (List.replicate n '=' ++ '[' :: s)
      = ((.str, (closeForm n ('[' :: s)).1), (closeForm n ('[' :: s)).2) := by
  have h : (List.replicate n '=' ++ '[' :: s).head? = some '[' ∨
      (List.replicate n '=' ++ '[' :: s).head? = some '=' := by
    cases n with
    | zero => left; rfl
    | succ n => right; rfl
  rw [← bracketForm_open]
  unfold lexForm
  rw [if_neg (by decide), if_neg (by decide), if_pos rfl, if_pos h]

theorem closeForm_body (n : Nat) (body rest : Text) (hp : Plain n body) (hl : body.getLast? ≠ some '\\') :
    closeForm n ('[' :: (body ++ longClose n ++ rest)) = (none, rest) := by
  have : body ++ longClose n ++ rest = body ++ ']' :: (List.replicate n '=' ++ ']' :: rest) := by
    simp [longClose]
  simp only [closeForm, acceptSpec, beq_self_eq_true, if_true]
  rw [this, findClose_body n rest body hp hl]
  simp

theorem closeForm_none (n : Nat) (s : Text) (hp : Plain n s) :
    closeForm n ('[' :: s) = (some "Could not find bracket string close", []) := by
  simp only [closeForm, acceptSpec, beq_self_eq_true, if_true, findClose_none_of_plain n s hp]

/-- C15, closed long strings: `[==[ body ]==]` is one string token without error.  Partial: the body must
not contain an unescaped `]` followed by exactly `n` equals signs (the code stops there, whatever
follows), nor end in a backslash (the code takes `\]` as an escape). -/
theorem C15_long_string_partial (n : Nat) (body rest : Text) (hp : Plain n body)
    (hl : body.getLast? ≠ some '\\') :
    firstToken (longOpen n ++ body ++ longClose n ++ rest)
      = .ok (some (⟨.str, Text.len (longOpen n ++ body ++ longClose n)⟩, none)) := by
  have h := lexForm_long n (body ++ longClose n ++ rest)
  rw [closeForm_body n body rest hp hl] at h
  have := firstToken_of_form (w := longOpen n ++ body ++ longClose n) h (by simp [longOpen])
  simpa [longOpen] using this

/-- C15, unclosed long strings are reported and extend to the end of the text. -/
theorem C15_long_string_unterminated_partial (n : Nat) (s : Text) (hp : Plain n s) :
    firstToken (longOpen n ++ s)
      = .ok (some (⟨.str, Text.len (longOpen n ++ s)⟩,
          some ⟨"Could not find bracket string close", ⟨0, Text.len (longOpen n ++ s)⟩⟩)) := by
  have h := lexForm_long n s
  rw [closeForm_none n s hp] at h
  have := firstToken_of_form (w := longOpen n ++ s) h (by simp [longOpen])
  simpa [longOpen] using this

/-- The hypothesis implies that the close bracket is the first one (the condition of the property). -/
theorem Plain.firstClose {n : Nat} {body : Text} (hp : Plain n body) (hl : ∀ p q, body = p ++ '\\' :: ']' :: q → False) :
    FirstClose n body := by
  intro p q h
  -- compare the lengths of `p` and `body`
  by_cases hlen : p.length < body.length
  · exfalso
    have h1 : p ++ (longClose n ++ q) = body ++ longClose n := by rw [h]; simp
    obtain ⟨t, ht⟩ := List.append_eq_append_iff.mp h1 |>.resolve_right (by
      rintro ⟨t, ht, _⟩; rw [ht] at hlen; simp at hlen; omega)
    obtain ⟨hb, ht2⟩ := ht
    -- body = p ++ t, longClose n ++ q = t ++ longClose n
    cases t with
    | nil => rw [hb] at hlen; simp at hlen
    | cons x xs =>
      simp only [longClose, List.cons_append, List.cons.injEq] at ht2
      obtain ⟨rfl, ht2⟩ := ht2
      rcases hp p xs hb with h2 | h2
      · obtain ⟨p', hp'⟩ : ∃ p', p = p' ++ ['\\'] := by
          rw [List.getLast?_eq_some_iff] at h2
          exact h2
        exact hl p' xs (by rw [hb, hp']; simp)
      · -- the equals signs after the `]`
        apply h2
        have e := congrArg (List.takeWhile (· == '=')) ht2
        rw [show List.replicate n '=' ++ [']'] ++ q = List.replicate n '=' ++ ']' :: q by simp,
          (dropWhile_append_of_head (p := (· == '=')) (by rfl)).2,
          (dropWhile_append_of_head (p := (· == '=')) (by rfl)).2] at e
        rw [← e]; simp [List.takeWhile_replicate]
  · have hl2 := congrArg List.length h
    simp [longClose] at hl2
    exact List.length_eq_zero_iff.mp (by omega)

/-- A non-trivial body: `a ]=] \] b` at level 2. -/
example : Plain 2 ['a', ']', '=', ']', '\\', ']', 'b'] ∧
    (['a', ']', '=', ']', '\\', ']', 'b'] : Text).getLast? ≠ some '\\' := by
  refine ⟨?_, by decide⟩
  intro p q h
  match p with
  | [] => simp at h
  | [_] => simp at h; rw [← h.2]; right; decide
  | [_, _] => simp at h
  | [_, _, _] => simp at h; rw [← h.2.2.2]; right; decide
  | [_, _, _, _] => simp at h
  | [_, _, _, _, x] => simp at h; left; simp [← h.2.2.2.2.1]
  | [_, _, _, _, _, _] => simp at h
  | _ :: _ :: _ :: _ :: _ :: _ :: _ :: _ => simp at h

/-- C15 fails without the restriction: `[[a]b]]` is cut after `[[a]`. -/
theorem C15_long_string_fails :
    ¬ ∀ (n : Nat) (body rest : Text), FirstClose n body →
      firstToken (longOpen n ++ body ++ longClose n ++ rest)
        = .ok (some (⟨.str, Text.len (longOpen n ++ body ++ longClose n)⟩, none)) := by
  intro h
  have hfc : FirstClose 0 ['a', ']', 'b'] := by
    intro p q e
    simp [longClose] at e
    match p with
    | [] => simp at e
    | [_] => simp at e
    | [_, _] => simp at e
    | [_, _, _] => simp at e; exact e.2.2.2
    | [_, _, _, _] => simp at e
    | _ :: _ :: _ :: _ :: _ :: p => have := congrArg List.length e; simp at this
  have h1 := h 0 ['a', ']', 'b'] [] hfc
  have h2 : lexForm '[' ['[', 'a', ']', 'b', ']', ']']
      = ((.str, some "Invalid bracket notation"), ['b', ']', ']']) := by
    have := lexForm_long 0 ['a', ']', 'b', ']', ']']
    simp only [List.replicate, List.nil_append] at this
    rw [this]
    have hf : findClose 0 ['a', ']', 'b', ']', ']'] = some ['b', ']', ']'] := by
      rw [findClose_some (cs := ['b', ']', ']']) 0 (by decide)]; decide
    simp [closeForm, acceptSpec, hf]
  have h3 := firstToken_of_form (w := ['[', '[', 'a', ']']) h2 rfl
  simp only [longOpen, longClose, List.replicate, List.nil_append, List.append_nil, List.cons_append] at h1
  rw [h3] at h1
  simp at h1

/-! ### C16 -/

/-- C16, line comments: `--` up to the next newline or the end of the text, unless it starts a long
bracket `--[[`. -/
theorem C16_line_comment (s : Text) (h : ∀ t, s ≠ '[' :: '[' :: t) :
    firstToken ('-' :: '-' :: s)
      = .ok (some (⟨.comment, Text.len ('-' :: '-' :: s.takeWhile (· != '\n'))⟩, none)) := by
  have hc : commentForm s = s.dropWhile (· != '\n') := by
    have hfun : (fun c : Char => !(c == '\n')) = (· != '\n') := rfl
    by_cases h1 : s.head? = some '['
    · cases s with
      | nil => simp at h1
      | cons c cs =>
        simp at h1
        subst h1
        rw [commentForm_one, List.dropWhile_cons]
        · simp; rfl
        · intro h2
          cases cs with
          | nil => simp at h2
          | cons d ds => simp at h2; subst h2; exact h ds rfl
    · rw [commentForm_line h1]; rfl
  have hf : lexForm '-' ('-' :: s) = ((.comment, none), s.dropWhile (· != '\n')) := by
    rw [← hc]; rfl
  exact firstToken_of_form (w := '-' :: '-' :: s.takeWhile (· != '\n')) hf (by
    rw [List.cons_append, List.cons_append, List.takeWhile_append_dropWhile])

/-- C16, block comments.  Partial: only level 0 brackets, bodies as in `C15_long_string_partial`, and
only when a newline or the end of the text follows the comment. -/
theorem C16_block_comment_partial (body rest : Text) (hp : Plain 0 body) (hl : body.getLast? ≠ some '\\')
    (hr : rest = [] ∨ rest.head? = some '\n') :
    firstToken ('-' :: '-' :: (longOpen 0 ++ body ++ longClose 0 ++ rest))
      = .ok (some (⟨.comment, Text.len ('-' :: '-' :: (longOpen 0 ++ body ++ longClose 0))⟩, none)) := by
  have hf : lexForm '-' ('-' :: (longOpen 0 ++ body ++ longClose 0 ++ rest)) = ((.comment, none), rest) := by
    have h1 : lexForm '-' ('-' :: (longOpen 0 ++ body ++ longClose 0 ++ rest))
        = ((.comment, none), commentForm (longOpen 0 ++ body ++ longClose 0 ++ rest)) := rfl
    have h2 : longOpen 0 ++ body ++ longClose 0 ++ rest = '[' :: '[' :: (body ++ longClose 0 ++ rest) := by
      simp [longOpen]
    have h3 : commentForm ('[' :: '[' :: (body ++ longClose 0 ++ rest))
        = (bracketForm ('[' :: (body ++ longClose 0 ++ rest))).2.dropWhile (fun c => !(c == '\n')) := rfl
    have h4 := bracketForm_open 0 (body ++ longClose 0 ++ rest)
    simp only [List.replicate, List.nil_append] at h4
    rw [h1, h2, h3, h4, closeForm_body 0 body rest hp hl]
    rcases hr with rfl | hr
    · rfl
    · cases rest with
      | nil => rfl
      | cons c cs => simp at hr; subst hr; rfl
  exact firstToken_of_form (w := '-' :: '-' :: (longOpen 0 ++ body ++ longClose 0)) hf (by simp)

/-- C16 fails without the restriction: in `--[[a]]x` the `x` is swallowed by the comment. -/
theorem C16_block_comment_fails :
    ¬ ∀ (n : Nat) (body rest : Text), FirstClose n body →
      firstToken ('-' :: '-' :: (longOpen n ++ body ++ longClose n ++ rest))
        = .ok (some (⟨.comment, Text.len ('-' :: '-' :: (longOpen n ++ body ++ longClose n))⟩, none)) := by
  intro h
  have hfc : FirstClose 0 ['a'] := by
    intro p q e
    simp [longClose] at e
    match p with
    | [] => simp at e
    | [_] => simp at e; exact e.2
    | _ :: _ :: _ => have := congrArg List.length e; simp at this; omega
  have h1 := h 0 ['a'] ['x'] hfc
  have h2 : lexForm '-' ['-', '[', '[', 'a', ']', ']', 'x'] = ((.comment, none), []) := by
    have hc : closeForm 0 ('[' :: (['a'] ++ longClose 0 ++ ['x'])) = (none, ['x']) :=
      closeForm_body 0 ['a'] ['x'] (by
        intro p q e
        match p with
        | [] => simp at e
        | _ :: p => have := congrArg List.length e; simp at this) (by decide)
    have h4 := bracketForm_open 0 (['a'] ++ longClose 0 ++ ['x'])
    simp only [List.replicate, List.nil_append] at h4
    rw [hc] at h4
    have h3 : lexForm '-' ('-' :: '[' :: '[' :: (['a'] ++ longClose 0 ++ ['x']))
      = ((.comment, none), (bracketForm ('[' :: (['a'] ++ longClose 0 ++ ['x']))).2.dropWhile (fun c => !(c == '\n'))) := rfl
    rw [h4] at h3
    exact h3
  have h3 := firstToken_of_form (w := ['-', '-', '[', '[', 'a', ']', ']', 'x']) h2 rfl
  simp only [longOpen, longClose, List.replicate, List.nil_append, List.append_nil, List.cons_append] at h1
  rw [h3] at h1
  simp [Text.len, Char.utf8Size] at h1

/-- Block comments of a higher level are not recognised: they end at the first newline. -/
theorem C16_block_comment_level_fails :
    firstToken ['-', '-', '[', '=', '[', '\n', ']', '=', ']'] = .ok (some (⟨.comment, 5⟩, none)) := by
  exact C16_line_comment ['[', '=', '[', '\n', ']', '=', ']'] (by intro t h; simp at h)

end Verif
