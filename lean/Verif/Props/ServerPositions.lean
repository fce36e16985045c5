import Verif.Spec.ServerPositions
import Verif.Props.LineIndex

/-
C88: what the server makes of every position and every change.
-/
namespace Verif
open LineIndex

namespace ServerSpec

theorem lines_ne (text : Text) : lines text ≠ [] := by
  cases text with
  | nil => simp [lines]
  | cons c cs =>
    rw [lines]
    split
    · simp
    · split <;> simp

theorem lines_cons {c : Char} {cs : Text} (h : c ≠ '\n') : ∃ l ls, lines cs = l :: ls ∧ lines (c :: cs) = (c :: l) :: ls := by
  obtain ⟨l, ls, e⟩ := List.exists_cons_of_ne_nil (lines_ne cs)
  exact ⟨l, ls, e, by rw [lines, if_neg h, e]⟩

theorem lines_lf (cs : Text) : lines ('\n' :: cs) = [] :: lines cs := by rw [lines, if_pos rfl]

theorem lines_clean (text : Text) : ∀ l ∈ lines text, ∀ c ∈ l, c ≠ '\n' := by
  induction text with
  | nil => simp [lines]
  | cons c cs ih =>
    by_cases h : c = '\n'
    · subst h
      rw [lines_lf]
      intro l hl
      rcases List.mem_cons.1 hl with rfl | hl
      · simp
      · exact ih l hl
    · obtain ⟨l, ls, e1, e2⟩ := lines_cons (cs := cs) h
      rw [e2]
      rw [e1] at ih
      intro m hm
      rcases List.mem_cons.1 hm with rfl | hm
      · intro d hd
        rcases List.mem_cons.1 hd with rfl | hd
        · exact h
        · exact ih l (by simp) d hd
      · exact ih m (by simp [hm])

/-- Joining the lines with line feeds gives the text. -/
theorem lines_join (text : Text) : ∃ l ls, lines text = l :: ls ∧ text = l ++ ls.flatMap ('\n' :: ·) := by
  induction text with
  | nil => exact ⟨[], [], rfl, rfl⟩
  | cons c cs ih =>
    obtain ⟨l, ls, e1, e2⟩ := ih
    by_cases h : c = '\n'
    · subst h
      exact ⟨[], l :: ls, by rw [lines_lf, e1], by simp [← e2]⟩
    · exact ⟨c :: l, ls, by rw [lines, if_neg h, e1], by rw [List.cons_append, ← e2]⟩

theorem wideAt_lines (text : Text) : ∀ (i col : Nat) (l : Text), (lines text)[i]? = some l →
    wideAt i col text = wideAt 0 (if i = 0 then col else 0) l := by
  induction text with
  | nil =>
    intro i col l h
    cases i with
    | zero => simp [lines] at h; subst h; rfl
    | succ i => simp [lines] at h
  | cons c cs ih =>
    intro i col l h
    by_cases hc : c = '\n'
    · subst hc
      rw [lines_lf] at h
      cases i with
      | zero => simp at h; subst h; simp [wideAt]
      | succ i =>
        simp only [List.getElem?_cons_succ] at h
        simp only [wideAt, if_true]
        rw [ih i 0 l h]
        simp
    · obtain ⟨l', ls, e1, e2⟩ := lines_cons (cs := cs) hc
      rw [e2] at h
      cases i with
      | zero =>
        simp only [List.getElem?_cons_zero, Option.some.injEq] at h
        subst h
        simp only [wideAt, if_neg hc, if_true]
        rw [ih 0 _ l' (by rw [e1]; rfl)]
        simp
      | succ i =>
        simp only [List.getElem?_cons_succ] at h
        simp only [wideAt, if_neg hc]
        rw [ih (i + 1) _ l (by rw [e1]; exact h)]
        simp

theorem nl_lines (text : Text) : ∀ (i pos : Nat), (pos :: nlFrom pos text)[i]? =
    ((lines text)[i]?).map fun _ => pos + (((lines text).take i).map fun l => l.len + 1).sum := by
  induction text with
  | nil =>
    intro i pos
    cases i <;> simp [nlFrom, lines]
  | cons c cs ih =>
    intro i pos
    by_cases hc : c = '\n'
    · subst hc
      rw [lines_lf, nlFrom, if_pos rfl]
      cases i with
      | zero => simp
      | succ i =>
        simp only [List.getElem?_cons_succ]
        rw [ih, size_lf]
        congr 1
        funext _
        simp only [List.take_succ_cons, List.map_cons, List.sum_cons, Text.len_nil]
        omega
    · obtain ⟨l', ls, e1, e2⟩ := lines_cons (cs := cs) hc
      rw [e2, nlFrom, if_neg hc]
      cases i with
      | zero => simp
      | succ i =>
        have := ih (i + 1) (pos + c.utf8Size)
        rw [e1] at this
        simp only [List.getElem?_cons_succ] at this ⊢
        rw [this]
        congr 1
        funext _
        simp only [List.take_succ_cons, List.map_cons, List.sum_cons, Text.len_cons]
        omega

theorem column_loop {L : Text} (hL : ∀ c ∈ L, c ≠ '\n') : ∀ c0 n : Nat,
    utf16Loop (c0 + n) (wideAt 0 c0 L) = some (c0 + column n L) := by
  induction L with
  | nil => intro c0 n; cases n <;> simp [wideAt, utf16Loop, column]
  | cons c cs ih =>
    intro c0 n
    have hc := hL c (by simp)
    have ih' := ih (fun d hd => hL d (by simp [hd]))
    cases n with
    | zero =>
      rw [column, Nat.add_zero]
      exact utf16Loop_stop c0 (c :: cs)
    | succ n =>
      simp only [wideAt, if_neg hc, column]
      by_cases h3 : c.val < 128
      · obtain ⟨e1, e2⟩ := size_ascii h3
        unfold u16 at e2
        rw [if_neg (by simp [h3]), List.nil_append, e2, if_pos (by omega), e1]
        have := ih' (c0 + 1) n
        rw [show c0 + (n + 1) = c0 + 1 + n by omega, this, Nat.add_sub_cancel]
        congr 1; omega
      · rw [if_pos (by simp [h3])]
        obtain ⟨e1, e2, e3⟩ := size_wide c c0
        simp only [List.cons_append, List.nil_append, utf16Loop]
        rw [if_pos (by omega), e1, e2, if_pos e3]
        by_cases hu : u16 c ≤ n + 1
        · rw [show (if c.val ≤ 0xFFFF then 1 else 2) = u16 c from rfl, if_pos hu]
          have := ih' (c0 + c.utf8Size) (n + 1 - u16 c)
          rw [show c0 + (n + 1) + (c.utf8Size - u16 c) = c0 + c.utf8Size + (n + 1 - u16 c) by omega, this]
          congr 1; omega
        · rw [show (if c.val ≤ 0xFFFF then 1 else 2) = u16 c from rfl, if_neg hu]
          have hu2 : u16 c = 2 ∧ n = 0 := by
            have : u16 c ≤ 2 := by unfold u16; split <;> omega
            omega
          obtain ⟨hu2, rfl⟩ := hu2
          have hs := Text.utf8Size_pos c
          rcases wideAt_zero_ge cs (c0 + c.utf8Size) with h | ⟨x, xs, h, h1, h2⟩
          · rw [h, utf16Loop]; congr 1; omega
          · rw [h, utf16Loop, if_neg (by omega)]; congr 1; omega

end ServerSpec

namespace Lsp
open ServerSpec

/-- **C88**: every position in every text is resolved as `ServerSpec.offset` says, and the server panics exactly if
there is no such line. -/
theorem C88_offset (text : Text) (pos : Position) : offset (LineIndex.new text) pos = ServerSpec.offset text pos := by
  unfold offset ServerSpec.offset
  rw [toUtf8_eq, new_wide]
  have hn := nl_lines text pos.line 0
  cases hl : (ServerSpec.lines text)[pos.line]? with
  | none =>
    rw [hl] at hn
    simp only [Option.map_none] at hn ⊢
    cases utf16Loop pos.col (wideAt pos.line 0 text) with
    | none => rfl
    | some c => simp [LineIndex.offset, new_newlines, hn]
  | some l =>
    rw [hl] at hn
    rw [wideAt_lines text pos.line 0 l hl]
    have := column_loop (lines_clean text l (List.mem_of_getElem? hl)) 0 pos.col
    rw [Nat.zero_add, Nat.zero_add] at this
    simp only [ite_self, this, Option.map_some, Option.bind_some, LineIndex.offset, new_newlines, hn, Nat.zero_add]

private theorem served_from (changes : List Change) : ∀ (counted text : Text) (limit : Option Nat),
    applyChanges text (LineIndex.new counted) (match limit with | none => .all | some n => .upToLineExclusive n) changes =
      servedFrom counted limit text changes := by
  induction changes with
  | nil => intro counted text limit; rfl
  | cons c cs ih =>
    intro counted text limit
    obtain ⟨range, ins⟩ := c
    cases range with
    | none => exact ih counted ins (some 0)
    | some r =>
      obtain ⟨s, e⟩ := r
      have hidx : (if IndexValid.covers (match limit with | none => .all | some n => .upToLineExclusive n) e.line
            then LineIndex.new counted else LineIndex.new text) =
          LineIndex.new (if limit.any (· ≤ e.line) then text else counted) := by
        cases limit with
        | none => simp [IndexValid.covers]
        | some n =>
          simp only [IndexValid.covers, Option.any_some]
          by_cases h : n ≤ e.line
          · simp [h, Nat.not_lt.2 h]
          · simp [h, Nat.lt_of_not_le h]
      simp only [applyChanges, servedFrom, hidx]
      generalize (if limit.any (· ≤ e.line) then text else counted) = now
      unfold applyChange textRange
      simp only [C88_offset]
      cases ServerSpec.offset now s with
      | none => rfl
      | some a =>
        cases ServerSpec.offset now e with
        | none => rfl
        | some b =>
          simp only
          split
          · rename_i r hr
            by_cases hab : a ≤ b
            · rw [if_pos hab] at hr
              cases hr
            · unfold Indel.apply
              simp only [if_neg hab, Option.bind_none]
          · rename_i r hr
            by_cases hab : a ≤ b
            · rw [if_pos hab] at hr
              cases hr
              cases Indel.apply ⟨ins, ⟨a, b⟩⟩ text with
              | none => rfl
              | some t => exact ih now t (some s.line)
            · rw [if_neg hab] at hr
              cases hr

/-- **C88**: the text after every list of changes is the one `ServerSpec.served` gives; the server panics exactly if there
is none. -/
theorem C88_changes (text : Text) (changes : List Change) :
    applyDocumentChanges text changes = ServerSpec.served text changes :=
  served_from changes text text none

/-- **C88**: if no range ends on an earlier line than it starts, this is one change after the other, each with the
positions of the text it is applied to. -/
theorem C88_forward (text : Text) (changes : List Change) (h : Forward changes) :
    ServerSpec.served text changes = ServerSpec.changed text changes := by
  rw [← C88_changes, applyDocumentChanges_sequential text changes h]
  unfold ServerSpec.changed
  congr 1
  funext t c
  congr 1
  funext t pos
  exact C88_offset t pos

/-- **C88**: when one change is applied: its positions are on lines of the text and denote character boundaries, the
first not after the second. -/
theorem C88_applies (text new : Text) (s e : Position) (ins : Text) :
    applyChange ServerSpec.offset text ⟨some (s, e), ins⟩ = some new ↔
      ∃ before deleted after, text = before ++ deleted ++ after ∧ new = before ++ ins ++ after ∧
        ServerSpec.offset text s = some (Text.len before) ∧
        ServerSpec.offset text e = some (Text.len before + Text.len deleted) := by
  constructor
  · intro h
    unfold applyChange at h
    simp only at h
    split at h
    · rename_i a b ha hb
      obtain ⟨X, D, Y, h1, h2, h3, h4⟩ := indel_apply_some h
      exact ⟨X, D, Y, h1, h2, by rw [ha, h3], by rw [hb]; exact congrArg some h4.symm⟩
    · cases h
  · rintro ⟨X, D, Y, rfl, rfl, h1, h2⟩
    unfold applyChange
    simp only [h1, h2]
    unfold Indel.apply
    have e1 : (X ++ D ++ Y).sliceTo X.len = some X := by rw [List.append_assoc]; exact Text.sliceTo_append X _
    have e2 : (X ++ D ++ Y).sliceFrom (X.len + D.len) = some Y := by
      rw [← Text.len_append]; exact Text.sliceFrom_append (X ++ D) Y
    simp only [e1, e2]
    rw [if_pos (Nat.le_add_right _ _)]

/-- **C88**: the lines are those of the text, and the server's reading of a position of a character boundary of a line
is that boundary. -/
theorem C88_lines (text : Text) : (∃ l ls, ServerSpec.lines text = l :: ls ∧ text = l ++ ls.flatMap ('\n' :: ·)) ∧
    (∀ l ∈ ServerSpec.lines text, '\n' ∉ l) ∧
    ∀ a b : Text, ServerSpec.column a.utf16Len (a ++ b) = a.len := by
  refine ⟨lines_join text, fun l hl h => lines_clean text l hl _ h rfl, fun a => ?_⟩
  induction a with
  | nil => intro b; cases b <;> simp [Text.utf16Len, ServerSpec.column]
  | cons c cs ih =>
    intro b
    have hp := u16_pos c
    rw [utf16Len_cons, Text.len_cons, List.cons_append]
    obtain ⟨n, hn⟩ : ∃ n, u16 c + Text.utf16Len cs = n + 1 := ⟨u16 c + Text.utf16Len cs - 1, by omega⟩
    rw [hn, ServerSpec.column]
    show (if u16 c ≤ n + 1 then c.utf8Size + ServerSpec.column (n + 1 - u16 c) (cs ++ b) else _) = _
    rw [if_pos (by omega), ← hn, Nat.add_sub_cancel_left, ih]

/-- `Forward` is needed in `C88_forward`: for a range that ends on an earlier line than it starts, the positions are resolved with an index
that may be out of date. -/
theorem C88_backward_fails : ServerSpec.served "a\nb".toList
      [⟨some (⟨1, 0⟩, ⟨1, 0⟩), "\n".toList⟩, ⟨some (⟨2, 0⟩, ⟨0, 4⟩), "x".toList⟩] = none ∧
    ServerSpec.changed "a\nb".toList
      [⟨some (⟨1, 0⟩, ⟨1, 0⟩), "\n".toList⟩, ⟨some (⟨2, 0⟩, ⟨0, 4⟩), "x".toList⟩] = some "a\n\nx".toList := by
  decide

/-- A lone carriage return does not end a line, a column past the end of the line runs into the next one, a column in
the middle of a surrogate pair is no boundary, and a line past the end panics. -/
example : ServerSpec.offset "a\r𝒳\nbc".toList ⟨0, 4⟩ = some 6 ∧ ServerSpec.offset "a\r𝒳\nbc".toList ⟨0, 6⟩ = some 8 ∧
    ServerSpec.offset "a\r𝒳\nbc".toList ⟨0, 3⟩ = some 5 ∧ ServerSpec.offset "a\r𝒳\nbc".toList ⟨2, 0⟩ = none ∧
    ServerSpec.changed "a\r𝒳\nbc".toList [⟨some (⟨0, 2⟩, ⟨0, 6⟩), ['x']⟩] = some "a\rxc".toList ∧
    Forward [⟨some (⟨0, 2⟩, ⟨0, 6⟩), ['x']⟩] := by
  refine ⟨by decide, by decide, by decide, by decide, by decide, ?_⟩
  intro c hc s e h
  simp only [List.mem_singleton] at hc
  subst hc
  simp only [Option.some.injEq, Prod.mk.injEq] at h
  obtain ⟨rfl, rfl⟩ := h
  decide

end Lsp
end Verif
