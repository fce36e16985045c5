import Verif.Props.LineIndex

/-
C33: what a client makes of the positions it is sent.
-/
namespace Verif
namespace Lsp
open LspSpec

private theorem off_crlf0 (cs : Text) (col : Nat) : LspSpec.offset ('\r' :: '\n' :: cs) ⟨0, col⟩ = some 0 := by
  simp [LspSpec.offset, lines, column]
private theorem off_cr0 (cs : Text) (col : Nat) : LspSpec.offset ('\r' :: cs) ⟨0, col⟩ = some 0 := by
  cases cs with
  | nil => simp [LspSpec.offset, lines, column]
  | cons c cs =>
    by_cases h : c = '\n'
    · subst h; exact off_crlf0 _ _
    · simp [LspSpec.offset, lines, column, h]
private theorem off_lf0 (cs : Text) (col : Nat) : LspSpec.offset ('\n' :: cs) ⟨0, col⟩ = some 0 := by
  simp [LspSpec.offset, lines, column]
private theorem off_succ {l : Text × Text} {text cs : Text} (h : lines text = l :: lines cs) (line col : Nat) :
    LspSpec.offset text ⟨line + 1, col⟩ = (LspSpec.offset cs ⟨line, col⟩).map (l.1.len + l.2.len + ·) := by
  simp only [LspSpec.offset, h, List.getElem?_cons_succ, List.take_succ_cons, List.foldr_cons]
  cases (lines cs)[line]? with
  | none => rfl
  | some q => simp only [Option.map_some]; congr 1; omega
private theorem off_crlf (cs : Text) (line col : Nat) :
    LspSpec.offset ('\r' :: '\n' :: cs) ⟨line + 1, col⟩ = (LspSpec.offset cs ⟨line, col⟩).map (2 + ·) := by
  rw [off_succ (l := ([], ['\r', '\n'])) (cs := cs) (by simp [lines])]; rfl
private theorem off_cr {cs : Text} (h : cs.head? ≠ some '\n') (line col : Nat) :
    LspSpec.offset ('\r' :: cs) ⟨line + 1, col⟩ = (LspSpec.offset cs ⟨line, col⟩).map (1 + ·) := by
  rw [off_succ (l := ([], ['\r'])) (cs := cs)]
  · rfl
  · cases cs with
    | nil => simp [lines]
    | cons c cs => simp at h; simp [lines, h]
private theorem off_lf (cs : Text) (line col : Nat) :
    LspSpec.offset ('\n' :: cs) ⟨line + 1, col⟩ = (LspSpec.offset cs ⟨line, col⟩).map (1 + ·) := by
  rw [off_succ (l := ([], ['\n'])) (cs := cs) (by simp [lines])]; rfl

private theorem lines_char {c : Char} (cs : Text) (h1 : c ≠ '\r') (h2 : c ≠ '\n') :
    ∃ content eol ls, lines cs = (content, eol) :: ls ∧ lines (c :: cs) = (c :: content, eol) :: ls := by
  cases h : lines cs with
  | nil => exact absurd h (lines_ne_nil cs)
  | cons l ls =>
    refine ⟨l.1, l.2, ls, rfl, ?_⟩
    simp [lines, h, h1, h2]

private theorem off_char0 {c : Char} (cs : Text) (h1 : c ≠ '\r') (h2 : c ≠ '\n') (col : Nat) :
    LspSpec.offset (c :: cs) ⟨0, col⟩ =
      if (if c.val ≤ 0xFFFF then 1 else 2) ≤ col then
        (LspSpec.offset cs ⟨0, col - if c.val ≤ 0xFFFF then 1 else 2⟩).map (c.utf8Size + ·) else some 0 := by
  obtain ⟨content, eol, ls, e1, e2⟩ := lines_char cs h1 h2
  simp only [LspSpec.offset, e1, e2, List.getElem?_cons_zero, List.take_zero, List.foldr_nil, column]
  generalize (if c.val ≤ 0xFFFF then 1 else 2) = u
  by_cases h : u ≤ col
  · rw [if_pos h, if_pos h]; simp
  · rw [if_neg h, if_neg h]
private theorem off_char {c : Char} (cs : Text) (h1 : c ≠ '\r') (h2 : c ≠ '\n') (line col : Nat) :
    LspSpec.offset (c :: cs) ⟨line + 1, col⟩ = (LspSpec.offset cs ⟨line + 1, col⟩).map (c.utf8Size + ·) := by
  obtain ⟨content, eol, ls, e1, e2⟩ := lines_char cs h1 h2
  simp only [LspSpec.offset, e1, e2, List.getElem?_cons_succ, List.take_succ_cons, List.foldr_cons, Text.len_cons]
  cases ls[line]? with
  | none => rfl
  | some q => simp only [Option.map_some]; congr 1; omega

/-- what is on an earlier line for the server is before, for the client -/
private theorem off_before (B : Text) : ∀ (A : Text) (line col : Nat), line < Text.lineFeeds A →
    ∃ o, LspSpec.offset (A ++ B) ⟨line, col⟩ = some o ∧ o < Text.len A := by
  intro A
  induction hl : A.length using Nat.strongRecOn generalizing A with
  | ind n ih =>
    intro line col h
    cases A with
    | nil => simp [Text.lineFeeds] at h
    | cons c A =>
      subst hl
      have hlen := Text.len_cons c A
      have hpos : 0 < c.utf8Size := c.utf8Size_pos
      by_cases hn : c = '\n'
      · subst hn
        cases line with
        | zero => exact ⟨0, off_lf0 _ _, by omega⟩
        | succ line =>
          obtain ⟨o, h1, h2⟩ := ih A.length (by simp) A rfl line col (by simp [Text.lineFeeds] at h ⊢; omega)
          refine ⟨1 + o, ?_, ?_⟩
          · rw [List.cons_append, off_lf, h1]; rfl
          · have : '\n'.utf8Size = 1 := by decide
            omega
      · by_cases hr : c = '\r'
        · subst hr
          cases line with
          | zero => exact ⟨0, off_cr0 _ _, by omega⟩
          | succ line =>
            have h1 : '\r'.utf8Size = 1 := by decide
            cases A with
            | nil => simp [Text.lineFeeds] at h
            | cons d A =>
              by_cases hd : d = '\n'
              · subst hd
                obtain ⟨o, h2, h3⟩ := ih A.length (by simp; omega) A rfl line col (by simp [Text.lineFeeds] at h ⊢; omega)
                refine ⟨2 + o, ?_, ?_⟩
                · rw [List.cons_append, List.cons_append, off_crlf, h2]; rfl
                · have : '\n'.utf8Size = 1 := by decide
                  have := Text.len_cons '\n' A
                  omega
              · obtain ⟨o, h2, h3⟩ := ih (d :: A).length (by simp) (d :: A) rfl line col (by
                  simp [Text.lineFeeds, hd] at h ⊢; omega)
                refine ⟨1 + o, ?_, ?_⟩
                · rw [List.cons_append, off_cr (by simpa using hd), h2]; rfl
                · omega
        · have hf : Text.lineFeeds A = Text.lineFeeds (c :: A) := by simp [Text.lineFeeds, hn]
          cases line with
          | zero =>
            rw [List.cons_append, off_char0 _ hr hn]
            generalize (if c.val ≤ 0xFFFF then 1 else 2) = u
            by_cases hu : u ≤ col
            · obtain ⟨o, h1, h2⟩ := ih A.length (by simp) A rfl 0 (col - u) (by omega)
              exact ⟨c.utf8Size + o, by rw [if_pos hu, h1]; rfl, by omega⟩
            · exact ⟨0, by rw [if_neg hu], by omega⟩
          | succ line =>
            obtain ⟨o, h1, h2⟩ := ih A.length (by simp) A rfl (line + 1) col (by omega)
            exact ⟨c.utf8Size + o, by rw [List.cons_append, off_char _ hr hn, h1]; rfl, by omega⟩

private theorem lastLine_cons (c : Char) (A : Text) :
    Text.lastLine (c :: A) = if Text.lineFeeds A = 0 ∧ c ≠ '\n' then c :: A else Text.lastLine A := by
  have key : ∀ A : Text, Text.lineFeeds A = 0 ↔ ∀ x ∈ A, x ≠ '\n' := by
    intro A; simp [Text.lineFeeds, List.filter_eq_nil_iff]
  unfold Text.lastLine
  rw [List.reverse_cons]
  by_cases h : Text.lineFeeds A = 0
  · have ht : A.reverse.takeWhile (· ≠ '\n') = A.reverse := by
      have := List.takeWhile_append_of_pos (p := (· ≠ '\n')) (l₁ := A.reverse) (l₂ := []) (by
        intro x hx
        simpa using (key A).1 h x (by simpa using hx))
      simpa using this
    have : (A.reverse ++ [c]).takeWhile (· ≠ '\n') = A.reverse ++ [c].takeWhile (· ≠ '\n') := by
      rw [List.takeWhile_append_of_pos]
      intro x hx
      simpa using (key A).1 h x (by simpa using hx)
    rw [this, ht]
    by_cases hc : c = '\n'
    · simp [hc]
    · simp [hc, h]
  · rw [if_neg (by simp [h])]
    congr 1
    rw [List.takeWhile_append]
    rw [if_neg]
    intro hlen
    apply h
    rw [key]
    intro x hx
    have : A.reverse.takeWhile (· ≠ '\n') = A.reverse := by
      have := List.takeWhile_prefix (l := A.reverse) (· ≠ '\n')
      exact this.eq_of_length hlen
    have hall := List.all_takeWhile (p := (· ≠ '\n')) (l := A.reverse)
    rw [this, List.all_eq_true] at hall
    simpa using hall x (by simpa using hx)

private theorem lastLine_all {A : Text} (h : Text.lineFeeds A = 0) : Text.lastLine A = A := by
  cases A with
  | nil => rfl
  | cons c A =>
    rw [lastLine_cons, if_pos]
    by_cases hc : c = '\n'
    · subst hc; simp [Text.lineFeeds] at h
    · exact ⟨by simpa [Text.lineFeeds, hc] using h, hc⟩

private theorem client_pos (B : Text) : ∀ A : Text,
    ∃ o, LspSpec.offset (A ++ B) ⟨Text.lineFeeds A, Text.utf16Len (Text.lastLine A)⟩ = some o ∧ o ≤ Text.len A ∧ (o = Text.len A ↔ NoLoneCr A) := by
  intro A
  induction hl : A.length using Nat.strongRecOn generalizing A with
  | ind n ih =>
    cases A with
    | nil =>
      refine ⟨0, ?_, by simp, by simp [NoLoneCr, Text.len]⟩
      have : ∀ B : Text, LspSpec.offset B ⟨0, 0⟩ = some 0 := by
        intro B
        cases B with
        | nil => rfl
        | cons c B =>
          by_cases hr : c = '\r'
          · subst hr; exact off_cr0 _ _
          · by_cases hn : c = '\n'
            · subst hn; exact off_lf0 _ _
            · rw [off_char0 _ hr hn, if_neg]
              split <;> omega
      exact this B
    | cons c A =>
      subst hl
      have hlen := Text.len_cons c A
      have hpos : 0 < c.utf8Size := c.utf8Size_pos
      by_cases hn : c = '\n'
      · subst hn
        have e1 : '\n'.utf8Size = 1 := by decide
        have e2 : Text.lineFeeds ('\n' :: A) = Text.lineFeeds A + 1 := by simp [Text.lineFeeds]
        have e3 : Text.lastLine ('\n' :: A) = Text.lastLine A := by rw [lastLine_cons, if_neg (by simp)]
        obtain ⟨o, h1, h2, h3⟩ := ih A.length (by simp) A rfl
        refine ⟨1 + o, ?_, by omega, ?_⟩
        · rw [e2, e3, List.cons_append, off_lf, h1]; rfl
        · rw [show NoLoneCr ('\n' :: A) ↔ NoLoneCr A by simp [NoLoneCr], ← h3]; omega
      · by_cases hr : c = '\r'
        · subst hr
          have e1 : '\r'.utf8Size = 1 := by decide
          by_cases hz : Text.lineFeeds ('\r' :: A) = 0
          · refine ⟨0, ?_, by omega, ?_⟩
            · rw [hz]; exact off_cr0 _ _
            · constructor
              · intro h; omega
              · intro h
                cases A with
                | nil => simp [NoLoneCr] at h
                | cons d A =>
                  have hd : d ≠ '\n' := by rintro rfl; simp [Text.lineFeeds] at hz
                  simp [NoLoneCr, hd] at h
          · cases A with
            | nil => simp [Text.lineFeeds] at hz
            | cons d A =>
              by_cases hd : d = '\n'
              · subst hd
                have e3 : '\n'.utf8Size = 1 := by decide
                have e4 := Text.len_cons '\n' A
                obtain ⟨o, h1, h2, h3⟩ := ih A.length (by simp; omega) A rfl
                have e5 : Text.lineFeeds ('\r' :: '\n' :: A) = Text.lineFeeds A + 1 := by simp [Text.lineFeeds]
                have e6 : Text.lastLine ('\r' :: '\n' :: A) = Text.lastLine A := by
                  rw [lastLine_cons, if_neg (by simp [Text.lineFeeds]), lastLine_cons, if_neg (by simp)]
                refine ⟨2 + o, ?_, by omega, ?_⟩
                · rw [e5, e6, List.cons_append, List.cons_append, off_crlf, h1]; rfl
                · rw [show NoLoneCr ('\r' :: '\n' :: A) ↔ NoLoneCr A by simp [NoLoneCr], ← h3]; omega
              · have e5 : Text.lineFeeds ('\r' :: d :: A) = Text.lineFeeds (d :: A) := by simp [Text.lineFeeds]
                obtain ⟨m, hm⟩ : ∃ m, Text.lineFeeds (d :: A) = m + 1 := ⟨_, (Nat.succ_pred_eq_of_ne_zero (e5 ▸ hz)).symm⟩
                obtain ⟨o, h1, h2⟩ := off_before B (d :: A) m (Text.lastLine ('\r' :: d :: A)).utf16Len (by omega)
                refine ⟨1 + o, ?_, by omega, ?_⟩
                · rw [e5, hm, List.cons_append, off_cr (by simpa using hd), h1]; rfl
                · refine ⟨fun h => by omega, fun h => ?_⟩
                  simp [NoLoneCr, hd] at h
        · have hf : Text.lineFeeds (c :: A) = Text.lineFeeds A := by simp [Text.lineFeeds, hn]
          have hno : NoLoneCr (c :: A) ↔ NoLoneCr A := by simp [NoLoneCr, hr]
          obtain ⟨o, h1, h2, h3⟩ := ih A.length (by simp) A rfl
          refine ⟨c.utf8Size + o, ?_, by omega, ?_⟩
          · rw [hf]
            by_cases hz : Text.lineFeeds A = 0
            · rw [lastLine_cons, if_pos ⟨hz, hn⟩, hz, List.cons_append, off_char0 _ hr hn]
              rw [hz, lastLine_all hz] at h1
              rw [if_pos (by simp only [Text.utf16Len]; omega)]
              have : Text.utf16Len (c :: A) - (if c.val ≤ 0xFFFF then 1 else 2) = Text.utf16Len A := by
                simp only [Text.utf16Len]; omega
              rw [this, h1]; rfl
            · rw [lastLine_cons, if_neg (by simp [hz])]
              obtain ⟨m, hm⟩ : ∃ m, Text.lineFeeds A = m + 1 := ⟨_, (Nat.succ_pred_eq_of_ne_zero hz).symm⟩
              rw [hm] at h1 ⊢
              rw [List.cons_append, off_char _ hr hn, h1]; rfl
          · rw [hno, ← h3]; omega

/-- **C33** What a client following the protocol makes of the position it is sent for any place in a text: it never looks
behind that place, and it is at that very place exactly if before it every carriage return is followed by a line feed. -/
theorem position_client_exact (A B : Text) : ∃ pos o, position (LineIndex.new (A ++ B)) A.len = some pos ∧
    LspSpec.offset (A ++ B) pos = some o ∧ o ≤ Text.len A ∧ (o = Text.len A ↔ NoLoneCr A) := by
  obtain ⟨o, h1, h2, h3⟩ := client_pos B A
  exact ⟨_, o, position_at A B, h1, h2, h3⟩

/-- **C33** The same for ranges. -/
theorem range_client_exact (text : Text) (r : Range) (h : RangeOf text r) :
    ∃ s e a b, range (LineIndex.new text) r = some (s, e) ∧ LspSpec.offset text s = some a ∧ LspSpec.offset text e = some b ∧
      a ≤ r.start ∧ b ≤ r.stop ∧
      ∀ A B C, text = A ++ B ++ C → A.len = r.start → A.len + B.len = r.stop →
        ((a = r.start ↔ NoLoneCr A) ∧ (b = r.stop ↔ NoLoneCr (A ++ B))) := by
  obtain ⟨h1, h2, ⟨A, B, h3, h4⟩, ⟨C, D, h5, h6⟩⟩ := h
  obtain ⟨s, a, g1, g2, g3, g4⟩ := position_client_exact A B
  obtain ⟨e, b, g5, g6, g7, g8⟩ := position_client_exact C D
  rw [← h3, h4] at g1
  rw [← h3] at g2
  rw [← h5, h6] at g5
  rw [← h5] at g6
  refine ⟨s, e, a, b, ?_, g2, g6, by omega, by omega, ?_⟩
  · unfold range; rw [g1, g5]
  · intro X Y Z hx hx1 hx2
    have e1 : A = X := by
      rw [h3, List.append_assoc] at hx
      exact (Text.append_inj_len hx (by omega)).1
    have e2 : C = X ++ Y := by
      rw [h5] at hx
      exact (Text.append_inj_len hx (by rw [Text.len_append]; omega)).1
    subst e1 e2
    exact ⟨by rw [← g4]; omega, by rw [← g8]; omega⟩

/-- A place behind `\r\n`, and one behind a lone `\r`. -/
example : NoLoneCr "a\r\né".toList ∧ ¬ NoLoneCr "a\rb".toList := by
  constructor <;> simp [NoLoneCr]

end Lsp
end Verif
