import Verif.Proof.LineIndexProof

namespace Verif
open LineIndex

namespace LspSpec

/-- The byte length of some lines. -/
def sumLens (ls : List (Text × Text)) : Nat := ls.foldr (fun l n => l.1.len + l.2.len + n) 0

theorem lines_ne_nil (text : Text) : lines text ≠ [] := by
  induction text using lines.induct with
  | case1 => simp [lines]
  | case2 cs ih => simp [lines]
  | case3 cs h ih => rw [lines]; simp; exact h
  | case4 cs ih => simp [lines]
  | case5 c cs h1 h2 h3 content eol ls h ih =>
    rw [lines, h]; simp
    all_goals assumption
  | case6 c cs h1 h2 h3 h ih => exact absurd h ih

/-- The line before which a boundary lies. -/
theorem lines_of_boundary (text : Text) : ∀ A B : Text, text = A ++ B → NoLoneCr text →
    ¬ (∃ A' B', A = A' ++ ['\r'] ∧ B = '\n' :: B') →
    ∃ content eol q, (lines text)[A.lineFeeds]? = some (content, eol) ∧ content = A.lastLine ++ q := by
  have nilcase : ∀ text : Text, ∃ content eol q, (lines text)[Text.lineFeeds []]? = some (content, eol) ∧
      content = Text.lastLine [] ++ q := by
    intro text
    have := lines_ne_nil text
    cases h : lines text with
    | nil => exact absurd h this
    | cons l ls => exact ⟨l.1, l.2, l.1, rfl, rfl⟩
  have hlast : ∀ Q X : Text, Text.lastLine (Q ++ '\n' :: X) = Text.lastLine X := by
    intro Q X
    obtain ⟨P, h1, h2, h3⟩ := lastLine_decomp X
    have : Q ++ '\n' :: X = (Q ++ '\n' :: P) ++ X.lastLine := by
      conv => lhs; rw [h1]
      simp [List.append_assoc]
    rw [this]
    apply lastLine_eq _ h2
    right
    rcases h3 with rfl | ⟨R, rfl⟩
    · exact ⟨Q, rfl⟩
    · exact ⟨Q ++ '\n' :: R, by simp⟩
  induction text using lines.induct with
  | case1 =>
    intro A B h _ _
    obtain ⟨rfl, rfl⟩ := List.append_eq_nil_iff.mp h.symm
    exact nilcase _
  | case2 cs ih =>
    intro A B h hn hb
    cases A with
    | nil => exact nilcase _
    | cons a A =>
      injection h with h1 h2
      subst h1
      cases A with
      | nil => exact absurd ⟨[], cs, rfl, h2.symm⟩ hb
      | cons a A =>
        injection h2 with h1 h2
        subst h1
        obtain ⟨content, eol, q, h3, h4⟩ := ih A B h2 (by simpa [NoLoneCr] using hn) (by
          rintro ⟨A', B', rfl, rfl⟩
          exact hb ⟨'\r' :: '\n' :: A', B', rfl, rfl⟩)
        refine ⟨content, eol, q, ?_, ?_⟩
        · have : Text.lineFeeds ('\r' :: '\n' :: A) = Text.lineFeeds A + 1 := by simp [Text.lineFeeds]
          rw [this, lines, List.getElem?_cons_succ]; exact h3
        · rw [h4, show '\r' :: '\n' :: A = ['\r'] ++ '\n' :: A from rfl, hlast]
  | case3 cs h ih =>
    intro A B _ hn _
    rw [NoLoneCr] at hn
    · exact absurd rfl hn.1
    · rintro cs' _ rfl; exact h cs' rfl
  | case4 cs ih =>
    intro A B h hn hb
    cases A with
    | nil => exact nilcase _
    | cons a A =>
      injection h with h1 h2
      subst h1
      obtain ⟨content, eol, q, h3, h4⟩ := ih A B h2 (by
          rw [NoLoneCr] at hn
          · exact hn.2
          · intro _ h'; simp at h') (by
        rintro ⟨A', B', rfl, rfl⟩
        exact hb ⟨'\n' :: A', B', rfl, rfl⟩)
      refine ⟨content, eol, q, ?_, ?_⟩
      · have : Text.lineFeeds ('\n' :: A) = Text.lineFeeds A + 1 := by simp [Text.lineFeeds]
        rw [this, lines, List.getElem?_cons_succ]; exact h3
      · rw [h4, show '\n' :: A = [] ++ '\n' :: A from rfl, hlast]
  | case5 c cs h1 h2 h3 content eol ls h ih =>
    intro A B he hn hb
    cases A with
    | nil => exact nilcase _
    | cons a A =>
      injection he with h4 h5
      subst h4
      have hc : c ≠ '\n' := h3
      obtain ⟨content', eol', q, h6, h7⟩ := ih A B h5 (by
          rw [NoLoneCr] at hn
          · exact hn.2
          · rintro _ rfl rfl; exact h1 _ rfl rfl) (by
        rintro ⟨A', B', rfl, rfl⟩
        exact hb ⟨c :: A', B', rfl, rfl⟩)
      have hlf : Text.lineFeeds (c :: A) = Text.lineFeeds A := by simp [Text.lineFeeds, hc]
      rw [hlf]
      have hl : lines (c :: cs) = (c :: content, eol) :: ls := by
        rw [lines]
        · rw [h]
        all_goals assumption
      rw [h] at h6
      rw [hl]
      obtain ⟨P, g1, g2, g3⟩ := lastLine_decomp A
      cases hA : Text.lineFeeds A with
      | zero =>
        rw [hA] at h6
        simp only [List.getElem?_cons_zero, Option.some.injEq, Prod.mk.injEq] at h6
        obtain ⟨rfl, rfl⟩ := h6
        have hno : ∀ d ∈ A, d ≠ '\n' := by
          intro d hd hdn
          have : d ∈ A.filter (· = '\n') := List.mem_filter.mpr ⟨hd, by simpa using hdn⟩
          unfold Text.lineFeeds at hA
          rw [List.length_eq_zero_iff] at hA
          rw [hA] at this; simp at this
        have e1 : Text.lastLine A = A := lastLine_eq (P := []) (Or.inl rfl) hno
        have e2 : Text.lastLine (c :: A) = c :: A := lastLine_eq (P := []) (Or.inl rfl) (by
          intro d hd
          rcases List.mem_cons.mp hd with rfl | hd
          · exact hc
          · exact hno d hd)
        exact ⟨c :: content, eol, q, rfl, by rw [e2, h7, e1]; rfl⟩
      | succ n =>
        rw [hA] at h6
        refine ⟨content', eol', q, by simpa using h6, ?_⟩
        rw [h7]
        congr 1
        rcases g3 with rfl | ⟨Q, rfl⟩
        · rw [List.nil_append] at g1
          rw [g1, lineFeeds_zero g2] at hA
          omega
        · have e3 : c :: A = (c :: Q) ++ '\n' :: Text.lastLine A := by
            conv => lhs; rw [g1]
            simp
          have e4 : Text.lastLine (c :: A) = Text.lastLine (Text.lastLine A) := by rw [e3, hlast]
          rw [e4]
          exact (lastLine_eq (P := []) (Or.inl rfl) g2).symm
  | case6 c cs h1 h2 h3 h ih => exact absurd h (lines_ne_nil cs)

theorem sumLens_cons (l : Text × Text) (ls : List (Text × Text)) :
    sumLens (l :: ls) = l.1.len + l.2.len + sumLens ls := rfl

/-- What a line is. -/
theorem lines_get (text : Text) : NoLoneCr text → ∀ i content eol, (lines text)[i]? = some (content, eol) →
    ∃ pre post, text = pre ++ content ++ post ∧ pre.lineFeeds = i ∧ (pre = [] ∨ ∃ Q, pre = Q ++ ['\n']) ∧
      (∀ c ∈ content, c ≠ '\n') ∧ pre.len = sumLens ((lines text).take i) := by
  induction text using lines.induct with
  | case1 =>
    intro _ i content eol h
    cases i with
    | zero => simp [lines] at h; obtain ⟨rfl, rfl⟩ := h; exact ⟨[], [], rfl, rfl, Or.inl rfl, by simp, rfl⟩
    | succ i => simp [lines] at h
  | case2 cs ih =>
    intro hn i content eol h
    rw [lines] at h ⊢
    cases i with
    | zero =>
      simp at h; obtain ⟨rfl, rfl⟩ := h
      exact ⟨[], '\r' :: '\n' :: cs, rfl, rfl, Or.inl rfl, by simp, rfl⟩
    | succ i =>
      rw [List.getElem?_cons_succ] at h
      obtain ⟨pre, post, h1, h2, h3, h4, h5⟩ := ih (by simpa [NoLoneCr] using hn) i content eol h
      refine ⟨'\r' :: '\n' :: pre, post, by rw [h1]; simp, ?_, Or.inr ?_, h4, ?_⟩
      · rw [← h2]; simp [Text.lineFeeds]
      · rcases h3 with rfl | ⟨Q, rfl⟩
        · exact ⟨['\r'], rfl⟩
        · exact ⟨'\r' :: '\n' :: Q, rfl⟩
      · rw [List.take_succ_cons, sumLens_cons, ← h5]
        show '\r'.utf8Size + ('\n'.utf8Size + pre.len) = 0 + ('\r'.utf8Size + ('\n'.utf8Size + 0)) + pre.len
        omega
  | case3 cs h ih =>
    intro hn
    rw [NoLoneCr] at hn
    · exact absurd rfl hn.1
    · rintro cs' _ rfl; exact h cs' rfl
  | case4 cs ih =>
    intro hn i content eol h
    rw [lines] at h ⊢
    have hn' : NoLoneCr cs := by
      rw [NoLoneCr] at hn
      · exact hn.2
      · intro _ h'; simp at h'
    cases i with
    | zero =>
      simp at h; obtain ⟨rfl, rfl⟩ := h
      exact ⟨[], '\n' :: cs, rfl, rfl, Or.inl rfl, by simp, rfl⟩
    | succ i =>
      rw [List.getElem?_cons_succ] at h
      obtain ⟨pre, post, h1, h2, h3, h4, h5⟩ := ih hn' i content eol h
      refine ⟨'\n' :: pre, post, by rw [h1]; simp, ?_, Or.inr ?_, h4, ?_⟩
      · rw [← h2]; simp [Text.lineFeeds]
      · rcases h3 with rfl | ⟨Q, rfl⟩
        · exact ⟨[], rfl⟩
        · exact ⟨'\n' :: Q, rfl⟩
      · rw [List.take_succ_cons, sumLens_cons, ← h5]
        show '\n'.utf8Size + pre.len = 0 + ('\n'.utf8Size + 0) + pre.len
        omega
  | case5 c cs h1 h2 h3 content eol ls h ih =>
    intro hn i content' eol' hi
    have hc : c ≠ '\n' := h3
    have hn' : NoLoneCr cs := by
      rw [NoLoneCr] at hn
      · exact hn.2
      · rintro _ rfl rfl; exact h1 _ rfl rfl
    have hl : lines (c :: cs) = (c :: content, eol) :: ls := by
      rw [lines]
      · rw [h]
      all_goals assumption
    rw [hl] at hi ⊢
    cases i with
    | zero =>
      simp at hi; obtain ⟨rfl, rfl⟩ := hi
      obtain ⟨pre, post, g1, g2, g3, g4, g5⟩ := ih hn' 0 content eol (by rw [h]; rfl)
      rcases g3 with rfl | ⟨Q, rfl⟩
      · refine ⟨[], post, by rw [g1]; simp, rfl, Or.inl rfl, ?_, rfl⟩
        intro d hd
        rcases List.mem_cons.mp hd with rfl | hd
        · exact hc
        · exact g4 d hd
      · simp [Text.lineFeeds] at g2
    | succ i =>
      rw [List.getElem?_cons_succ] at hi
      obtain ⟨pre, post, g1, g2, g3, g4, g5⟩ := ih hn' (i + 1) content' eol' (by rw [h]; exact hi)
      refine ⟨c :: pre, post, by rw [g1]; simp, ?_, Or.inr ?_, g4, ?_⟩
      · rw [← g2]; simp [Text.lineFeeds, hc]
      · rcases g3 with rfl | ⟨Q, rfl⟩
        · simp [Text.lineFeeds] at g2
        · exact ⟨c :: Q, rfl⟩
      · rw [h, List.take_succ_cons, sumLens_cons] at g5
        rw [List.take_succ_cons, sumLens_cons, Text.len_cons, g5]
        show _ = c.utf8Size + content.len + eol.len + _
        simp only
        omega
  | case6 c cs h1 h2 h3 h ih => exact absurd h (lines_ne_nil cs)

theorem column_prefix (p q : Text) : column p.utf16Len (p ++ q) = p.len := by
  induction p with
  | nil =>
    cases q with
    | nil => rfl
    | cons c cs =>
      have := u16_pos c
      simp only [List.nil_append, column, Text.utf16Len, Text.len_nil]
      unfold u16 at this
      rw [if_neg (by omega)]
  | cons c cs ih =>
    simp only [List.cons_append, column, Text.utf16Len, Text.len_cons]
    rw [if_pos (by omega), Nat.add_sub_cancel_left, ih]

end LspSpec

/-- A position denotes a character boundary within an existing line: the column is that of some prefix of
the line's content. -/
def LspSpec.Exact (text : Text) (pos : Position) : Prop :=
  ∃ content eol p q, (LspSpec.lines text)[pos.line]? = some (content, eol) ∧ content = p ++ q ∧
    pos.col = p.utf16Len

namespace Lsp

theorem exact_offset (text : Text) (pos : Position) (hn : LspSpec.NoLoneCr text) (h : LspSpec.Exact text pos) :
    ∃ A B, text = A ++ B ∧ LspSpec.offset text pos = some A.len ∧ offset (LineIndex.new text) pos = some A.len := by
  obtain ⟨content, eol, p, q, h1, h2, h3⟩ := h
  obtain ⟨pre, post, g1, g2, g3, g4, g5⟩ := LspSpec.lines_get text hn _ _ _ h1
  have hp : ∀ c ∈ p, c ≠ '\n' := fun c hc => g4 c (by rw [h2]; simp [hc])
  refine ⟨pre ++ p, q ++ post, by rw [g1, h2]; simp, ?_, ?_⟩
  · unfold LspSpec.offset
    rw [h1]
    show some (LspSpec.sumLens _ + _) = _
    rw [← g5, h2, h3, LspSpec.column_prefix, Text.len_append]
  · have e := offset_at (pre ++ p) (q ++ post)
    rw [lineFeeds_append, lineFeeds_zero hp, g2, Nat.add_zero, lastLine_eq g3 hp, ← h3] at e
    have e2 : text = pre ++ p ++ (q ++ post) := by rw [g1, h2]; simp
    rw [e2]; exact e

theorem exact_of_boundary (A B : Text) (hn : LspSpec.NoLoneCr (A ++ B))
    (hb : ¬ (∃ A' B', A = A' ++ ['\r'] ∧ B = '\n' :: B')) :
    LspSpec.Exact (A ++ B) ⟨A.lineFeeds, A.lastLine.utf16Len⟩ := by
  obtain ⟨content, eol, q, h1, h2⟩ := LspSpec.lines_of_boundary (A ++ B) A B rfl hn hb
  exact ⟨content, eol, A.lastLine, q, h1, h2, rfl⟩

/-! ### Sequential changes -/

/-- An index that is right for the lines before `v`. -/
def Agrees (idx : LineIndex) (text : Text) (v : Nat) : Prop :=
  ∀ l < v, idx.newlines[l]? = (LineIndex.new text).newlines[l]? ∧
    get idx.utf16Lines l = get (LineIndex.new text).utf16Lines l

theorem offset_agrees {idx : LineIndex} {text : Text} {v : Nat} (h : Agrees idx text v) {pos : Position}
    (hp : pos.line < v) : offset idx pos = offset (LineIndex.new text) pos := by
  obtain ⟨h1, h2⟩ := h pos.line hp
  unfold offset
  rw [toUtf8_eq, toUtf8_eq, h2]
  cases utf16Loop pos.col (get (LineIndex.new text).utf16Lines pos.line) with
  | none => rfl
  | some c => simp [LineIndex.offset, h1]

/-- Lines before a change are not affected by it. -/
theorem agrees_replace {idx : LineIndex} {X Y Z : Text} {s : Nat} (h : Agrees idx (X ++ Y) s)
    (hs : ∃ n, (LineIndex.new (X ++ Y)).newlines[s]? = some n ∧ n ≤ X.len) : Agrees idx (X ++ Z) s := by
  obtain ⟨n, h1, h2⟩ := hs
  have hlf : s ≤ X.lineFeeds := by
    rw [new_newlines, nlFrom_append, ← List.cons_append, Nat.zero_add] at h1
    refine Classical.byContradiction fun hlt => ?_
    rw [List.getElem?_append_right (by rw [List.length_cons, nlFrom_length]; omega)] at h1
    have := nlFrom_range X.len Y n (List.mem_of_getElem? h1)
    omega
  intro l hl
  obtain ⟨h3, h4⟩ := h l hl
  rw [h3, h4]
  constructor
  · rw [new_newlines, new_newlines, nlFrom_append, nlFrom_append, ← List.cons_append, ← List.cons_append]
    have hb : l < (0 :: nlFrom 0 X).length := by rw [List.length_cons, nlFrom_length]; omega
    rw [List.getElem?_append_left hb, List.getElem?_append_left hb]
  · rw [new_wide, new_wide]
    exact wideAt_before X l 0 Y Z (by omega)

theorem utf16Loop_ge : ∀ (cs : List Utf16Char) (col n : Nat), utf16Loop col cs = some n → col ≤ n := by
  intro cs
  induction cs with
  | nil => intro col n h; simp [utf16Loop] at h; omega
  | cons c cs ih =>
    intro col n h
    unfold utf16Loop at h
    split at h
    · split at h
      · have := ih _ _ h; omega
      · cases h
    · simp at h; omega

theorem offset_line {idx : LineIndex} {pos : Position} {o : Nat} (h : offset idx pos = some o) :
    ∃ n, idx.newlines[pos.line]? = some n ∧ n ≤ o := by
  unfold offset at h
  rw [toUtf8_eq] at h
  cases h1 : utf16Loop pos.col (get idx.utf16Lines pos.line) with
  | none => rw [h1] at h; simp at h
  | some c =>
    rw [h1] at h
    simp only [Option.map_some, Option.bind_some, LineIndex.offset] at h
    cases h2 : idx.newlines[pos.line]? with
    | none => rw [h2] at h; simp at h
    | some n =>
      rw [h2] at h
      exact ⟨n, rfl, by simp at h; omega⟩

theorem indel_apply_some {ins text new : Text} {r : Range} (h : Indel.apply ⟨ins, r⟩ text = some new) :
    ∃ X D Y, text = X ++ D ++ Y ∧ new = X ++ ins ++ Y ∧ X.len = r.start ∧ X.len + D.len = r.stop := by
  unfold Indel.apply at h
  simp only at h
  split at h
  · rename_i hle
    cases h1 : text.sliceTo r.start with
    | none => rw [h1] at h; simp at h
    | some X =>
      cases h2 : text.sliceFrom r.stop with
      | none => rw [h1, h2] at h; simp at h
      | some Y =>
        rw [h1, h2] at h
        simp only [Option.some.injEq] at h
        unfold Text.sliceTo at h1
        unfold Text.sliceFrom at h2
        cases h3 : text.split r.start with
        | none => rw [h3] at h1; simp at h1
        | some p =>
          obtain ⟨X', Z⟩ := p
          cases h4 : text.split r.stop with
          | none => rw [h4] at h2; simp at h2
          | some p' =>
            obtain ⟨W, Y'⟩ := p'
            rw [h3] at h1; rw [h4] at h2
            simp only [Option.map_some, Option.some.injEq] at h1 h2
            subst h1 h2
            obtain ⟨g1, g2⟩ := Text.split_eq_some.mp h3
            obtain ⟨g3, g4⟩ := Text.split_eq_some.mp h4
            obtain ⟨D, g5, g6⟩ := TextEdit.append_split (a := X') (b := Z) (c := W) (d := Y') (by rw [← g1, g3])
              (by omega)
            refine ⟨X', D, Y', by rw [← g5]; exact g3, h.symm, g2, ?_⟩
            rw [← g4, g5, Text.len_append]
  · cases h

/-- The text after one change, positions resolved with a fresh index. -/
def fresh (text : Text) (pos : Position) : Option Nat := offset (LineIndex.new text) pos

theorem applyChanges_eq (cs : List Change) (hl : ∀ c ∈ cs, ∀ s e, c.range = some (s, e) → s.line ≤ e.line) :
    ∀ (text : Text) (idx : LineIndex) (valid : IndexValid),
    (match valid with | .all => idx = LineIndex.new text | .upToLineExclusive v => Agrees idx text v) →
    applyChanges text idx valid cs = cs.foldlM (applyChange fresh) text := by
  induction cs with
  | nil => intro text idx valid _; rfl
  | cons c cs ih =>
    intro text idx valid hv
    have ih' := ih (fun c hc => hl c (by simp [hc]))
    rw [List.foldlM_cons]
    unfold applyChanges applyChange
    cases hr : c.range with
    | none =>
      simp only
      rw [ih' c.text idx (.upToLineExclusive 0) (fun l h => absurd h (by omega))]
      rfl
    | some se =>
      obtain ⟨s, e⟩ := se
      have hse := hl c (by simp) s e hr
      simp only
      generalize hidx : (if valid.covers e.line then idx else LineIndex.new text) = idx'
      have hag : Agrees idx' text (e.line + 1) := by
        rw [← hidx]
        by_cases hc : valid.covers e.line = true
        · rw [if_pos hc]
          cases valid with
          | all => simp only at hv; rw [hv]; exact fun _ _ => ⟨rfl, rfl⟩
          | upToLineExclusive v =>
            simp only [IndexValid.covers, decide_eq_true_eq, gt_iff_lt] at hc
            exact fun l hl => hv l (by omega)
        · rw [if_neg hc]; exact fun _ _ => ⟨rfl, rfl⟩
      have hs : offset idx' s = fresh text s := offset_agrees hag (by omega)
      have he : offset idx' e = fresh text e := offset_agrees hag (by omega)
      unfold textRange
      rw [hs, he]
      cases h1 : fresh text s with
      | none => rfl
      | some a =>
        cases h2 : fresh text e with
        | none => rfl
        | some b =>
          simp only
          by_cases hab : a ≤ b
          · rw [if_pos hab]
            simp only
            cases h3 : Indel.apply ⟨c.text, ⟨a, b⟩⟩ text with
            | none => rfl
            | some text' =>
              obtain ⟨X, D, Y, h4, h5, h6, h7⟩ := indel_apply_some h3
              show applyChanges text' idx' (.upToLineExclusive s.line) cs = List.foldlM (applyChange fresh) text' cs
              refine ih' text' idx' _ ?_
              show Agrees idx' text' s.line
              rw [h5, List.append_assoc]
              refine agrees_replace (Y := D ++ Y) ?_ ?_
              · rw [← List.append_assoc, ← h4]
                exact fun l hl => hag l (by omega)
              · rw [← List.append_assoc, ← h4]
                obtain ⟨n, h8, h9⟩ := offset_line h1
                exact ⟨n, h8, by rw [h6]; exact h9⟩
          · rw [if_neg hab]
            have : Indel.apply ⟨c.text, ⟨a, b⟩⟩ text = none := by
              unfold Indel.apply; rw [if_neg hab]
            rw [this]; rfl

end Lsp
end Verif
