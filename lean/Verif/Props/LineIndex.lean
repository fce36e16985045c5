import Verif.Proof.LspProof

/-
C30-C35: line index, positions, document changes.
-/
namespace Verif

namespace Stdx

/-- C34.  `partition_point` never reads out of bounds and terminates, on any slice and with any predicate,
even a stateful or inconsistent one; the result is an index into the slice or its length. -/
theorem partitionPoint_in_bounds {σ α : Type} (slice : List α) (pred : σ → α → Bool × σ) (s : σ) :
    ∃ n, partitionPointM slice pred s = some n ∧ n ≤ slice.length := by
  obtain ⟨n, h1, -, h2⟩ := partitionLoop_some slice pred slice.length s 0 slice.length (by omega) (by omega) (by omega)
  exact ⟨n, h1, h2⟩

/-- C34.  If all elements satisfying the predicate come before all the others, `partition_point` returns the
unique index that separates them. -/
theorem partitionPoint_spec {α : Type} (slice : List α) (p : α → Bool)
    (h : slice.Pairwise (fun a b => p b = true → p a = true)) :
    ∃ n, partitionPoint slice p = some n ∧ n ≤ slice.length ∧ (∀ x ∈ slice.take n, p x = true) ∧
      (∀ x ∈ slice.drop n, p x = false) ∧
      ∀ m ≤ slice.length, (∀ x ∈ slice.take m, p x = true) → (∀ x ∈ slice.drop m, p x = false) → m = n := by
  have hd : ∀ l : List α, l.Pairwise (fun a b => p b = true → p a = true) →
      ∃ a b, l = a ++ b ∧ (∀ x ∈ a, p x = true) ∧ (∀ x ∈ b, p x = false) := by
    intro l
    induction l with
    | nil => intro _; exact ⟨[], [], rfl, by simp, by simp⟩
    | cons x xs ih =>
      intro h
      rw [List.pairwise_cons] at h
      cases hx : p x with
      | true =>
        obtain ⟨a, b, rfl, h1, h2⟩ := ih h.2
        exact ⟨x :: a, b, rfl, by simpa [hx] using h1, h2⟩
      | false =>
        refine ⟨[], x :: xs, rfl, by simp, ?_⟩
        intro y hy
        rcases List.mem_cons.mp hy with rfl | hy
        · exact hx
        · cases hpy : p y with
          | false => rfl
          | true => have := h.1 y hy hpy; rw [hx] at this; cases this
  obtain ⟨a, b, rfl, h1, h2⟩ := hd slice h
  refine ⟨a.length, partitionPoint_append a b p h1 h2, by simp, by simpa using h1, by simpa using h2, ?_⟩
  intro m hm h3 h4
  rcases Nat.lt_trichotomy m a.length with hlt | rfl | hgt
  · have hmem : a[m] ∈ (a ++ b).drop m := by
      rw [List.drop_append_of_le_length (by omega)]
      exact List.mem_append_left _ (by rw [List.mem_drop_iff_getElem]; exact ⟨0, by omega, by simp⟩)
    have := h4 _ hmem
    rw [h1 _ (List.getElem_mem hlt)] at this
    cases this
  · rfl
  · simp only [List.length_append] at hm
    have hb : 0 < b.length := by omega
    have hmem : b[0] ∈ (a ++ b).take m := by
      rw [List.take_append]
      refine List.mem_append_right _ ?_
      rw [List.mem_take_iff_getElem]
      exact ⟨0, by omega, rfl⟩
    have := h3 _ hmem
    rw [h2 _ (List.getElem_mem hb)] at this
    cases this

example : partitionPoint [1, 3, 5, 8, 8, 9] (fun x => x < 8) = some 3 := by decide
example : [1, 3, 5, 8, 8, 9].Pairwise (fun a b => decide (b < 8) = true → decide (a < 8) = true) := by
  decide

end Stdx

namespace LineIndex

/-- C30.  For every offset (of a character boundary or not, even past the end of the text), `line_col` does
not panic and `offset` is its inverse. -/
theorem offset_lineCol (text : Text) (o : Nat) :
    ∃ lc, (new text).lineCol o = some lc ∧ (new text).offset lc = some o := by
  have hs : (0 :: nlFrom 0 text).Pairwise (fun a b => decide (b ≤ o) = true → decide (a ≤ o) = true) := by
    have hm : ∀ (pos : Nat) (t : Text), (pos :: nlFrom pos t).Pairwise (fun a b => a ≤ b) := by
      intro pos t
      induction t generalizing pos with
      | nil => simp [nlFrom]
      | cons c cs ih =>
        simp only [nlFrom]
        have h1 := ih (pos + c.utf8Size)
        rw [List.pairwise_cons] at h1
        split
        · rw [List.pairwise_cons]
          refine ⟨fun x hx => ?_, List.pairwise_cons.mpr h1⟩
          rcases List.mem_cons.mp hx with rfl | hx
          · omega
          · have := h1.1 x hx; omega
        · rw [List.pairwise_cons]
          exact ⟨fun x hx => by have := h1.1 x hx; omega, h1.2⟩
    exact List.Pairwise.imp (fun h => by simp; omega) (hm 0 text)
  obtain ⟨n, h1, h2, h3, h4, -⟩ := Stdx.partitionPoint_spec _ _ hs
  have hn : n ≠ 0 := by
    rintro rfl
    have := h4 0 (by simp)
    simp at this
  have hlt : n - 1 < (0 :: nlFrom 0 text).length := by omega
  have hle : (0 :: nlFrom 0 text)[n - 1] ≤ o := by
    have := h3 ((0 :: nlFrom 0 text)[n - 1]) (by
      rw [List.mem_take_iff_getElem]; exact ⟨n - 1, by omega, rfl⟩)
    simpa using this
  refine ⟨⟨n - 1, o - (0 :: nlFrom 0 text)[n - 1]⟩, ?_, ?_⟩
  · unfold lineCol
    rw [new_newlines, h1]
    simp only [if_neg hn, List.getElem?_eq_getElem hlt, if_pos hle]
  · unfold offset
    rw [new_newlines]
    simp only [List.getElem?_eq_getElem hlt, Option.map_some]
    congr 1; omega

/-- C30.  For every character boundary of every text, the line is the number of line feeds before it and the
column is its distance in bytes from the last of them (or the start of the text). -/
theorem lineCol_spec (A B : Text) :
    (new (A ++ B)).lineCol A.len = some ⟨A.lineFeeds, A.lastLine.len⟩ := lineCol_at A B

/-- C31.  For every character boundary, the UTF-16 column is the number of UTF-16 code units between the
start of the line and the boundary, and it is mapped back to the same byte column. -/
theorem utf16_exact (A B : Text) :
    (new (A ++ B)).toUtf16 ⟨A.lineFeeds, A.lastLine.len⟩ = some ⟨A.lineFeeds, A.lastLine.utf16Len⟩ ∧
    (new (A ++ B)).toUtf8 ⟨A.lineFeeds, A.lastLine.utf16Len⟩ = some ⟨A.lineFeeds, A.lastLine.len⟩ :=
  ⟨toUtf16_at A B, toUtf8_at A B⟩

/-- What `lastLine` is: the end of the text after its last line feed. -/
theorem lastLine_spec (A : Text) : ∃ P, A = P ++ A.lastLine ∧ (∀ c ∈ A.lastLine, c ≠ '\n') ∧
    (P = [] ∨ ∃ Q, P = Q ++ ['\n']) := lastLine_decomp A

example : (new "aé\n𝒳 → b".toList).lineCol 12 = some ⟨1, 8⟩ ∧
    (new "aé\n𝒳 → b".toList).toUtf16 ⟨1, 8⟩ = some ⟨1, 4⟩ ∧
    (new "aé\n𝒳 → b".toList).toUtf8 ⟨1, 4⟩ = some ⟨1, 8⟩ := by decide

end LineIndex

namespace Lsp

/-- C32 (for texts without lone carriage returns and positions of character boundaries within a line).  Such a
position resolves, without panic, to the offset the protocol prescribes, which is a character boundary. -/
theorem offset_spec_partial (text : Text) (pos : Position) (hn : LspSpec.NoLoneCr text)
    (h : LspSpec.Exact text pos) : ∃ o, LspSpec.offset text pos = some o ∧ Boundary text o ∧
      offset (LineIndex.new text) pos = some o := by
  obtain ⟨A, B, h1, h2, h3⟩ := exact_offset text pos hn h
  exact ⟨A.len, h2, ⟨A, B, h1, rfl⟩, h3⟩

/-- C32 fails in general: (1) a column past the end of the line is not cut off, (2) a lone carriage return
does not end a line, (3) a column in the middle of a surrogate pair is not a character boundary, (4) a line
past the end of the text panics. -/
theorem offset_spec_fails :
    (∃ text pos, LspSpec.NoLoneCr text ∧ LspSpec.offset text pos = some 1 ∧
      offset (LineIndex.new text) pos = some 5) ∧
    (∃ text pos, LspSpec.offset text pos = some 2 ∧ offset (LineIndex.new text) pos = none) ∧
    (∃ text pos, LspSpec.NoLoneCr text ∧ LspSpec.offset text pos = some 0 ∧
      ∃ o, offset (LineIndex.new text) pos = some o ∧ ¬ Boundary text o) ∧
    (∃ text pos, LspSpec.NoLoneCr text ∧ offset (LineIndex.new text) pos = none) := by
  refine ⟨⟨"a\nb".toList, ⟨0, 5⟩, ?_, by decide, by decide⟩, ⟨"a\rb".toList, ⟨1, 0⟩, by decide, by decide⟩,
    ⟨"𝒳".toList, ⟨0, 1⟩, ?_, by decide, 3, by decide, ?_⟩, ⟨"a".toList, ⟨1, 0⟩, ?_, by decide⟩⟩
  · simp [LspSpec.NoLoneCr]
  · simp [LspSpec.NoLoneCr]
  · rintro ⟨a, b, h1, h2⟩
    cases a with
    | nil => simp at h2
    | cons c cs =>
      have h1' : ['𝒳'] = c :: (cs ++ b) := h1
      injection h1' with h3 h4
      subst h3
      have : '𝒳'.utf8Size = 4 := by decide
      rw [Text.len_cons, this] at h2
      omega
  · simp [LspSpec.NoLoneCr]

/-- C33.  Every boundary of every text is sent as a position that the server resolves back to it; and so does
a client following the protocol if the text has no lone carriage return and the boundary is not between the
two characters of a line end. -/
theorem position_roundtrip (A B : Text) :
    ∃ pos, position (LineIndex.new (A ++ B)) A.len = some pos ∧
      offset (LineIndex.new (A ++ B)) pos = some A.len ∧
      (LspSpec.NoLoneCr (A ++ B) → ¬ (∃ A' B', A = A' ++ ['\r'] ∧ B = '\n' :: B') →
        LspSpec.offset (A ++ B) pos = some A.len) := by
  refine ⟨_, position_at A B, offset_at A B, fun hn hb => ?_⟩
  obtain ⟨A', B', h1, h2, h3⟩ := exact_offset _ _ hn (exact_of_boundary A B hn hb)
  rw [offset_at A B] at h3
  rw [h2, h3]

/-- C33.  Every range of a text is sent as a range that the server resolves back to it. -/
theorem range_roundtrip (text : Text) (r : Range) (h : RangeOf text r) :
    ∃ s e, range (LineIndex.new text) r = some (s, e) ∧ textRange (LineIndex.new text) s e = some r := by
  obtain ⟨h1, h2, ⟨A, B, h3, h4⟩, ⟨C, D, h5, h6⟩⟩ := h
  obtain ⟨s, g1, g2, -⟩ := position_roundtrip A B
  obtain ⟨e, g3, g4, -⟩ := position_roundtrip C D
  rw [← h3, h4] at g1 g2
  rw [← h5, h6] at g3 g4
  refine ⟨s, e, ?_, ?_⟩
  · unfold range; rw [g1, g3]
  · unfold textRange; rw [g2, g4]; simp only [if_pos h1]

/-- C33 fails for the client if the text has a lone carriage return, or for the boundary between the
characters of a `\r\n`. -/
theorem position_client_fails :
    (∃ A B, ∃ pos, position (LineIndex.new (A ++ B)) A.len = some pos ∧ LspSpec.offset (A ++ B) pos = some 1 ∧ A.len = 2) ∧
    (∃ A B, LspSpec.NoLoneCr (A ++ B) ∧ ∃ pos, position (LineIndex.new (A ++ B)) A.len = some pos ∧
      LspSpec.offset (A ++ B) pos = some 1 ∧ A.len = 2) := by
  refine ⟨⟨"a\r".toList, "b".toList, ⟨0, 2⟩, by decide, by decide, by decide⟩,
    ⟨"a\r".toList, "\n".toList, ?_, ⟨0, 2⟩, by decide, by decide, by decide⟩⟩
  simp [LspSpec.NoLoneCr]

/-- C35.  For every text and every list of changes in which no range ends on an earlier line than it
starts: `apply_document_changes` has the same outcome (text or panic) as applying the changes one after the
other, each time resolving positions in the text left by the previous ones. -/
theorem applyDocumentChanges_sequential (text : Text) (changes : List Change)
    (h : ∀ c ∈ changes, ∀ s e, c.range = some (s, e) → s.line ≤ e.line) :
    applyDocumentChanges text changes =
      changes.foldlM (applyChange (fun t pos => offset (LineIndex.new t) pos)) text :=
  applyChanges_eq changes h text _ .all rfl

/-- Changes that conform to the protocol (for documents without lone carriage returns): every position is
that of a character boundary in the document at the time, and no range ends before it starts. -/
def Conforming : Text → List Change → Prop
  | _, [] => True
  | text, c :: cs =>
    (∀ s e, c.range = some (s, e) → LspSpec.NoLoneCr text ∧ LspSpec.Exact text s ∧ LspSpec.Exact text e ∧
      (s.line < e.line ∨ (s.line = e.line ∧ s.col ≤ e.col))) ∧
    ∀ t, applyChange LspSpec.offset text c = some t → Conforming t cs

theorem prefix_mono {p q p' q' : Text} (h : p ++ q = p' ++ q') (hu : p.utf16Len ≤ p'.utf16Len) : p.len ≤ p'.len := by
  refine Classical.byContradiction fun hlt => ?_
  obtain ⟨m, h1, h2⟩ := TextEdit.append_split h.symm (by omega)
  have hm : m ≠ [] := by
    rintro rfl
    rw [List.append_nil] at h1
    rw [h1] at hlt; omega
  obtain ⟨c, cs, rfl⟩ := List.exists_cons_of_ne_nil hm
  rw [h1, utf16Len_append, utf16Len_cons] at hu
  have := u16_pos c
  omega

theorem sumLens_take (ls : List (Text × Text)) : ∀ (i j : Nat) (l : Text × Text), ls[i]? = some l → i < j →
    LspSpec.sumLens (ls.take i) + l.1.len ≤ LspSpec.sumLens (ls.take j) := by
  induction ls with
  | nil => intro i j l h; simp at h
  | cons x xs ih =>
    intro i j l h hij
    cases j with
    | zero => omega
    | succ j =>
      rw [List.take_succ_cons, LspSpec.sumLens_cons]
      cases i with
      | zero =>
        simp at h; subst h
        show 0 + _ ≤ _
        omega
      | succ i =>
        rw [List.take_succ_cons, LspSpec.sumLens_cons]
        have := ih i j l (by simpa using h) (by omega)
        omega

/-- C35.  Conforming changes are applied without panic and yield the text the protocol prescribes. -/
theorem applyDocumentChanges_conforming (text : Text) (changes : List Change) (h : Conforming text changes) :
    ∃ new, changes.foldlM (applyChange LspSpec.offset) text = some new ∧
      applyDocumentChanges text changes = some new := by
  have hl : ∀ (cs : List Change) (text : Text), Conforming text cs →
      (∃ new, cs.foldlM (applyChange LspSpec.offset) text = some new) ∧
      cs.foldlM (applyChange (fun t pos => offset (LineIndex.new t) pos)) text =
        cs.foldlM (applyChange LspSpec.offset) text ∧
      ∀ c ∈ cs, ∀ s e, c.range = some (s, e) → s.line ≤ e.line := by
    intro cs
    induction cs with
    | nil => intro text _; exact ⟨⟨text, rfl⟩, rfl, by simp⟩
    | cons c cs ih =>
      intro text h
      obtain ⟨h1, h2⟩ := h
      have hone : ∃ t, applyChange LspSpec.offset text c = some t ∧
          applyChange (fun t pos => offset (LineIndex.new t) pos) text c = some t := by
        unfold applyChange
        cases hr : c.range with
        | none => exact ⟨c.text, rfl, rfl⟩
        | some se =>
          obtain ⟨s, e⟩ := se
          obtain ⟨hn, hs, he, hle⟩ := h1 s e hr
          obtain ⟨A, B, g1, g2, g3⟩ := exact_offset text s hn hs
          obtain ⟨C, D, g4, g5, g6⟩ := exact_offset text e hn he
          have hAC : A.len ≤ C.len := by
            obtain ⟨ct, eol, p, q, k1, k2, k3⟩ := hs
            obtain ⟨ct', eol', p', q', k1', k2', k3'⟩ := he
            have j1 := g2
            have j2 := g5
            unfold LspSpec.offset at j1 j2
            rw [k1] at j1; rw [k1'] at j2
            simp only [Option.some.injEq] at j1 j2
            rw [k2, k3, LspSpec.column_prefix] at j1
            rw [k2', k3', LspSpec.column_prefix] at j2
            change LspSpec.sumLens _ + _ = _ at j1
            change LspSpec.sumLens _ + _ = _ at j2
            rcases hle with hlt | ⟨heq, hcol⟩
            · have := sumLens_take _ s.line e.line (ct, eol) k1 hlt
              have hp : p.len ≤ ct.len := by rw [k2, Text.len_append]; omega
              simp only at this
              omega
            · rw [heq] at k1 j1
              rw [k1] at k1'
              simp only [Option.some.injEq, Prod.mk.injEq] at k1'
              have := prefix_mono (p := p) (q := q) (p' := p') (q' := q') (by rw [← k2, ← k2', k1'.1])
                (by rw [← k3, ← k3']; exact hcol)
              omega
          simp only [g2, g3, g5, g6]
          have e1 : text.sliceTo A.len = some A := by rw [g1]; exact Text.sliceTo_append A B
          have e2 : text.sliceFrom C.len = some D := by rw [g4]; exact Text.sliceFrom_append C D
          refine ⟨A ++ c.text ++ D, ?_, ?_⟩ <;>
          · unfold Indel.apply
            simp only [if_pos hAC, e1, e2]
      obtain ⟨t, h3, h4⟩ := hone
      obtain ⟨⟨new, h5⟩, h6, h7⟩ := ih t (h2 t h3)
      refine ⟨⟨new, ?_⟩, ?_, ?_⟩
      · rw [List.foldlM_cons, h3]; exact h5
      · rw [List.foldlM_cons, List.foldlM_cons, h3, h4]; exact h6
      · intro d hd s e hr
        rcases List.mem_cons.mp hd with rfl | hd
        · have := (h1 s e hr).2.2.2; omega
        · exact h7 d hd s e hr
  obtain ⟨⟨new, h1⟩, h2, h3⟩ := hl changes text h
  exact ⟨new, h1, by rw [applyDocumentChanges_sequential text changes h3, h2, h1]⟩

/-! The last example of the project's own test, and an example in which the stale index is used. -/

example : applyDocumentChanges "a\nb".toList
    [⟨some (⟨0, 1⟩, ⟨1, 0⟩), "ț\nc".toList⟩, ⟨some (⟨0, 2⟩, ⟨0, 2⟩), "c".toList⟩] = some "ațc\ncb".toList := by decide

def sampleChanges : List Change :=
  [⟨some (⟨1, 2⟩, ⟨1, 2⟩), "\nz".toList⟩, ⟨some (⟨0, 1⟩, ⟨0, 3⟩), "y".toList⟩]

example : applyDocumentChanges "a𝒳\nbc".toList sampleChanges = some "ay\nbc\nz".toList := by decide

example : Conforming "a𝒳\nbc".toList sampleChanges := by
  refine ⟨?_, ?_⟩
  · rintro s e h
    simp only [Option.some.injEq, Prod.mk.injEq] at h
    obtain ⟨rfl, rfl⟩ := h
    refine ⟨by simp [LspSpec.NoLoneCr], ⟨"bc".toList, [], "bc".toList, [], by decide, by decide, by decide⟩,
      ⟨"bc".toList, [], "bc".toList, [], by decide, by decide, by decide⟩, by decide⟩
  · intro t ht
    obtain rfl : "a𝒳\nbc\nz".toList = t := by
      have : applyChange LspSpec.offset "a𝒳\nbc".toList ⟨some (⟨1, 2⟩, ⟨1, 2⟩), "\nz".toList⟩ =
          some "a𝒳\nbc\nz".toList := by decide
      rw [this] at ht
      simpa using ht
    refine ⟨?_, fun _ _ => trivial⟩
    rintro s e h
    simp only [Option.some.injEq, Prod.mk.injEq] at h
    obtain ⟨rfl, rfl⟩ := h
    refine ⟨by simp [LspSpec.NoLoneCr], ⟨"a𝒳".toList, ['\n'], "a".toList, "𝒳".toList, by decide, by decide, by decide⟩,
      ⟨"a𝒳".toList, ['\n'], "a𝒳".toList, [], by decide, by decide, by decide⟩, by decide⟩

end Lsp
end Verif
