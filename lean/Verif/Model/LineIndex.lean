import Verif.Model.TextEdit

/-
Model of crates/stdx/src/lib.rs (`partition_point`), crates/ide_db/src/line_index.rs and of the conversions in
crates/lua-analyzer/src/{from_proto,to_proto,lsp_utils}.rs.  `none` is a panic.
Integers are unbounded: texts are assumed to be shorter than 2^32 bytes, positions sent by the client are
assumed not to overflow `u32` when converted.
-/
namespace Verif

namespace Stdx

/-- lib.rs:18-37, the loop of `partition_point`; the predicate is `FnMut`, i.e. has a state.  `none`: a read
out of bounds (undefined behaviour) or more than `fuel` iterations. -/
def partitionLoop {σ α : Type} (slice : List α) (pred : σ → α → Bool × σ) :
    (fuel : Nat) → σ → (left right : Nat) → Option Nat
  | fuel, s, left, right =>
    if left = right then some left
    else match fuel with
      | 0 => none
      | fuel + 1 =>
        let mid := left + (right - left) / 2
        match slice[mid]? with
        | none => none
        | some value =>
          if (pred s value).1 then partitionLoop slice pred fuel (pred s value).2 (mid + 1) right
          else partitionLoop slice pred fuel (pred s value).2 left mid

/-- lib.rs:11-38, `partition_point`. -/
def partitionPointM {σ α : Type} (slice : List α) (pred : σ → α → Bool × σ) (s : σ) : Option Nat :=
  partitionLoop slice pred slice.length s 0 slice.length

/-- `partition_point` with a predicate without state. -/
def partitionPoint {α : Type} (slice : List α) (pred : α → Bool) : Option Nat :=
  partitionPointM slice (fun _ x => (pred x, ())) ()

end Stdx

/-- line_index.rs:29-35, `Utf16Char`. -/
structure Utf16Char where
  start : Nat
  stop : Nat
  deriving DecidableEq, Repr

namespace Utf16Char
/-- line_index.rs:39-41 -/
def len (c : Utf16Char) : Nat := c.stop - c.start
/-- line_index.rs:44-50 -/
def lenUtf16 (c : Utf16Char) : Nat := if c.len = 4 then 2 else 1
end Utf16Char

/-- line_index.rs:13-27, `LineCol` and `LineColUtf16`. -/
structure LineCol where
  line : Nat
  col : Nat
  deriving DecidableEq, Repr

/-- line_index.rs:5-11, `LineIndex`; the hash map is an association list (newest entry first). -/
structure LineIndex where
  newlines : List Nat
  utf16Lines : List (Nat × List Utf16Char)
  deriving DecidableEq, Repr

namespace LineIndex

/-- The local variables of `LineIndex::new`. -/
structure St where
  newlines : List Nat
  utf16Lines : List (Nat × List Utf16Char)
  utf16Chars : List Utf16Char
  currRow : Nat
  currCol : Nat
  line : Nat

/-- line_index.rs:62-85, one iteration. -/
def step (s : St) (c : Char) : St :=
  let cLen := c.utf8Size
  let currRow := s.currRow + cLen
  if c = '\n' then
    { newlines := s.newlines ++ [currRow]
      utf16Lines := if s.utf16Chars.isEmpty then s.utf16Lines else (s.line, s.utf16Chars) :: s.utf16Lines
      utf16Chars := []
      currRow
      currCol := 0
      line := s.line + 1 }
  else
    { s with
      utf16Chars := if c.val < 128 then s.utf16Chars else s.utf16Chars ++ [⟨s.currCol, s.currCol + cLen⟩]
      currRow
      currCol := s.currCol + cLen }

/-- line_index.rs:54-93, `LineIndex::new`. -/
def new (text : Text) : LineIndex :=
  let s := text.foldl step ⟨[0], [], [], 0, 0, 0⟩
  { newlines := s.newlines
    utf16Lines := if s.utf16Chars.isEmpty then s.utf16Lines else (s.line, s.utf16Chars) :: s.utf16Lines }

/-- line_index.rs:95-100, `line_col`. -/
def lineCol (idx : LineIndex) (offset : Nat) : Option LineCol :=
  match Stdx.partitionPoint idx.newlines (fun it => it ≤ offset) with
  | none => none
  | some n =>
    if n = 0 then none
    else
      let line := n - 1
      match idx.newlines[line]? with
      | none => none
      | some start => if start ≤ offset then some ⟨line, offset - start⟩ else none

/-- line_index.rs:102-104, `offset`. -/
def offset (idx : LineIndex) (lc : LineCol) : Option Nat :=
  (idx.newlines[lc.line]?).map (· + lc.col)

/-- line_index.rs:119-127, the loop of `utf8_to_utf16_col`. -/
def utf8Loop (col : Nat) : Nat → List Utf16Char → Option Nat
  | res, [] => some res
  | res, c :: cs =>
    if c.stop ≤ col then
      if c.lenUtf16 ≤ c.len ∧ c.len - c.lenUtf16 ≤ res then utf8Loop col (res - (c.len - c.lenUtf16)) cs else none
    else some res

/-- line_index.rs:111-130, `to_utf16`. -/
def toUtf16 (idx : LineIndex) (lc : LineCol) : Option LineCol :=
  match idx.utf16Lines.lookup lc.line with
  | some cs => (utf8Loop lc.col lc.col cs).map (⟨lc.line, ·⟩)
  | none => some lc

/-- line_index.rs:134-142, the loop of `utf16_to_utf8_col`. -/
def utf16Loop : Nat → List Utf16Char → Option Nat
  | col, [] => some col
  | col, c :: cs =>
    if col > c.start then
      if c.lenUtf16 ≤ c.len then utf16Loop (col + (c.len - c.lenUtf16)) cs else none
    else some col

/-- line_index.rs:106-109, 132-146, `to_utf8`. -/
def toUtf8 (idx : LineIndex) (lc : LineCol) : Option LineCol :=
  match idx.utf16Lines.lookup lc.line with
  | some cs => (utf16Loop lc.col cs).map (⟨lc.line, ·⟩)
  | none => some lc

end LineIndex

/-- lsp_types `Position`: line and UTF-16 column. -/
abbrev Position := LineCol

namespace Lsp

/-- from_proto.rs:14-20, `offset`. -/
def offset (idx : LineIndex) (pos : Position) : Option Nat :=
  (idx.toUtf8 pos).bind idx.offset

/-- from_proto.rs:22-26, `text_range`; `TextRange::new` asserts `start ≤ end`. -/
def textRange (idx : LineIndex) (start stop : Position) : Option Range :=
  match offset idx start, offset idx stop with
  | some a, some b => if a ≤ b then some ⟨a, b⟩ else none
  | _, _ => none

/-- to_proto.rs:7-11, `position`. -/
def position (idx : LineIndex) (off : Nat) : Option Position :=
  (idx.lineCol off).bind idx.toUtf16

/-- to_proto.rs:13-17, `range`. -/
def range (idx : LineIndex) (r : Range) : Option (Position × Position) :=
  match position idx r.start, position idx r.stop with
  | some a, some b => some (a, b)
  | _, _ => none

/-- lsp_types `TextDocumentContentChangeEvent` (`range_length` is not used). -/
structure Change where
  range : Option (Position × Position)
  text : Text
  deriving DecidableEq, Repr

/-- lsp_utils.rs:32-44, `IndexValid`. -/
inductive IndexValid where
  | all
  | upToLineExclusive (line : Nat)

/-- lsp_utils.rs:38-43, `covers`. -/
def IndexValid.covers : IndexValid → Nat → Bool
  | .upToLineExclusive to, line => to > line
  | .all, _ => true

/-- lsp_utils.rs:46-62, the loop of `apply_document_changes`. -/
def applyChanges : Text → LineIndex → IndexValid → List Change → Option Text
  | text, _, _, [] => some text
  | text, idx, valid, c :: cs =>
    match c.range with
    | some (start, stop) =>
      let idx := if valid.covers stop.line then idx else LineIndex.new text
      match textRange idx start stop with
      | none => none
      | some r =>
        match Indel.apply ⟨c.text, r⟩ text with
        | none => none
        | some text => applyChanges text idx (.upToLineExclusive start.line) cs
    | none => applyChanges c.text idx (.upToLineExclusive 0) cs

/-- lsp_utils.rs:21-63, `apply_document_changes`. -/
def applyDocumentChanges (text : Text) (changes : List Change) : Option Text :=
  applyChanges text (LineIndex.new text) .all changes

end Lsp
end Verif
