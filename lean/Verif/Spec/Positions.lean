import Verif.Model.LineIndex

/-
Positions in a text, independently of any index, and the Language Server Protocol's rules for them.
-/
namespace Verif

/-- The number of UTF-16 code units of a text. -/
def Text.utf16Len : Text → Nat
  | [] => 0
  | c :: cs => (if c.val ≤ 0xFFFF then 1 else 2) + utf16Len cs

/-- The number of line feeds in a text. -/
def Text.lineFeeds (t : Text) : Nat := (t.filter (· = '\n')).length

/-- The part of a text after its last line feed. -/
def Text.lastLine (t : Text) : Text := (t.reverse.takeWhile (· ≠ '\n')).reverse

namespace LspSpec

/-- The lines of a document with their terminators: "an EOL is one of `\n`, `\r\n` or `\r`". -/
def lines : Text → List (Text × Text)
  | [] => [([], [])]
  | '\r' :: '\n' :: cs => ([], ['\r', '\n']) :: lines cs
  | '\r' :: cs => ([], ['\r']) :: lines cs
  | '\n' :: cs => ([], ['\n']) :: lines cs
  | c :: cs =>
    match lines cs with
    | (content, eol) :: ls => (c :: content, eol) :: ls
    | [] => [([c], [])]

/-- The byte length of the longest prefix of a line that has at most `n` UTF-16 code units: "if the
character value is greater than the line length it defaults back to the line length". -/
def column : Nat → Text → Nat
  | _, [] => 0
  | n, c :: cs =>
    let u := if c.val ≤ 0xFFFF then 1 else 2
    if u ≤ n then c.utf8Size + column (n - u) cs else 0

/-- The offset a position denotes (`none`: there is no such line). -/
def offset (text : Text) (pos : Position) : Option Nat :=
  match (lines text)[pos.line]? with
  | none => none
  | some (content, _) =>
    some (((lines text).take pos.line).foldr (fun l n => l.1.len + l.2.len + n) 0 + column pos.col content)

/-- Every carriage return is followed by a line feed. -/
def NoLoneCr : Text → Prop
  | [] => True
  | '\r' :: '\n' :: cs => NoLoneCr cs
  | c :: cs => c ≠ '\r' ∧ NoLoneCr cs

end LspSpec

/-- One change to a document: replace the range the positions denote, or everything. -/
def applyChange (resolve : Text → Position → Option Nat) (text : Text) (c : Lsp.Change) : Option Text :=
  match c.range with
  | none => some c.text
  | some (start, stop) =>
    match resolve text start, resolve text stop with
    | some a, some b => Indel.apply ⟨c.text, ⟨a, b⟩⟩ text
    | _, _ => none

end Verif
