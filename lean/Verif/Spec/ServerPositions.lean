import Verif.Spec.Positions

/-
How the server (not the protocol) reads positions and changes, for every text and every position.
-/
namespace Verif.ServerSpec

/-- The lines of a text: only a line feed ends a line (and is not part of it). -/
def lines : Text → List Text
  | [] => [[]]
  | c :: cs =>
    if c = '\n' then [] :: lines cs
    else match lines cs with
      | l :: ls => (c :: l) :: ls
      | [] => [[c]]

/-- The byte column of a UTF-16 column in a line: a column in the middle of a surrogate pair is one byte before the end
of the character, and every column past the end of the line is a byte more. -/
def column : Nat → Text → Nat
  | 0, _ => 0
  | n + 1, [] => n + 1
  | n + 1, c :: cs =>
    let units := if c.val ≤ 0xFFFF then 1 else 2
    if units ≤ n + 1 then c.utf8Size + column (n + 1 - units) cs else c.utf8Size - 1

/-- The offset of a position; `none`: the server panics. -/
def offset (text : Text) (pos : Position) : Option Nat :=
  ((lines text)[pos.line]?).map fun line =>
    (((lines text).take pos.line).map fun l => l.len + 1).sum + column pos.col line

/-- The text after some changes, one after the other; `none`: the server panics. -/
def changed (text : Text) (changes : List Lsp.Change) : Option Text :=
  changes.foldlM (applyChange offset) text

/-- The text after some changes, the way the server really applies them: it looks positions up in the text whose lines it
has counted last (`counted`), and counts again only before a change that ends on the line on which the change before it
starts, or later (`limit`; `none` before the first change). -/
def servedFrom (counted : Text) (limit : Option Nat) (text : Text) : List Lsp.Change → Option Text
  | [] => some text
  | c :: cs =>
    match c.range with
    | none => servedFrom counted (some 0) c.text cs
    | some (s, e) =>
      let counted := if limit.any (· ≤ e.line) then text else counted
      (applyChange (fun _ => offset counted) text c).bind fun text => servedFrom counted (some s.line) text cs

/-- The text after some changes, as the server applies them; `none`: it panics. -/
def served (text : Text) (changes : List Lsp.Change) : Option Text :=
  servedFrom text none text changes

/-- No range of the changes ends on an earlier line than it starts. -/
def Forward (changes : List Lsp.Change) : Prop :=
  ∀ c ∈ changes, ∀ s e, c.range = some (s, e) → s.line ≤ e.line

end Verif.ServerSpec
