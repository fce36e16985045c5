import Verif.Spec.Spelling

/-
The lexical rules lua-analyzer follows, token by token.  They differ from Lua's in strings, long brackets, comments and
numerals (properties C14, C15, C16, C20).
-/
namespace Verif.Spec
open Lua

/-- Inside a quoted string: no NUL, no newline, and the quote only right after a backslash. -/
def QuotedBody (d : Char) (body : Text) : Prop :=
  (∀ c ∈ body, c ≠ '\x00' ∧ c ≠ '\n') ∧ ∀ p q, body = p ++ d :: q → p.getLast? = some '\\'

/-- Inside a long bracket of level `n`: no `]` followed by exactly `n` equals signs, except right after a backslash. -/
def LongBody (n : Nat) (body : Text) : Prop :=
  ∀ p q, body = p ++ ']' :: q → p.getLast? = some '\\' ∨ (q.takeWhile (· == '=')).length ≠ n

/-- `[==[`, or without the second bracket, which is an error. -/
inductive Opening (n : Nat) : Bool → Text → Text → Prop
  | ok (body) : Opening n true ['['] body
  | missing (body : Text) : n ≠ 0 → body.head? ≠ some '[' → body.head? ≠ some '=' → Opening n false [] body

/-- `Reads w k err rest`: in the text `w ++ rest` the first token is `w`, of kind `k`, with the error `err`. -/
inductive Reads : Text → SyntaxKind → Option String → Text → Prop
  | keyword {s : String} {k : SyntaxKind} {rest : Text} : (s, k) ∈ keywords →
      (∀ c, rest.head? = some c → nameChar c = false) → Reads s.toList k none rest
  | name {c : Char} {w rest : Text} : nameStart c = true → (∀ x ∈ w, nameChar x = true) →
      (∀ p ∈ keywords, p.1.toList ≠ c :: w) → (∀ c, rest.head? = some c → nameChar c = false) →
      Reads (c :: w) .ident none rest
  | space {w rest : Text} : w ≠ [] → (∀ c ∈ w, c ∈ spaces) → (∀ c, rest.head? = some c → c ∉ spaces) →
      Reads w .whitespace none rest
  -- the longest operator, unless a comment or a long string starts here
  | operator {s : String} {k : SyntaxKind} {rest : Text} : (s, k) ∈ operators →
      (∀ p ∈ operators, p.1.toList <+: s.toList ++ rest → p.1.toList.length ≤ s.toList.length) →
      (s = "-" → rest.head? ≠ some '-') → (s = "[" → rest.head? ≠ some '[' ∧ rest.head? ≠ some '=') →
      Reads s.toList k none rest
  | tilde {rest : Text} : rest.head? ≠ some '=' → Reads ['~'] .unknown none rest
  -- the longest number
  | number {w rest : Text} : Spelled .number w →
      (∀ p q, rest = p ++ q → p ≠ [] → ¬ Spelled .number (w ++ p)) → Reads w .number none rest
  | quoted {d : Char} {body rest : Text} : d = '\'' ∨ d = '"' → QuotedBody d body → body.getLast? ≠ some '\\' →
      Reads (d :: (body ++ [d])) .str none rest
  | quotedEnd {d : Char} {body rest : Text} : d = '\'' ∨ d = '"' → QuotedBody d body →
      rest = [] ∨ rest.head? = some '\x00' →
      Reads (d :: body) .str (some ("Could not find closing delimiter `" ++ String.ofList [d] ++ "`")) rest
  | quotedLine {d : Char} {body rest : Text} : d = '\'' ∨ d = '"' → QuotedBody d body → rest.head? = some '\n' →
      Reads (d :: body) .str (some "Unexpected newline in string") rest
  | long {n : Nat} {body rest : Text} : LongBody n body → body.getLast? ≠ some '\\' →
      Reads (longOpen n ++ body ++ longClose n) .str none rest
  -- the second bracket of the opening or of the closing is missing
  | longBad {n : Nat} {o c : Bool} {opening body closing rest : Text} :
      Opening n o opening (body ++ [']']) → LongBody n body → body.getLast? ≠ some '\\' →
      (c = true ∧ closing = [']'] ∨ c = false ∧ closing = [] ∧ rest.head? ≠ some '=' ∧ rest.head? ≠ some ']') →
      (o && c) = false →
      Reads ('[' :: (List.replicate n '=' ++ opening ++ body ++ (']' :: (List.replicate n '=' ++ closing)))) .str
        (some "Invalid bracket notation") rest
  | longEnd {n : Nat} {o : Bool} {opening body : Text} : Opening n o opening body → LongBody n body →
      Reads ('[' :: (List.replicate n '=' ++ opening ++ body)) .str (some "Could not find bracket string close") []
  | lineComment {w rest : Text} : '\n' ∉ w → (∀ t, w ≠ '[' :: '[' :: t) → rest = [] ∨ rest.head? = some '\n' →
      Reads ('-' :: '-' :: w) .comment none rest
  -- a closed block comment goes on to the end of the line
  | blockComment {body closing line rest : Text} : LongBody 0 body → body.getLast? ≠ some '\\' →
      (closing = [']'] ∨ closing = [] ∧ (line ++ rest).head? ≠ some '=' ∧ (line ++ rest).head? ≠ some ']') →
      '\n' ∉ line → rest = [] ∨ rest.head? = some '\n' →
      Reads ('-' :: '-' :: '[' :: '[' :: (body ++ ']' :: (closing ++ line))) .comment none rest
  | blockCommentEnd {body : Text} : LongBody 0 body → Reads ('-' :: '-' :: '[' :: '[' :: body) .comment none []
  | other {c : Char} {rest : Text} : nameStart c = false → c.isDigit = false → c ∉ spaces →
      (∀ p ∈ operators, p.1.toList ≠ [c]) → c ∉ ['~', '\'', '"'] →
      Reads [c] .unknown (some "Got an unknown token") rest

/-- A text cut into tokens from the left: words with their kinds and errors. -/
inductive ReadsAll : Text → List (Text × SyntaxKind × Option String) → Prop
  | nil : ReadsAll [] []
  | cons {w k err rest ls} : Reads w k err rest → ReadsAll rest ls → ReadsAll (w ++ rest) ((w, k, err) :: ls)

/-- The errors of the tokens of a text, with the ranges of their tokens; `pos` is where the first token starts. -/
def errorsFrom (pos : Nat) : List (Text × SyntaxKind × Option String) → List (String × Nat × Nat)
  | [] => []
  | (w, _, err) :: ls => (err.map fun m => (m, pos, pos + w.len)).toList ++ errorsFrom (pos + w.len) ls

end Verif.Spec
