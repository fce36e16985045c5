import Verif.Spec.LuaLexical

/-
How a token of each kind is written.
-/
namespace Verif.Spec
open Lua

/-- What follows the digits of a number: an optional `.` and digits, then optionally `e`, a sign and digits. -/
inductive NumberTail : Text → Prop
  | mk {frac e : Text} : (frac = [] ∨ ∃ ds, frac = '.' :: ds ∧ ∀ d ∈ ds, d.isDigit = true) →
      (e = [] ∨ ∃ c sign ds, e = c :: (sign ++ ds) ∧ (c = 'e' ∨ c = 'E') ∧ (sign = [] ∨ sign = ['-']) ∧
        ∀ d ∈ ds, d.isDigit = true) → NumberTail (frac ++ e)

/-- `Spelled k w`: `w` is a way to write a token of kind `k`. -/
inductive Spelled : SyntaxKind → Text → Prop
  | fixed {s : String} {k : SyntaxKind} : (s, k) ∈ keywords ++ operators → Spelled k s.toList
  | name {c : Char} {w : Text} : nameStart c = true → (∀ x ∈ w, nameChar x = true) →
      (∀ p ∈ keywords, p.1.toList ≠ c :: w) → Spelled .ident (c :: w)
  | space {w : Text} : w ≠ [] → (∀ c ∈ w, c ∈ spaces) → Spelled .whitespace w
  | lineComment {w : Text} : '\n' ∉ w → Spelled .comment ('-' :: '-' :: w)
  | blockComment {w : Text} : Spelled .comment ('-' :: '-' :: '[' :: '[' :: w)
  | quoted {d : Char} {body : Text} : d = '\'' ∨ d = '"' → '\n' ∉ body → Spelled .str (d :: (body ++ [d]))
  | long {n : Nat} {body : Text} : Spelled .str (longOpen n ++ body ++ longClose n)
  | number {d : Char} {ds tail : Text} : d.isDigit = true → (∀ d ∈ ds, d.isDigit = true) → NumberTail tail →
      Spelled .number (d :: (ds ++ tail))
  | hex {ds : Text} : (∀ d ∈ ds, isHexDigit d = true) → Spelled .number ('0' :: 'x' :: ds)
  | tilde : Spelled .unknown ['~']

/-- `Misspelled k w`: `w` is a token with a lexical error: a string that is not closed, or a character no token starts
with. -/
inductive Misspelled : SyntaxKind → Text → Prop
  | quoted {d : Char} {body : Text} : d = '\'' ∨ d = '"' → '\n' ∉ body → Misspelled .str (d :: body)
  | long {w : Text} {c : Char} : c = '[' ∨ c = '=' → Misspelled .str ('[' :: c :: w)
  | char {c : Char} : nameStart c = false → c.isDigit = false → c ∉ spaces → c ∉ ['\'', '"', '~'] →
      (∀ p ∈ operators, p.1.toList ≠ [c]) → Misspelled .unknown [c]

end Verif.Spec
