import Verif.Model.Text
import Verif.Model.SyntaxKind

/-
The lexical structure of Lua (reference manual 5.1, section 2.1), independent of the lexer.
-/
namespace Verif
namespace Lua

/-! ### short strings -/

/-- A piece of the body of a short string literal: a plain character or a backslash followed by a
character. -/
inductive StrItem where
  | plain (c : Char)
  | esc (c : Char)
  deriving DecidableEq, Repr

def StrItem.text : StrItem → Text
  | .plain c => [c]
  | .esc c => ['\\', c]

/-- The text of a list of pieces. -/
def bodyText : List StrItem → Text
  | [] => []
  | i :: is => i.text ++ bodyText is

/-- A plain piece of a string quoted with `d` is not the quote, a backslash or a newline. -/
def StrItem.Valid (d : Char) : StrItem → Prop
  | .plain c => c ≠ d ∧ c ≠ '\\' ∧ c ≠ '\n'
  | .esc _ => True

/-! ### long brackets -/

/-- `[==[` with `n` equals signs. -/
def longOpen (n : Nat) : Text := '[' :: (List.replicate n '=' ++ ['['])
/-- `]==]` with `n` equals signs. -/
def longClose (n : Nat) : Text := ']' :: (List.replicate n '=' ++ [']'])

/-- The close bracket after `body` is the first one. -/
def FirstClose (n : Nat) (body : Text) : Prop :=
  ∀ p q, body ++ longClose n = p ++ longClose n ++ q → q = []

/-! ### words -/

/-- `[A-Za-z_]` -/
def nameStart (c : Char) : Bool := c.isAlpha || c == '_'
/-- `[A-Za-z0-9_]` -/
def nameChar (c : Char) : Bool := c.isAlphanum || c == '_'

/-- The keywords of Lua 5.1 and `goto`. -/
def keywords : List (String × SyntaxKind) :=
  [("and", .andKw), ("break", .breakKw), ("do", .doKw), ("else", .elseKw), ("elseif", .elseifKw),
   ("end", .endKw), ("false", .falseKw), ("for", .forKw), ("function", .functionKw), ("goto", .gotoKw),
   ("if", .ifKw), ("in", .inKw), ("local", .localKw), ("nil", .nilKw), ("not", .notKw), ("or", .orKw),
   ("repeat", .repeatKw), ("return", .returnKw), ("then", .thenKw), ("true", .trueKw),
   ("until", .untilKw), ("while", .whileKw)]

/-! ### operators and punctuation -/

/-- The operator and punctuation tokens. -/
def operators : List (String × SyntaxKind) :=
  [("+", .plus), ("-", .minus), ("*", .asterisk), ("/", .slash), ("%", .modulo), ("^", .caret),
   ("#", .hash), ("==", .eqEq), ("~=", .notEq), ("<=", .ltEq), (">=", .gtEq), ("<", .lt), (">", .gt),
   ("=", .eq), ("(", .lParen), (")", .rParen), ("{", .lBrace), ("}", .rBrace), ("[", .lBracket),
   ("]", .rBracket), ("::", .doubleColon), (";", .semicolon), (":", .colon), (",", .comma),
   (".", .dot), ("..", .doubleDot), ("...", .tripleDot), ("!", .bang)]

/-! ### white space -/

/-- ASCII white space. -/
def spaces : List Char := [' ', '\t', '\n', '\r', '\x0c']

/-! ### numerals -/

/-- An optional exponent: nothing, or `e`/`E`, an optional sign, digits. -/
inductive Exponent : Text → Prop
  | none : Exponent []
  | some {c : Char} {sign ds : Text} : c = 'e' ∨ c = 'E' → sign = [] ∨ sign = ['-'] ∨ sign = ['+'] →
      ds ≠ [] → (∀ d ∈ ds, d.isDigit = true) → Exponent (c :: (sign ++ ds))

/-- Hexadecimal digits. -/
def isHexDigit (c : Char) : Bool :=
  c.isDigit || decide (c ∈ ['a', 'b', 'c', 'd', 'e', 'f', 'A', 'B', 'C', 'D', 'E', 'F'])

/-- A Lua 5.1 numeral. -/
inductive Numeral : Text → Prop
  /-- digits with optional fraction -/
  | decimal {ds frac e : Text} : ds ≠ [] → (∀ d ∈ ds, d.isDigit = true) →
      (frac = [] ∨ ∃ fs, frac = '.' :: fs ∧ ∀ d ∈ fs, d.isDigit = true) → Exponent e →
      Numeral (ds ++ frac ++ e)
  /-- a fraction only -/
  | fraction {ds e : Text} : ds ≠ [] → (∀ d ∈ ds, d.isDigit = true) → Exponent e →
      Numeral ('.' :: (ds ++ e))
  | hex {x : Char} {ds : Text} : x = 'x' ∨ x = 'X' → ds ≠ [] → (∀ d ∈ ds, isHexDigit d = true) →
      Numeral ('0' :: x :: ds)

end Lua
end Verif
