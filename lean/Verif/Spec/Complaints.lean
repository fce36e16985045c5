import Verif.Spec.Productions
import Verif.Spec.LuaLexical

/-
What `SourceFile::parse` reports about a file whose text has no lexical and no syntax errors.
-/
namespace Verif.Spec
open Lua

/-- A text in which every backslash is followed by a character. -/
inductive Whole : Text → Prop
  | nil : Whole []
  | plain {c : Char} {t : Text} : c ≠ '\\' → Whole t → Whole (c :: t)
  | pair {c : Char} {t : Text} : Whole t → Whole ('\\' :: c :: t)

/-- The characters that may follow a backslash. -/
def escapeChars : List Char := ['a', 'b', 'f', 'n', 'r', 't', 'v', '\\', '"', '\'', '[', ']']

/-- The delimiters of a string. -/
inductive Delimiters : Text → Text → Prop
  | quotes (d : Char) : d = '\'' ∨ d = '"' → Delimiters [d] [d]
  | brackets (n : Nat) : Delimiters (longOpen n) (longClose n)

def isCallKind (k : SyntaxKind) : Bool := k == .callExpr || k == .methodCallExpr

/-- `Complaint text msg range`: what is wrong with an expression statement, an assignment or a string of the file. -/
inductive Complaint (text : Text) : String → Range → Prop
  -- an expression statement with something else than a call; parentheses are overlooked
  | notCall {s m x : Red} : NodeOf text .exprStmt s → parts s = [m] → x ∈ parts m → x.green.isNode = true →
      isCallKind x.kind = false → x.kind ≠ .parenExpr →
      Complaint text "Expression statements can only be call expressions" x.range
  | noCall {s m : Red} : NodeOf text .exprStmt s → parts s = [m] → (∀ x ∈ parts m, isCallKind x.kind = false) →
      Complaint text "Expected a call expression" s.range
  | calls {s m : Red} {n : Nat} : NodeOf text .exprStmt s → parts s = [m] →
      (parts m).countP (fun x => isCallKind x.kind) = n → 2 ≤ n →
      Complaint text ("Expected only one call expression, got " ++ toString n) s.range
  -- the left side of an assignment; parentheses are overlooked
  | target {s l e r x : Red} : NodeOf text .assignStmt s → parts s = [l, e, r] → x ∈ parts l → x.green.isNode = true →
      x.kind ∉ [SyntaxKind.nameRef, .dotExpr, .indexExpr, .parenExpr] →
      Complaint text "Can only assign name reference or index expression" x.range
  -- an unknown escape in a string, whether quoted or in long brackets; arguments `f"..."` are overlooked
  | escape {r t : Red} {left p q right : Text} {c : Char} : NodeOf text .literal r → parts r = [t] → t.kind = .str →
      Delimiters left right → t.green.text = left ++ (p ++ '\\' :: c :: q) ++ right → Whole p → c ∉ escapeChars →
      Complaint text "Invalid escape sequence"
        ⟨t.off + Text.len left + Text.len p, t.off + Text.len left + Text.len p + Text.len ['\\', c]⟩

end Verif.Spec
