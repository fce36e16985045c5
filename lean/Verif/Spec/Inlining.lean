import Verif.Spec.Wrapping
import Verif.Spec.LuaLexical

/-
The places where an expression may be exchanged for any other one.
-/
namespace Verif.Spec

/-- The nodes, other than lists of expressions, in which an expression among the children is the whole of what stands between
two brackets, keywords or separators. -/
def valuePlaces : List SyntaxKind :=
  [.parenExpr, .index, .positionalValue, .keyValue, .ifStmt, .elseIfBranch, .whileStmt, .repeatUntilStmt, .genericFor]

/-- The tokens, other than white space, directly behind which any expression may be written. -/
def openers : List SyntaxKind := [.lParen, .lBrace, .comma, .semicolon, .eq]

/-- The characters that may be written directly behind any expression. -/
def closers : List Char := [')', ']', '}', ',', ';'] ++ Lua.spaces

end Verif.Spec
