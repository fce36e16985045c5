import Verif.Spec.LuaGrammar
import Verif.Spec.LuaLexical
import Verif.Model.Validation

/-
Which files `SourceFile::parse` accepts without an error, beyond the grammar.
-/
namespace Verif.Spec
open Lua

/-- The characters accepted after a backslash. -/
def acceptedEscapes : List Char := ['a', 'b', 'f', 'n', 'r', 't', 'v', '\\', '"', '\'', '[', ']']

/-- Every backslash is followed by an accepted character. -/
inductive EscapesOk : Text → Prop
  | nil : EscapesOk []
  | plain {c : Char} {s : Text} : c ≠ '\\' → EscapesOk s → EscapesOk (c :: s)
  | esc {c : Char} {s : Text} : c ∈ acceptedEscapes → EscapesOk s → EscapesOk ('\\' :: c :: s)

/-- `w` is a quoted or a long string whose contents have accepted escapes only. -/
def StringOk (w : Text) : Prop :=
  ∃ body, EscapesOk body ∧
    ((∃ d, (d = '\'' ∨ d = '"') ∧ w = d :: (body ++ [d])) ∨ ∃ n, w = longOpen n ++ body ++ longClose n)

/-- The child nodes of a node (without tokens). -/
def nodesIn (g : Green) : List Green := g.children.filter (·.isNode)

/-- What is required of a node of each kind: an expression statement is a list with exactly one call, in which everything
else is in parentheses; the targets of an assignment are names, fields, index expressions or in parentheses; the escapes
of a literal string are known. -/
structure Fine (g : Green) : Prop where
  exprStmt : g.kind = .exprStmt → ∃ m, nodesIn g = [m] ∧ m.kind = .multivalExpr ∧
    (nodesIn m).countP (fun c => c.kind == .callExpr || c.kind == .methodCallExpr) = 1 ∧
    ∀ c ∈ nodesIn m, c.kind = .callExpr ∨ c.kind = .methodCallExpr ∨ c.kind = .parenExpr
  assignStmt : g.kind = .assignStmt → ∃ l r, nodesIn g = [l, r] ∧ l.kind = .multivalExpr ∧ r.kind = .multivalExpr ∧
    ∀ c ∈ nodesIn l, c.kind = .nameRef ∨ c.kind = .dotExpr ∨ c.kind = .indexExpr ∨ c.kind = .parenExpr
  literal : ∀ w, g = .node .literal [.token .str w] → StringOk w

end Verif.Spec
