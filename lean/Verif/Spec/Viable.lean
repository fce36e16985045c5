import Verif.Spec.LuaGrammar
import Verif.Spec.Joining

/-
How far a token sequence is the beginning of a correct program.
-/
namespace Verif
namespace PTree

mutual
/-- The tokens of a tree up to its first error. -/
def beforeError : PTree → List SyntaxKind
  | .tok k => [k]
  | .err _ => []
  | .errNode _ _ => []
  | .node _ cs => beforeErrorL cs
/-- The tokens of a list of trees up to the first error. -/
def beforeErrorL : List PTree → List SyntaxKind
  | [] => []
  | t :: ts => beforeError t ++ (if errors t = [] then beforeErrorL ts else [])
end

end PTree

namespace Spec

/-- The text `a` ends where a token of `a ++ b` ends, its tokens are the first tokens of `a ++ b`, and it has no lexical
error of its own. -/
def CutAt (a b : Text) : Prop :=
  ∃ tokens more errors, tokenize a = .ok (tokens, []) ∧ tokenize (a ++ b) = .ok (tokens ++ more, errors)

/-- After `.` and `:` comes a `(`, as in `function a.:(`. -/
def DotColonParen (a b : Text) : Prop :=
  ∃ front rest, HasKinds a (front ++ [.dot, .colon]) ∧ HasKinds (a ++ b) (front ++ [.dot, .colon, .lParen] ++ rest)

end Spec
end Verif
