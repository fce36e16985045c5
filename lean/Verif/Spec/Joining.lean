import Verif.Model.Validation
import Verif.Spec.LuaGrammar

/-
Putting one file behind another.
-/
namespace Verif.Spec

/-- The kinds of the tokens of a text, white space and comments left out. -/
def HasKinds (text : Text) (kinds : List SyntaxKind) : Prop :=
  ∃ tokens errors, tokenize text = .ok (tokens, errors) ∧ kinds = (tokens.map (·.kind)).filter (fun k => !k.isTrivia)

/-- The last token is a comment that starts with `--[[`. -/
def EndsInBlockComment (text : Text) : Prop :=
  ∃ front body tokens errors, text = front ++ ("--[[".toList ++ body) ∧ tokenize text = .ok (tokens, errors) ∧
    tokens.getLast? = some ⟨.comment, Text.len ("--[[".toList ++ body)⟩

/-- The second list of tokens cannot be read as the rest of the last statement of the first: that statement ends with a
semicolon, or the second list does not start with `(`, and not with an expression behind `return`. -/
def KeepsApart (kinds kinds' : List SyntaxKind) : Prop :=
  ∀ k k', kinds.getLast? = some k → kinds'.head? = some k' →
    k = .semicolon ∨ (k' ≠ .lParen ∧ (k = .returnKw → k' ∉ Lua.exprFirst))

/-- The statements of a file and the semicolons between them. -/
def statements (tree : Green) : List Green :=
  (tree.children.flatMap Green.children).filter fun g => !g.kind.isTrivia

end Verif.Spec
