import Verif.Spec.Wrapping

/-
The expressions that may stand wherever a name may.
-/
namespace Verif.Spec

/-- The expressions that are written as a name or something in parentheses, followed by indices and calls. -/
def primaryKinds : List SyntaxKind := [.nameRef, .parenExpr, .callExpr, .methodCallExpr, .indexExpr, .dotExpr]

/-- The nodes, other than lists of expressions, in which an expression among the children may be exchanged for such a one. -/
def operandPlaces : List SyntaxKind := openPlaces.filter (· != .multivalExpr)

/-- Both are calls, or both can be assigned to. -/
def sameUse (old new : SyntaxKind) : Prop :=
  old ∈ [SyntaxKind.callExpr, .methodCallExpr] ∧ new ∈ [SyntaxKind.callExpr, .methodCallExpr] ∨
    old ∈ [SyntaxKind.nameRef, .dotExpr, .indexExpr] ∧ new ∈ [SyntaxKind.nameRef, .dotExpr, .indexExpr]

end Verif.Spec
