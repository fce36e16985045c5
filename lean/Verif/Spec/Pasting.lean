import Verif.Model.SyntaxKind

/-
Constructs with their own brackets.
-/
namespace Verif.Spec

/-- The constructs that start with a token of their own and end in one: in brackets, or ended by `end`. -/
def selfClosing : List SyntaxKind :=
  [.parenExpr, .tableExpr, .functionExpr, .index, .argList, .paramList,
    .doStmt, .whileStmt, .ifStmt, .forStmt, .functionDefStmt, .localFunctionDefStmt]

end Verif.Spec
