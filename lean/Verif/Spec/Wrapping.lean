import Verif.Model.Sink

/-
Expressions and the places where they may be put in parentheses.
-/
namespace Verif.Spec

/-- The kinds of expressions. -/
def expressionKinds : List SyntaxKind :=
  [.nameRef, .literal, .functionExpr, .tableExpr, .parenExpr, .callExpr, .methodCallExpr, .indexExpr, .dotExpr, .prefixExpr,
    .infixExpr]

/-- The nodes in which every expression among the children is one that may be in parentheses (except for the name of a method,
behind `:`): operators, calls, indices, lists of expressions, fields of tables, and conditions. -/
def openPlaces : List SyntaxKind :=
  [.infixExpr, .prefixExpr, .parenExpr, .callExpr, .methodCallExpr, .indexExpr, .dotExpr, .index, .multivalExpr,
    .positionalValue, .keyValue,
    .ifStmt, .elseIfBranch, .whileStmt, .repeatUntilStmt, .genericFor]

/-- The last tokens of expressions that can be called: behind them, `(` starts the arguments of a call; and `:`, behind which
only the name of a method can be. -/
def callEnds : List SyntaxKind := [.ident, .rParen, .rBracket, .rBrace, .endKw, .str, .colon]

/-- The expressions that can be called as they stand. -/
def callable : List SyntaxKind :=
  [.nameRef, .parenExpr, .functionExpr, .tableExpr, .callExpr, .indexExpr, .methodCallExpr, .dotExpr]

/-- The text of some tokens. -/
def spelled (ls : List (SyntaxKind × Text)) : Text := (ls.map (·.2)).flatten

/-- The kinds of some tokens, without white space and comments. -/
def significant (ls : List (SyntaxKind × Text)) : List SyntaxKind :=
  (ls.map (·.1)).filter fun k => decide (k ≠ .whitespace ∧ k ≠ .comment)

/-- A node in parentheses. -/
def parenthesized (g : Green) : Green := .node .parenExpr [.token .lParen ['('], g, .token .rParen [')']]

/-- The tree of the file that only returns an expression. -/
def returnFile (g : Green) : Green :=
  .node .sourceFile [.node .block [.node .returnStmt [.token .returnKw "return".toList, .token .whitespace [' '],
    .node .multivalExpr [g]]]]

end Verif.Spec
