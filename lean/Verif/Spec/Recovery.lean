import Verif.Spec.ErrorMessages
import Verif.Spec.Walk
import Verif.Spec.TreeShape

/-
Error recovery: which complaints belong to which construct, which of them skip tokens, and which tokens.
-/
namespace Verif.Spec

/-- Tokens that are never skipped in search of a name. -/
def nameStop : List SyntaxKind := [.endKw, .functionKw, .doKw, .doubleColon]

/-- Where a name is expected (declared names, not uses): the tokens that are left in place if there is no name. -/
def nameKeeps : SyntaxKind → Option (List SyntaxKind)
  | .multiName => some (.comma :: nameStop)
  | .labelStmt => some nameStop
  | .localFunctionDefStmt => some (.lParen :: nameStop)
  | .functionMethod => some (.lParen :: nameStop)
  | .functionStatic => some (.lParen :: nameStop)
  | _ => none

/-- The constructs in which an expression stands directly. -/
def expressionHolders : List SyntaxKind :=
  [.multivalExpr, .infixExpr, .prefixExpr, .index, .parenExpr, .keyValue, .positionalValue, .ifStmt, .elseIfBranch,
    .whileStmt, .genericFor, .repeatUntilStmt]

/-- The fixed tokens of a construct whose absence is reported. -/
def fixedTokens : SyntaxKind → List SyntaxKind
  | .nameRef => [.ident]
  | .dotExpr => [.ident]
  | .paramList => [.lParen, .rParen]
  | .argList => [.rParen]
  | .parenExpr => [.rParen]
  | .index => [.rBracket]
  | .keyValue => [.eq]
  | .tableExpr => [.rBrace]
  | .functionExpr => [.endKw]
  | .elseIfBranch => [.thenKw]
  | .ifStmt => [.thenKw, .endKw]
  | .labelDelim => [.doubleColon]
  | .whileStmt => [.doKw, .endKw]
  | .genericFor => [.inKw]
  | .forStmt => [.doKw, .endKw]
  | .repeatUntilStmt => [.untilKw]
  | .localFunctionDefStmt => [.endKw]
  | .functionDefStmt => [.endKw]
  | .doStmt => [.endKw]
  | _ => []

/-- The tokens a table constructor recovers at. -/
def tableStop : List SyntaxKind := [.comma, .semicolon, .rBrace, .lBracket, .endKw]

/-- Exactly one token is skipped, and it satisfies `p`; at the end of the file nothing is skipped. -/
def One (p : SyntaxKind → Prop) (skipped : List SyntaxKind) (next : SyntaxKind) : Prop :=
  (∃ k, skipped = [k] ∧ p k) ∨ (skipped = [] ∧ next = .eof)

/-- A complaint `msg` inside a construct that skips nothing, before the token `next`. -/
def Stays (construct : SyntaxKind) (msg : String) (next : SyntaxKind) : Prop :=
  (∃ e ∈ fixedTokens construct, msg = "Expected " ++ tokenName e ++ ", got " ++ tokenName next ∧ e ≠ next) ∨
  (∃ keeps, nameKeeps construct = some keeps ∧ msg = "expected a name" ∧ next ∈ keeps) ∨
  (construct = .indexPath ∧ msg = "expected a name referencer" ∧ next ∈ .dot :: .colon :: nameStop) ∨
  (construct = .paramList ∧ msg = "Nothing can be after a vararg" ∧ next = .endKw) ∨
  (construct ∈ expressionHolders ∧ msg = "Expected an expression" ∧ next ∈ [SyntaxKind.endKw, .localKw]) ∨
  (construct = .tableContent ∧ msg = "Expected an expression" ∧
    next ∉ .lBracket :: .rBrace :: .endKw :: .eof :: expressionStart) ∨
  (construct = .methodCallExpr ∧ msg = "Expected call arguments" ∧ next ∉ [SyntaxKind.lParen, .lBrace, .str]) ∨
  (construct = .forContent ∧ msg = "Expected an identifier" ∧ next ≠ .ident)

/-- A complaint `msg` inside a construct that skips the tokens `skipped`; the token after them is `next`. -/
def Skips (construct : SyntaxKind) (msg : String) (skipped : List SyntaxKind) (next : SyntaxKind) : Prop :=
  (∃ keeps, nameKeeps construct = some keeps ∧ msg = "expected a name" ∧
    One (fun k => k ∉ .ident :: keeps) skipped next) ∨
  (construct = .indexPath ∧ msg = "expected a name referencer" ∧
    One (fun k => k ∉ .ident :: .dot :: .colon :: nameStop) skipped next) ∨
  (construct = .paramList ∧ msg = "Nothing can be after a vararg" ∧
    One (fun k => k ∉ [SyntaxKind.rParen, .endKw]) skipped next) ∨
  (construct ∈ expressionHolders ∧ msg = "Expected an expression" ∧
    One (fun k => k ∉ .endKw :: .localKw :: expressionStart) skipped next) ∨
  (construct = .tableExpr ∧ msg = "Failed to find comma or closing bracket" ∧
    skipped ≠ [] ∧ (∀ k ∈ skipped, k ∉ tableStop) ∧ next ∈ .eof :: tableStop) ∨
  (construct = .block ∧ msg = "Unmatched end token" ∧ skipped = [.endKw]) ∨
  (construct = .block ∧ msg = "Semicolons can only be used after statements" ∧ skipped = [.semicolon]) ∨
  (construct = .block ∧ msg = "A literal cannot be the start of a statement" ∧
    ∃ k ∈ [SyntaxKind.nilKw, .trueKw, .falseKw, .number, .str, .tripleDot], skipped = [k]) ∨
  (construct = .block ∧ msg = "Expected a statement" ∧
    ∃ k, skipped = [k] ∧ k ∉ [SyntaxKind.endKw, .semicolon, .nilKw, .trueKw, .falseKw, .number, .str, .tripleDot] ∧
      k ∉ statementStart)

/-- The kinds of the tokens below a node, comments and white space left out. -/
def realTokens (g : Green) : List SyntaxKind := (g.leaves.map (·.1)).filter fun k => !k.isTrivia

end Verif.Spec
