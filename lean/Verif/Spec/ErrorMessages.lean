import Verif.Model.Sink

/-
What the messages of syntax errors say about the token they are reported at.
-/
namespace Verif.Spec

/-- The tokens an expression can start with. -/
def expressionStart : List SyntaxKind :=
  [.nilKw, .trueKw, .falseKw, .number, .str, .tripleDot, .functionKw, .lBrace, .ident, .lParen, .notKw, .hash, .minus]

/-- The tokens a statement can start with. -/
def statementStart : List SyntaxKind :=
  [.ifKw, .doubleColon, .gotoKw, .localKw, .repeatKw, .functionKw, .returnKw, .doKw, .whileKw, .forKw, .breakKw,
    .ident, .lParen]

/-- The names of tokens (and of the other kinds) in messages. -/
def tokenName : SyntaxKind → String
  | .tombstone => "Tombstone"
  | .eof => "Eof"
  | .unknown => "Unknown"
  | .bang => "Bang"
  | .hash => "Hash"
  | .modulo => "Modulo"
  | .lParen => "LParen"
  | .rParen => "RParen"
  | .asterisk => "Asterisk"
  | .plus => "Plus"
  | .comma => "Comma"
  | .minus => "Minus"
  | .dot => "Dot"
  | .doubleDot => "DoubleDot"
  | .tripleDot => "TripleDot"
  | .slash => "Slash"
  | .colon => "Colon"
  | .doubleColon => "DoubleColon"
  | .semicolon => "Semicolon"
  | .lt => "Lt"
  | .ltEq => "LtEq"
  | .eq => "Eq"
  | .eqEq => "EqEq"
  | .gt => "Gt"
  | .gtEq => "GtEq"
  | .lBracket => "LBracket"
  | .rBracket => "RBracket"
  | .caret => "Caret"
  | .lBrace => "LBrace"
  | .rBrace => "RBrace"
  | .notEq => "NotEq"
  | .functionKw => "FunctionKw"
  | .localKw => "LocalKw"
  | .trueKw => "TrueKw"
  | .falseKw => "FalseKw"
  | .ifKw => "IfKw"
  | .thenKw => "ThenKw"
  | .elseKw => "ElseKw"
  | .elseifKw => "ElseifKw"
  | .whileKw => "WhileKw"
  | .forKw => "ForKw"
  | .inKw => "InKw"
  | .breakKw => "BreakKw"
  | .doKw => "DoKw"
  | .gotoKw => "GotoKw"
  | .andKw => "AndKw"
  | .orKw => "OrKw"
  | .notKw => "NotKw"
  | .returnKw => "ReturnKw"
  | .endKw => "EndKw"
  | .repeatKw => "RepeatKw"
  | .untilKw => "UntilKw"
  | .nilKw => "NilKw"
  | .number => "Number"
  | .str => "Str"
  | .trueLit => "True"
  | .falseLit => "False"
  | .error => "Error"
  | .ident => "Ident"
  | .shebang => "Shebang"
  | .name => "Name"
  | .nameRef => "NameRef"
  | .multiName => "MultiName"
  | .sourceFile => "SourceFile"
  | .block => "Block"
  | .assignStmt => "AssignStmt"
  | .localAssignStmt => "LocalAssignStmt"
  | .localFunctionDefStmt => "LocalFunctionDefStmt"
  | .functionDefStmt => "FunctionDefStmt"
  | .forStmt => "ForStmt"
  | .ifStmt => "IfStmt"
  | .returnStmt => "ReturnStmt"
  | .whileStmt => "WhileStmt"
  | .exprStmt => "ExprStmt"
  | .breakStmt => "BreakStmt"
  | .repeatUntilStmt => "RepeatUntilStmt"
  | .labelStmt => "LabelStmt"
  | .gotoStmt => "GotoStmt"
  | .labelDelim => "LabelDelim"
  | .doStmt => "DoStmt"
  | .paramList => "ParamList"
  | .functionMethod => "FunctionMethod"
  | .functionStatic => "FunctionStatic"
  | .indexPath => "IndexPath"
  | .multivalExpr => "MultivalExpr"
  | .elseBranch => "ElseBranch"
  | .elseIfBranch => "ElseIfBranch"
  | .numericFor => "NumericFor"
  | .genericFor => "GenericFor"
  | .literal => "Literal"
  | .tableExpr => "TableExpr"
  | .infixExpr => "InfixExpr"
  | .prefixExpr => "PrefixExpr"
  | .indexExpr => "IndexExpr"
  | .dotExpr => "DotExpr"
  | .functionExpr => "FunctionExpr"
  | .callExpr => "CallExpr"
  | .methodCallExpr => "MethodCallExpr"
  | .callArgs => "CallArgs"
  | .argList => "ArgList"
  | .tableSep => "TableSep"
  | .parenExpr => "ParenExpr"
  | .keyValue => "KeyValue"
  | .positionalValue => "PositionalValue"
  | .index => "Index"
  | .identKey => "IdentKey"
  | .stmt => "Stmt"
  | .stmtItem => "StmtItem"
  | .functionDefContent => "FunctionDefContent"
  | .expr => "Expr"
  | .forContent => "ForContent"
  | .tableContent => "TableContent"
  | .tableKey => "TableKey"
  | .comment => "Comment"
  | .whitespace => "Whitespace"
  | .last => "__LAST"

/-- What a message says about the next token (`Eof` at the end of the file). -/
def Says (msg : String) (next : SyntaxKind) : Prop :=
  (∃ e : SyntaxKind, msg = "Expected " ++ tokenName e ++ ", got " ++ tokenName next ∧ e ≠ next) ∨
  (msg ∈ ["expected a name", "expected a name referencer", "Expected an identifier"] ∧ next ≠ .ident) ∨
  (msg = "Expected an expression" ∧ next ∉ expressionStart) ∨
  (msg = "Expected call arguments" ∧ next ∉ [SyntaxKind.lParen, .lBrace, .str]) ∨
  (msg = "Nothing can be after a vararg" ∧ next ≠ .rParen) ∨
  (msg = "Failed to find comma or closing bracket" ∧
    next ∉ [SyntaxKind.comma, .semicolon, .rBrace, .lBracket, .endKw, .eof]) ∨
  (msg = "Unmatched end token" ∧ next = .endKw) ∨
  (msg = "Semicolons can only be used after statements" ∧ next = .semicolon) ∨
  (msg = "A literal cannot be the start of a statement" ∧
    next ∈ [SyntaxKind.nilKw, .trueKw, .falseKw, .number, .str, .tripleDot]) ∨
  (msg = "Expected a statement" ∧ next ∉ statementStart)

/-- The kind of the first token that is not whitespace or a comment and starts at `pos` or later; the tokens given start
at `start`. -/
def nextKind (pos : Nat) : Nat → List Token → SyntaxKind
  | _, [] => .eof
  | start, t :: ts => if pos ≤ start ∧ t.kind.isTrivia = false then t.kind else nextKind pos (start + t.len) ts

end Verif.Spec
