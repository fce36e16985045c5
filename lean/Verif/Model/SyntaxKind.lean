/-
Model of `SyntaxKind` and its conversions.
-/
namespace Verif

/-- crates/parser/src/syntax_kind/generated.rs:7-128, `enum SyntaxKind` (`#[repr(u16)]`), same
constructors in the same order (so the same discriminants).  Names are lower-cased;
`True`/`False`/`__LAST` are called `trueLit`/`falseLit`/`last`. -/
inductive SyntaxKind where
  | tombstone | eof | unknown | bang | hash | modulo | lParen | rParen | asterisk | plus | comma
  | minus | dot | doubleDot | tripleDot | slash | colon | doubleColon | semicolon | lt | ltEq
  | eq | eqEq | gt | gtEq | lBracket | rBracket | caret | lBrace | rBrace | notEq | functionKw
  | localKw | trueKw | falseKw | ifKw | thenKw | elseKw | elseifKw | whileKw | forKw | inKw
  | breakKw | doKw | gotoKw | andKw | orKw | notKw | returnKw | endKw | repeatKw | untilKw
  | nilKw | number | str | trueLit | falseLit | error | ident | shebang | name | nameRef
  | multiName | sourceFile | block | assignStmt | localAssignStmt | localFunctionDefStmt
  | functionDefStmt | forStmt | ifStmt | returnStmt | whileStmt | exprStmt | breakStmt
  | repeatUntilStmt | labelStmt | gotoStmt | labelDelim | doStmt | paramList | functionMethod
  | functionStatic | indexPath | multivalExpr | elseBranch | elseIfBranch | numericFor
  | genericFor | literal | tableExpr | infixExpr | prefixExpr | indexExpr | dotExpr
  | functionExpr | callExpr | methodCallExpr | callArgs | argList | tableSep | parenExpr
  | keyValue | positionalValue | index | identKey | stmt | stmtItem | functionDefContent | expr
  | forContent | tableContent | tableKey | comment | whitespace | last
  deriving DecidableEq, Repr, Inhabited

namespace SyntaxKind

/-- crates/parser/src/syntax_kind.rs:15-19, `impl From<SyntaxKind> for u16` (`k as u16`). -/
def toU16 (k : SyntaxKind) : Nat := k.ctorIdx

/-- The kinds in discriminant order (used to model the `transmute` below). -/
def all : List SyntaxKind :=
  [.tombstone, .eof, .unknown, .bang, .hash, .modulo, .lParen, .rParen, .asterisk, .plus,
   .comma, .minus, .dot, .doubleDot, .tripleDot, .slash, .colon, .doubleColon, .semicolon,
   .lt, .ltEq, .eq, .eqEq, .gt, .gtEq, .lBracket, .rBracket, .caret, .lBrace, .rBrace,
   .notEq, .functionKw, .localKw, .trueKw, .falseKw, .ifKw, .thenKw, .elseKw, .elseifKw,
   .whileKw, .forKw, .inKw, .breakKw, .doKw, .gotoKw, .andKw, .orKw, .notKw, .returnKw,
   .endKw, .repeatKw, .untilKw, .nilKw, .number, .str, .trueLit, .falseLit, .error, .ident,
   .shebang, .name, .nameRef, .multiName, .sourceFile, .block, .assignStmt,
   .localAssignStmt, .localFunctionDefStmt, .functionDefStmt, .forStmt, .ifStmt,
   .returnStmt, .whileStmt, .exprStmt, .breakStmt, .repeatUntilStmt, .labelStmt, .gotoStmt,
   .labelDelim, .doStmt, .paramList, .functionMethod, .functionStatic, .indexPath,
   .multivalExpr, .elseBranch, .elseIfBranch, .numericFor, .genericFor, .literal,
   .tableExpr, .infixExpr, .prefixExpr, .indexExpr, .dotExpr, .functionExpr, .callExpr,
   .methodCallExpr, .callArgs, .argList, .tableSep, .parenExpr, .keyValue, .positionalValue,
   .index, .identKey, .stmt, .stmtItem, .functionDefContent, .expr, .forContent,
   .tableContent, .tableKey, .comment, .whitespace, .last]

/-- crates/parser/src/syntax_kind.rs:8-13, `impl From<u16> for SyntaxKind`: `assert!(d <= __LAST)`
then `transmute`.  `none` is the panic of the assertion. -/
def ofU16 (d : Nat) : Option SyntaxKind :=
  if d ≤ SyntaxKind.last.toU16 then all[d]? else none

/-- The names of the variants, in discriminant order. -/
def variantNames : List String :=
  ["Tombstone", "Eof", "Unknown", "Bang", "Hash", "Modulo", "LParen", "RParen", "Asterisk", "Plus", "Comma",
  "Minus", "Dot", "DoubleDot", "TripleDot", "Slash", "Colon", "DoubleColon", "Semicolon", "Lt", "LtEq", "Eq",
  "EqEq", "Gt", "GtEq", "LBracket", "RBracket", "Caret", "LBrace", "RBrace", "NotEq", "FunctionKw", "LocalKw",
  "TrueKw", "FalseKw", "IfKw", "ThenKw", "ElseKw", "ElseifKw", "WhileKw", "ForKw", "InKw", "BreakKw", "DoKw",
  "GotoKw", "AndKw", "OrKw", "NotKw", "ReturnKw", "EndKw", "RepeatKw", "UntilKw", "NilKw", "Number", "Str",
  "True", "False", "Error", "Ident", "Shebang", "Name", "NameRef", "MultiName", "SourceFile", "Block",
  "AssignStmt", "LocalAssignStmt", "LocalFunctionDefStmt", "FunctionDefStmt", "ForStmt", "IfStmt", "ReturnStmt",
  "WhileStmt", "ExprStmt", "BreakStmt", "RepeatUntilStmt", "LabelStmt", "GotoStmt", "LabelDelim", "DoStmt",
  "ParamList", "FunctionMethod", "FunctionStatic", "IndexPath", "MultivalExpr", "ElseBranch", "ElseIfBranch",
  "NumericFor", "GenericFor", "Literal", "TableExpr", "InfixExpr", "PrefixExpr", "IndexExpr", "DotExpr",
  "FunctionExpr", "CallExpr", "MethodCallExpr", "CallArgs", "ArgList", "TableSep", "ParenExpr", "KeyValue",
  "PositionalValue", "Index", "IdentKey", "Stmt", "StmtItem", "FunctionDefContent", "Expr", "ForContent",
  "TableContent", "TableKey", "Comment", "Whitespace", "__LAST"]

/-- generated.rs:5, `#[derive(Debug)]`: the name of the variant. -/
def debug (k : SyntaxKind) : String := variantNames.getD k.toU16 ""

/-- crates/parser/src/syntax_kind/generated.rs:131-133, `is_trivia`. -/
def isTrivia (k : SyntaxKind) : Bool := k == .comment || k == .whitespace

/-- crates/parser/src/syntax_kind/generated.rs:196-223, `from_keyword`. -/
def fromKeyword (s : List Char) : Option SyntaxKind :=
  if s = ['f', 'u', 'n', 'c', 't', 'i', 'o', 'n'] then some .functionKw
  else if s = ['l', 'o', 'c', 'a', 'l'] then some .localKw
  else if s = ['t', 'r', 'u', 'e'] then some .trueKw
  else if s = ['f', 'a', 'l', 's', 'e'] then some .falseKw
  else if s = ['i', 'f'] then some .ifKw
  else if s = ['t', 'h', 'e', 'n'] then some .thenKw
  else if s = ['e', 'l', 's', 'e'] then some .elseKw
  else if s = ['e', 'l', 's', 'e', 'i', 'f'] then some .elseifKw
  else if s = ['w', 'h', 'i', 'l', 'e'] then some .whileKw
  else if s = ['f', 'o', 'r'] then some .forKw
  else if s = ['i', 'n'] then some .inKw
  else if s = ['b', 'r', 'e', 'a', 'k'] then some .breakKw
  else if s = ['d', 'o'] then some .doKw
  else if s = ['g', 'o', 't', 'o'] then some .gotoKw
  else if s = ['a', 'n', 'd'] then some .andKw
  else if s = ['o', 'r'] then some .orKw
  else if s = ['n', 'o', 't'] then some .notKw
  else if s = ['r', 'e', 't', 'u', 'r', 'n'] then some .returnKw
  else if s = ['e', 'n', 'd'] then some .endKw
  else if s = ['r', 'e', 'p', 'e', 'a', 't'] then some .repeatKw
  else if s = ['u', 'n', 't', 'i', 'l'] then some .untilKw
  else if s = ['n', 'i', 'l'] then some .nilKw
  else none

end SyntaxKind
end Verif
