import Verif.Spec.Productions

/-
What a node of a syntax tree is made of, comments and white space left out, in any file: an error-tolerant version of
the productions.  It says for every kind of node which parts are always there, which can be missing after a syntax
error, and where an `Error` node can stand.
-/
namespace Verif.Spec
open Lua

/-- Patterns of symbols. -/
inductive Pat where
  | eps
  | one (p : Sym → Prop)
  | seq (a b : Pat)
  | alt (a b : Pat)
  | star (a : Pat)

namespace Pat

/-- The sequences of symbols a pattern describes. -/
inductive Matches : Pat → List Sym → Prop where
  | eps : Matches eps []
  | one {p s} : p s → Matches (one p) [s]
  | seq {a b x y} : Matches a x → Matches b y → Matches (seq a b) (x ++ y)
  | left {a b x} : Matches a x → Matches (alt a b) x
  | right {a b x} : Matches b x → Matches (alt a b) x
  | nil {a} : Matches (star a) []
  | more {a x y} : Matches a x → Matches (star a) y → Matches (star a) (x ++ y)

end Pat

/-- One after the other. -/
infixl:65 " ⬝ " => Pat.seq

/-- A token. -/
def tk (k : SyntaxKind) : Pat := .one (· = .tok k)
/-- A token of one of these kinds. -/
def tks (ks : List SyntaxKind) : Pat := .one fun s => ∃ k ∈ ks, s = .tok k
/-- A node. -/
def nd (k : SyntaxKind) : Pat := .one (· = .node k)
/-- A node of one of these kinds. -/
def nds (ks : List SyntaxKind) : Pat := .one fun s => ∃ k ∈ ks, s = .node k
/-- Something or nothing. -/
def opt (a : Pat) : Pat := .alt a .eps
/-- An expression. -/
def anExpr : Pat := .one IsExpr
/-- Where an expression belongs: an expression, an `Error` node, or nothing. -/
def expr? : Pat := opt (.alt anExpr (nd .error))
/-- Where a name belongs: a name, an `Error` node, or nothing. -/
def name? : Pat := opt (.alt (nd .name) (nd .error))
/-- Where the use of a name belongs: a name, an `Error` node, or nothing. -/
def nameRef? : Pat := opt (.alt (nd .nameRef) (nd .error))
/-- Things with a token between them. -/
def sepBy (sep : SyntaxKind) (a : Pat) : Pat := a ⬝ .star (tk sep ⬝ a)
/-- Nothing at all: not even the empty sequence. -/
def never : Pat := .one fun _ => False

/-- What a node of each kind is made of, in a file with or without errors. -/
def shape : SyntaxKind → Pat
  | .sourceFile => nd .block
  | .block => .star (.alt (nds stmtKinds) (nd .error) ⬝ opt (tk .semicolon))
  | .error => .star (.one fun s => ∃ k, s = .tok k)
  | .name => tk .ident
  | .nameRef => opt (tk .ident)
  -- expressions
  | .literal => tks literalKinds
  | .functionExpr => tk .functionKw ⬝ nd .paramList ⬝ nd .block ⬝ opt (tk .endKw)
  | .tableExpr => tk .lBrace ⬝ .star (nd .tableContent ⬝ opt (nd .error) ⬝ opt (nd .tableSep)) ⬝ opt (tk .rBrace)
  | .parenExpr => tk .lParen ⬝ expr? ⬝ opt (tk .rParen)
  | .callExpr => anExpr ⬝ nd .callArgs
  | .methodCallExpr => anExpr ⬝ tk .colon ⬝ nd .nameRef ⬝ opt (nd .callArgs)
  | .indexExpr => anExpr ⬝ nd .index
  | .dotExpr => anExpr ⬝ tk .dot ⬝ opt (tk .ident)
  | .prefixExpr => tks unaryOps ⬝ expr?
  | .infixExpr => anExpr ⬝ .one (fun s => ∃ op, isBinary op ∧ s = .tok op) ⬝ expr?
  | .multivalExpr => sepBy .comma expr?
  | .tableSep => tks [.comma, .semicolon]
  | .tableContent => opt (nds [.keyValue, .positionalValue])
  | .keyValue => nd .tableKey ⬝ opt (tk .eq) ⬝ expr?
  | .tableKey => nds [.name, .index]
  | .positionalValue => anExpr
  | .index => tk .lBracket ⬝ expr? ⬝ opt (tk .rBracket)
  | .callArgs => .alt (nds [.argList, .tableExpr]) (tk .str)
  | .argList => tk .lParen ⬝ opt (nd .multivalExpr) ⬝ opt (tk .rParen)
  -- names and parameters
  | .multiName => sepBy .comma name?
  | .paramList => opt (tk .lParen) ⬝ opt (nd .multiName) ⬝ opt (tk .tripleDot ⬝ opt (nd .error)) ⬝ opt (tk .rParen)
  -- statements
  | .ifStmt => tk .ifKw ⬝ expr? ⬝ opt (tk .thenKw) ⬝ nd .block ⬝ opt (nds [.elseBranch, .elseIfBranch]) ⬝ opt (tk .endKw)
  | .elseIfBranch => tk .elseifKw ⬝ expr? ⬝ opt (tk .thenKw) ⬝ nd .block ⬝ opt (nds [.elseBranch, .elseIfBranch])
  | .elseBranch => tk .elseKw ⬝ nd .block
  | .labelDelim => opt (tk .doubleColon)
  | .labelStmt => nd .labelDelim ⬝ name? ⬝ nd .labelDelim
  | .gotoStmt => tk .gotoKw ⬝ nd .nameRef
  | .breakStmt => tk .breakKw
  | .doStmt => tk .doKw ⬝ nd .block ⬝ opt (tk .endKw)
  | .whileStmt => tk .whileKw ⬝ expr? ⬝ opt (tk .doKw) ⬝ nd .block ⬝ opt (tk .endKw)
  | .repeatUntilStmt => tk .repeatKw ⬝ nd .block ⬝ opt (tk .untilKw) ⬝ expr?
  | .localFunctionDefStmt =>
    tk .localKw ⬝ tk .functionKw ⬝ name? ⬝ nd .paramList ⬝ nd .block ⬝ opt (tk .endKw)
  | .localAssignStmt => tk .localKw ⬝ nd .multiName ⬝ opt (tk .eq ⬝ nd .multivalExpr)
  | .exprStmt => nd .multivalExpr
  | .assignStmt => nd .multivalExpr ⬝ tk .eq ⬝ nd .multivalExpr
  | .returnStmt => tk .returnKw ⬝ opt (nd .multivalExpr)
  | .functionDefStmt =>
    tk .functionKw ⬝ nd .functionDefContent ⬝ nd .paramList ⬝ nd .block ⬝ opt (tk .endKw)
  | .functionDefContent => nds [.name, .functionMethod, .functionStatic]
  | .functionMethod => nd .indexPath ⬝ tk .colon ⬝ name?
  | .functionStatic => nd .indexPath ⬝ name?
  | .indexPath => sepBy .dot nameRef?
  | .forStmt => tk .forKw ⬝ nd .forContent ⬝ opt (tk .doKw) ⬝ nd .block ⬝ opt (tk .endKw)
  | .forContent => opt (nds [.numericFor, .genericFor])
  | .numericFor => nd .name ⬝ tk .eq ⬝ nd .multivalExpr
  | .genericFor => nd .multiName ⬝ opt (tk .inKw) ⬝ expr?
  | _ => never

end Verif.Spec
