import Verif.Spec.Walk
import Verif.Spec.LuaGrammar

/-
What a node of a syntax tree is made of, comments and white space left out: the productions of the grammar
(xtask/assets/lua.ungram, in the tree shapes the parser builds), one level at a time.
-/
namespace Verif.Spec
open Lua

/-- A symbol of a production: a token or a node of some kind. -/
inductive Sym where
  | tok (k : SyntaxKind)
  | node (k : SyntaxKind)
  deriving DecidableEq, Repr

/-- The parts of a node: its child nodes and its tokens, without comments and white space. -/
def parts (r : Red) : List Red := r.elems.filter fun e => e.green.isNode || !e.kind.isTrivia

/-- The symbol of a part. -/
def sym (r : Red) : Sym := if r.green.isNode then .node r.kind else .tok r.kind

/-- Kinds of expressions. -/
def exprKinds : List SyntaxKind :=
  [.literal, .tableExpr, .infixExpr, .prefixExpr, .indexExpr, .dotExpr, .functionExpr, .callExpr,
    .methodCallExpr, .nameRef, .parenExpr]

/-- Kinds of statements. -/
def stmtKinds : List SyntaxKind :=
  [.assignStmt, .localAssignStmt, .localFunctionDefStmt, .functionDefStmt, .forStmt, .ifStmt, .returnStmt, .whileStmt,
    .exprStmt, .breakStmt, .repeatUntilStmt, .labelStmt, .gotoStmt, .doStmt]

/-- Some expression. -/
def IsExpr (s : Sym) : Prop := ∃ k, k ∈ exprKinds ∧ s = .node k

/-- Items separated by a token. -/
inductive Separated (sep : SyntaxKind) (item : Sym → Prop) : List Sym → Prop where
  | one (s) : item s → Separated sep item [s]
  | cons (s ss) : item s → Separated sep item ss → Separated sep item (s :: .tok sep :: ss)

/-- Statements, each followed by at most one semicolon. -/
inductive Stmts : List Sym → Prop where
  | nil : Stmts []
  | plain (k ss) : k ∈ stmtKinds → Stmts ss → Stmts (.node k :: ss)
  | semi (k ss) : k ∈ stmtKinds → Stmts ss → Stmts (.node k :: .tok .semicolon :: ss)

/-- Table entries, separated by `,` or `;`, with an optional separator at the end. -/
inductive Entries : List Sym → Prop where
  | nil : Entries []
  | last : Entries [.node .tableContent]
  | cons (ss) : Entries ss → Entries (.node .tableContent :: .node .tableSep :: ss)

/-- The `else` part of an `if` statement or of an `elseif` branch. -/
inductive ElseOpt : List Sym → Prop where
  | none : ElseOpt []
  | elseBranch : ElseOpt [.node .elseBranch]
  | elseIfBranch : ElseOpt [.node .elseIfBranch]

def names : List Sym → Prop := Separated .comma (· = .node .name)
def exprs : List Sym → Prop := Separated .comma IsExpr
def path : List Sym → Prop := Separated .dot (· = .node .nameRef)

/-- What a node of each kind is made of. -/
inductive Production : SyntaxKind → List Sym → Prop where
  | sourceFile : Production .sourceFile [.node .block]
  | block (ss) : Stmts ss → Production .block ss
  | name : Production .name [.tok .ident]
  | nameRef : Production .nameRef [.tok .ident]
  -- expressions
  | literal (k) : k ∈ literalKinds → Production .literal [.tok k]
  | functionExpr : Production .functionExpr [.tok .functionKw, .node .paramList, .node .block, .tok .endKw]
  | tableExpr (ss) : Entries ss → Production .tableExpr (.tok .lBrace :: (ss ++ [.tok .rBrace]))
  | parenExpr (e) : IsExpr e → Production .parenExpr [.tok .lParen, e, .tok .rParen]
  | callExpr (f) : IsExpr f → Production .callExpr [f, .node .callArgs]
  | methodCallExpr (f) : IsExpr f →
      Production .methodCallExpr [f, .tok .colon, .node .nameRef, .node .callArgs]
  | indexExpr (f) : IsExpr f → Production .indexExpr [f, .node .index]
  | dotExpr (f) : IsExpr f → Production .dotExpr [f, .tok .dot, .tok .ident]
  | prefixExpr (op e) : op ∈ unaryOps → IsExpr e → Production .prefixExpr [.tok op, e]
  | infixExpr (l op r) : IsExpr l → isBinary op → IsExpr r → Production .infixExpr [l, .tok op, r]
  | multivalExpr (ss) : exprs ss → Production .multivalExpr ss
  | tableSep (k) : k ∈ [SyntaxKind.comma, .semicolon] → Production .tableSep [.tok k]
  | tableContent (k) : k ∈ [SyntaxKind.keyValue, .positionalValue] → Production .tableContent [.node k]
  | keyValue (e) : IsExpr e → Production .keyValue [.node .tableKey, .tok .eq, e]
  | tableKey (k) : k ∈ [SyntaxKind.name, .index] → Production .tableKey [.node k]
  | positionalValue (e) : IsExpr e → Production .positionalValue [e]
  | index (e) : IsExpr e → Production .index [.tok .lBracket, e, .tok .rBracket]
  | callArgs (s) : s ∈ [Sym.node .argList, .node .tableExpr, .tok .str] → Production .callArgs [s]
  | argListEmpty : Production .argList [.tok .lParen, .tok .rParen]
  | argList : Production .argList [.tok .lParen, .node .multivalExpr, .tok .rParen]
  -- names and parameters
  | multiName (ss) : names ss → Production .multiName ss
  | multiNameEmpty : Production .multiName []
  | multiNameComma (ss) : names ss → Production .multiName (ss ++ [.tok .comma])
  | paramListEmpty : Production .paramList [.tok .lParen, .tok .rParen]
  | paramList : Production .paramList [.tok .lParen, .node .multiName, .tok .rParen]
  | paramListVararg : Production .paramList [.tok .lParen, .node .multiName, .tok .tripleDot, .tok .rParen]
  -- statements
  | ifStmt (e ss) : IsExpr e → ElseOpt ss →
      Production .ifStmt (.tok .ifKw :: e :: .tok .thenKw :: .node .block :: (ss ++ [.tok .endKw]))
  | elseIfBranch (e ss) : IsExpr e → ElseOpt ss →
      Production .elseIfBranch (.tok .elseifKw :: e :: .tok .thenKw :: .node .block :: ss)
  | elseBranch : Production .elseBranch [.tok .elseKw, .node .block]
  | labelDelim : Production .labelDelim [.tok .doubleColon]
  | labelStmt : Production .labelStmt [.node .labelDelim, .node .name, .node .labelDelim]
  | gotoStmt : Production .gotoStmt [.tok .gotoKw, .node .nameRef]
  | breakStmt : Production .breakStmt [.tok .breakKw]
  | doStmt : Production .doStmt [.tok .doKw, .node .block, .tok .endKw]
  | whileStmt (e) : IsExpr e →
      Production .whileStmt [.tok .whileKw, e, .tok .doKw, .node .block, .tok .endKw]
  | repeatUntilStmt (e) : IsExpr e →
      Production .repeatUntilStmt [.tok .repeatKw, .node .block, .tok .untilKw, e]
  | localFunctionDefStmt : Production .localFunctionDefStmt
      [.tok .localKw, .tok .functionKw, .node .name, .node .paramList, .node .block, .tok .endKw]
  | localNames : Production .localAssignStmt [.tok .localKw, .node .multiName]
  | localAssign : Production .localAssignStmt [.tok .localKw, .node .multiName, .tok .eq, .node .multivalExpr]
  | exprStmt : Production .exprStmt [.node .multivalExpr]
  | assignStmt : Production .assignStmt [.node .multivalExpr, .tok .eq, .node .multivalExpr]
  | returnNone : Production .returnStmt [.tok .returnKw]
  | returnStmt : Production .returnStmt [.tok .returnKw, .node .multivalExpr]
  | functionDefStmt : Production .functionDefStmt
      [.tok .functionKw, .node .functionDefContent, .node .paramList, .node .block, .tok .endKw]
  | functionDefContent (k) : k ∈ [SyntaxKind.name, .functionMethod, .functionStatic] →
      Production .functionDefContent [.node k]
  | functionMethod : Production .functionMethod [.node .indexPath, .tok .colon, .node .name]
  | functionStatic : Production .functionStatic [.node .indexPath, .node .name]
  | indexPath (ss) : path ss → Production .indexPath ss
  | indexPathDot (ss) : path ss → Production .indexPath (ss ++ [.tok .dot])
  | forStmt : Production .forStmt [.tok .forKw, .node .forContent, .tok .doKw, .node .block, .tok .endKw]
  | forContent (k) : k ∈ [SyntaxKind.numericFor, .genericFor] → Production .forContent [.node k]
  | numericFor : Production .numericFor [.node .name, .tok .eq, .node .multivalExpr]
  | genericFor (e) : IsExpr e → Production .genericFor [.node .multiName, .tok .inKw, e]

/-- `r` is a node of kind `k` of the tree of a file whose text has no lexical and no syntax errors. -/
def NodeOf (text : Text) (k : SyntaxKind) (r : Red) : Prop :=
  ∃ tree, parseText text = .ok (tree, []) ∧ Below (Red.root tree) r ∧ r.kind = k

end Verif.Spec
