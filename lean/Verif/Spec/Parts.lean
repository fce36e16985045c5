import Verif.Spec.Tolerant
import Verif.Model.AstNodes

/-
Which accessors of the typed syntax tree find what, on any file.
-/
namespace Verif.Spec
open Lua

/-- The part `p` of the node `r` is the only one that is an `s`. -/
def OnlyPart (r p : Red) (s : Sym) : Prop :=
  ∃ a b, parts r = a ++ p :: b ∧ sym p = s ∧ ∀ q ∈ a ++ b, sym q ≠ s

/-- The part `p` of the node `r` is the only expression. -/
def OnlyExpr (r p : Red) : Prop :=
  ∃ a b, parts r = a ++ p :: b ∧ IsExpr (sym p) ∧ ∀ q ∈ a ++ b, ¬ IsExpr (sym q)

/-- An accessor of the nodes of a kind, and what it is meant to find. -/
structure Accessor where
  kind : SyntaxKind
  finds : Sym
  get : Red → Option Red

/-- Accessors that find something on every node, even in a file full of errors. -/
def requiredParts : List Accessor :=
  [ ⟨.sourceFile, .node .block, Ast.SourceFile.body⟩,
    ⟨.name, .tok .ident, Ast.Name.identToken⟩,
    ⟨.functionExpr, .tok .functionKw, Ast.FunctionExpr.functionToken⟩,
    ⟨.functionExpr, .node .paramList, Ast.FunctionExpr.params⟩,
    ⟨.functionExpr, .node .block, Ast.FunctionExpr.body⟩,
    ⟨.tableExpr, .tok .lBrace, Ast.TableExpr.lCurlyToken⟩,
    ⟨.parenExpr, .tok .lParen, Ast.ParenExpr.lParenToken⟩,
    ⟨.callExpr, .node .callArgs, Ast.CallExpr.callArgs⟩,
    ⟨.methodCallExpr, .tok .colon, Ast.MethodCallExpr.colonToken⟩,
    ⟨.indexExpr, .node .index, Ast.IndexExpr.index⟩,
    ⟨.dotExpr, .tok .dot, Ast.DotExpr.dotToken⟩,
    ⟨.index, .tok .lBracket, Ast.Index.lBrackToken⟩,
    ⟨.argList, .tok .lParen, Ast.ArgList.lParenToken⟩,
    ⟨.ifStmt, .tok .ifKw, Ast.IfStmt.ifToken⟩,
    ⟨.ifStmt, .node .block, Ast.IfStmt.block⟩,
    ⟨.elseIfBranch, .tok .elseifKw, Ast.ElseIfBranch.elseifToken⟩,
    ⟨.elseIfBranch, .node .block, Ast.ElseIfBranch.block⟩,
    ⟨.elseBranch, .tok .elseKw, Ast.ElseBranch.elseToken⟩,
    ⟨.elseBranch, .node .block, Ast.ElseBranch.block⟩,
    ⟨.gotoStmt, .tok .gotoKw, Ast.GotoStmt.gotoToken⟩,
    ⟨.gotoStmt, .node .nameRef, Ast.GotoStmt.nameRef⟩,
    ⟨.breakStmt, .tok .breakKw, Ast.BreakStmt.breakToken⟩,
    ⟨.doStmt, .tok .doKw, Ast.DoStmt.doToken⟩,
    ⟨.doStmt, .node .block, Ast.DoStmt.body⟩,
    ⟨.whileStmt, .tok .whileKw, Ast.WhileStmt.whileToken⟩,
    ⟨.whileStmt, .node .block, Ast.WhileStmt.body⟩,
    ⟨.repeatUntilStmt, .tok .repeatKw, Ast.RepeatUntilStmt.repeatToken⟩,
    ⟨.repeatUntilStmt, .node .block, Ast.RepeatUntilStmt.block⟩,
    ⟨.localFunctionDefStmt, .tok .localKw, Ast.LocalFunctionDefStmt.localToken⟩,
    ⟨.localFunctionDefStmt, .tok .functionKw, Ast.LocalFunctionDefStmt.functionToken⟩,
    ⟨.localFunctionDefStmt, .node .paramList, Ast.LocalFunctionDefStmt.paramList⟩,
    ⟨.localFunctionDefStmt, .node .block, Ast.LocalFunctionDefStmt.body⟩,
    ⟨.localAssignStmt, .tok .localKw, Ast.LocalAssignStmt.localToken⟩,
    ⟨.localAssignStmt, .node .multiName, Ast.LocalAssignStmt.multiName⟩,
    ⟨.exprStmt, .node .multivalExpr, Ast.ExprStmt.multivalExpr⟩,
    ⟨.assignStmt, .tok .eq, Ast.AssignStmt.eqToken⟩,
    ⟨.returnStmt, .tok .returnKw, Ast.ReturnStmt.returnToken⟩,
    ⟨.functionDefStmt, .tok .functionKw, Ast.FunctionDefStmt.functionToken⟩,
    ⟨.functionDefStmt, .node .paramList, Ast.FunctionDefStmt.paramList⟩,
    ⟨.functionDefStmt, .node .block, Ast.FunctionDefStmt.body⟩,
    ⟨.functionMethod, .node .indexPath, Ast.FunctionMethod.indexPath⟩,
    ⟨.functionMethod, .tok .colon, Ast.FunctionMethod.colonToken⟩,
    ⟨.functionStatic, .node .indexPath, Ast.FunctionStatic.indexPath⟩,
    ⟨.forStmt, .tok .forKw, Ast.ForStmt.forToken⟩,
    ⟨.forStmt, .node .block, Ast.ForStmt.block⟩,
    ⟨.numericFor, .node .name, Ast.NumericFor.name⟩,
    ⟨.numericFor, .tok .eq, Ast.NumericFor.eqToken⟩,
    ⟨.numericFor, .node .multivalExpr, Ast.NumericFor.expr⟩,
    ⟨.genericFor, .node .multiName, Ast.GenericFor.multiName⟩ ]

/-- Accessors of parts that a syntax error can take away, or that the grammar does not ask for. -/
def optionalParts : List Accessor :=
  [ ⟨.nameRef, .tok .ident, Ast.NameRef.identToken⟩,
    ⟨.functionExpr, .tok .endKw, Ast.FunctionExpr.endToken⟩,
    ⟨.tableExpr, .tok .rBrace, Ast.TableExpr.rCurlyToken⟩,
    ⟨.parenExpr, .tok .rParen, Ast.ParenExpr.rParenToken⟩,
    ⟨.methodCallExpr, .node .callArgs, Ast.MethodCallExpr.callArgs⟩,
    ⟨.dotExpr, .tok .ident, Ast.DotExpr.identToken⟩,
    ⟨.index, .tok .rBracket, Ast.Index.rBrackToken⟩,
    ⟨.callArgs, .node .argList, Ast.CallArgs.argList⟩,
    ⟨.callArgs, .node .tableExpr, Ast.CallArgs.tableExpr⟩,
    ⟨.callArgs, .tok .str, Ast.CallArgs.strToken⟩,
    ⟨.argList, .tok .rParen, Ast.ArgList.rParenToken⟩,
    ⟨.tableSep, .tok .semicolon, Ast.TableSep.semicolonToken⟩,
    ⟨.literal, .tok .number, Ast.Literal.numberToken⟩,
    ⟨.literal, .tok .str, Ast.Literal.strToken⟩,
    ⟨.paramList, .tok .lParen, Ast.ParamList.lParenToken⟩,
    ⟨.paramList, .node .multiName, Ast.ParamList.multiName⟩,
    ⟨.paramList, .tok .tripleDot, Ast.ParamList.tripleDotToken⟩,
    ⟨.paramList, .tok .rParen, Ast.ParamList.rParenToken⟩,
    ⟨.ifStmt, .tok .thenKw, Ast.IfStmt.thenToken⟩,
    ⟨.ifStmt, .node .elseBranch, Ast.IfStmt.elseBranch⟩,
    ⟨.ifStmt, .node .elseIfBranch, Ast.IfStmt.elseIfBranch⟩,
    ⟨.ifStmt, .tok .endKw, Ast.IfStmt.endToken⟩,
    ⟨.elseIfBranch, .tok .thenKw, Ast.ElseIfBranch.thenToken⟩,
    ⟨.elseIfBranch, .node .elseBranch, Ast.ElseIfBranch.elseBranch⟩,
    ⟨.elseIfBranch, .node .elseIfBranch, Ast.ElseIfBranch.elseIfBranch⟩,
    ⟨.labelDelim, .tok .doubleColon, Ast.LabelDelim.doubleColonToken⟩,
    ⟨.labelStmt, .node .name, Ast.LabelStmt.name⟩,
    ⟨.doStmt, .tok .endKw, Ast.DoStmt.endToken⟩,
    ⟨.whileStmt, .tok .doKw, Ast.WhileStmt.doToken⟩,
    ⟨.whileStmt, .tok .endKw, Ast.WhileStmt.endToken⟩,
    ⟨.repeatUntilStmt, .tok .untilKw, Ast.RepeatUntilStmt.untilToken⟩,
    ⟨.localFunctionDefStmt, .node .name, Ast.LocalFunctionDefStmt.name⟩,
    ⟨.localFunctionDefStmt, .tok .endKw, Ast.LocalFunctionDefStmt.endToken⟩,
    ⟨.localAssignStmt, .tok .eq, Ast.LocalAssignStmt.eqToken⟩,
    ⟨.localAssignStmt, .node .multivalExpr, Ast.LocalAssignStmt.multivalExpr⟩,
    ⟨.functionDefStmt, .tok .endKw, Ast.FunctionDefStmt.endToken⟩,
    ⟨.functionMethod, .node .name, Ast.FunctionMethod.name⟩,
    ⟨.functionStatic, .node .name, Ast.FunctionStatic.name⟩,
    ⟨.forStmt, .tok .doKw, Ast.ForStmt.doToken⟩,
    ⟨.forStmt, .tok .endKw, Ast.ForStmt.endToken⟩,
    ⟨.genericFor, .tok .inKw, Ast.GenericFor.inToken⟩ ]

/-- Accessors of the expression of a node that always has one. -/
def requiredExpr : List (SyntaxKind × (Red → Option Red)) :=
  [ (.callExpr, Ast.CallExpr.fun_), (.indexExpr, Ast.IndexExpr.base), (.dotExpr, Ast.DotExpr.expr),
    (.positionalValue, Ast.PositionalValue.expr) ]

/-- Accessors of the expression of a node that can lack it after a syntax error. -/
def optionalExpr : List (SyntaxKind × (Red → Option Red)) :=
  [ (.parenExpr, Ast.ParenExpr.expr), (.prefixExpr, Ast.PrefixExpr.expr), (.keyValue, Ast.KeyValue.value),
    (.index, Ast.Index.expr), (.ifStmt, Ast.IfStmt.cond), (.elseIfBranch, Ast.ElseIfBranch.cond),
    (.whileStmt, Ast.WhileStmt.cond), (.repeatUntilStmt, Ast.RepeatUntilStmt.expr) ]

end Verif.Spec
