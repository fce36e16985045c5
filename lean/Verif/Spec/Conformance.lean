import Verif.Props.Codegen

/-
When the parts of a node are what its rule in `lua.ungram` says.
-/
namespace Verif.Spec
open Codegen

/-- The parts of the node are a sentence of the rule: the places of the rule are filled by them, one by one. -/
def Conforms (rule : Rule) (r : Red) : Prop :=
  ∃ items, Sentence none .one rule items ∧ Fill luaKinds luaSrc items (parts r)

/-- The nodes of a kind, in files without errors, that are written the way the grammar file has it. -/
def AsWritten : SyntaxKind → List Sym → Prop
  -- `FunctionDefContent`, `ForContent`, `TableContent` and `TableKey` are choices in the grammar file, but nodes in the tree
  | .functionDefStmt, _ => False
  | .forStmt, _ => False
  | .tableExpr, _ => False
  -- nor does the grammar file have the `=`
  | .keyValue, _ => False
  -- a list of expressions in the grammar file, a single expression in the tree
  | .genericFor, _ => False
  -- the last `.` belongs to the path before it
  | .functionStatic, _ => False
  | .indexPath, ss => ss.getLast? ≠ some (.tok .dot)
  -- the grammar file has neither semicolons nor `do` statements in blocks
  | .block, ss => .tok .semicolon ∉ ss ∧ .node .doStmt ∉ ss
  -- nor `nil` and `...` among the literals
  | .literal, ss => ss ≠ [.tok .nilKw] ∧ ss ≠ [.tok .tripleDot]
  -- before `...` the list of names is empty or ends in a comma
  | .multiName, ss => ss ≠ [] ∧ ss.getLast? ≠ some (.tok .comma)
  | .paramList, ss => .tok .tripleDot ∉ ss
  -- an expression in the grammar file, a list of them in the tree
  | .returnStmt, ss => ss = [.tok .returnKw]
  -- expressions in the grammar file, a node for the list of them in the tree
  | .argList, ss => ss = [.tok .lParen, .tok .rParen]
  -- `%` and `#` are not among the operators of the grammar file
  | .infixExpr, ss => .node .parenExpr ∉ ss ∧ .tok .modulo ∉ ss
  | .prefixExpr, ss => .node .parenExpr ∉ ss ∧ .tok .hash ∉ ss
  -- an expression in parentheses is not an expression in the grammar file
  | _, ss => .node .parenExpr ∉ ss

end Verif.Spec
