import Verif.Model.AstNodes

/-
Model of the enums of crates/syntax/src/ast/generated/nodes.rs: their variants, `cast` and `syntax`.  A typed node is
the syntax node it wraps.  Transcribed by tools/gen_cast.py.
-/
namespace Verif.Ast

/-- `AstNode::cast` of the struct types, nodes.rs:706-1395, all of the form `if can_cast { Some } else { None }`. -/
def castPlain (can : SyntaxKind → Bool) (r : Red) : Option Red := if can r.kind then some r else none

/-- nodes.rs:650-665, `enum Stmt`. -/
inductive Stmt where
  | block (syntax_ : Red)
  | assignStmt (syntax_ : Red)
  | localAssignStmt (syntax_ : Red)
  | localFunctionDefStmt (syntax_ : Red)
  | functionDefStmt (syntax_ : Red)
  | forStmt (syntax_ : Red)
  | ifStmt (syntax_ : Red)
  | returnStmt (syntax_ : Red)
  | whileStmt (syntax_ : Red)
  | exprStmt (syntax_ : Red)
  | breakStmt (syntax_ : Red)
  | repeatUntilStmt (syntax_ : Red)
  | labelStmt (syntax_ : Red)
  | gotoStmt (syntax_ : Red)

/-- nodes.rs:667-671, `enum StmtItem`. -/
inductive StmtItem where
  | localAssignStmt (syntax_ : Red)
  | localFunctionDefStmt (syntax_ : Red)
  | functionDefStmt (syntax_ : Red)

/-- nodes.rs:673-677, `enum FunctionDefContent`. -/
inductive FunctionDefContent where
  | functionMethod (syntax_ : Red)
  | functionStatic (syntax_ : Red)
  | name (syntax_ : Red)

/-- nodes.rs:679-690, `enum Expr`. -/
inductive Expr where
  | literal (syntax_ : Red)
  | tableExpr (syntax_ : Red)
  | infixExpr (syntax_ : Red)
  | prefixExpr (syntax_ : Red)
  | indexExpr (syntax_ : Red)
  | dotExpr (syntax_ : Red)
  | functionExpr (syntax_ : Red)
  | callExpr (syntax_ : Red)
  | methodCallExpr (syntax_ : Red)
  | nameRef (syntax_ : Red)

/-- nodes.rs:692-695, `enum ForContent`. -/
inductive ForContent where
  | numericFor (syntax_ : Red)
  | genericFor (syntax_ : Red)

/-- nodes.rs:697-700, `enum TableContent`. -/
inductive TableContent where
  | keyValue (syntax_ : Red)
  | positionalValue (syntax_ : Red)

/-- nodes.rs:702-705, `enum TableKey`. -/
inductive TableKey where
  | index (syntax_ : Red)
  | name (syntax_ : Red)

/-- nodes.rs:1486-1507, `Stmt::cast`. -/
def Stmt.cast (r : Red) : Option Stmt :=
  match r.kind with
  | .block => some (.block r)
  | .assignStmt => some (.assignStmt r)
  | .localAssignStmt => some (.localAssignStmt r)
  | .localFunctionDefStmt => some (.localFunctionDefStmt r)
  | .functionDefStmt => some (.functionDefStmt r)
  | .forStmt => some (.forStmt r)
  | .ifStmt => some (.ifStmt r)
  | .returnStmt => some (.returnStmt r)
  | .whileStmt => some (.whileStmt r)
  | .exprStmt => some (.exprStmt r)
  | .breakStmt => some (.breakStmt r)
  | .repeatUntilStmt => some (.repeatUntilStmt r)
  | .labelStmt => some (.labelStmt r)
  | .gotoStmt => some (.gotoStmt r)
  | _ => none

/-- nodes.rs:1508-1525, `Stmt::syntax`. -/
def Stmt.syntax : Stmt → Red
  | .block r => r
  | .assignStmt r => r
  | .localAssignStmt r => r
  | .localFunctionDefStmt r => r
  | .functionDefStmt r => r
  | .forStmt r => r
  | .ifStmt r => r
  | .returnStmt r => r
  | .whileStmt r => r
  | .exprStmt r => r
  | .breakStmt r => r
  | .repeatUntilStmt r => r
  | .labelStmt r => r
  | .gotoStmt r => r

/-- nodes.rs:1551-1561, `StmtItem::cast`. -/
def StmtItem.cast (r : Red) : Option StmtItem :=
  match r.kind with
  | .localAssignStmt => some (.localAssignStmt r)
  | .localFunctionDefStmt => some (.localFunctionDefStmt r)
  | .functionDefStmt => some (.functionDefStmt r)
  | _ => none

/-- nodes.rs:1562-1568, `StmtItem::syntax`. -/
def StmtItem.syntax : StmtItem → Red
  | .localAssignStmt r => r
  | .localFunctionDefStmt r => r
  | .functionDefStmt r => r

/-- nodes.rs:1592-1604, `FunctionDefContent::cast`. -/
def FunctionDefContent.cast (r : Red) : Option FunctionDefContent :=
  match r.kind with
  | .functionMethod => some (.functionMethod r)
  | .functionStatic => some (.functionStatic r)
  | .name => some (.name r)
  | _ => none

/-- nodes.rs:1605-1611, `FunctionDefContent::syntax`. -/
def FunctionDefContent.syntax : FunctionDefContent → Red
  | .functionMethod r => r
  | .functionStatic r => r
  | .name r => r

/-- nodes.rs:1679-1694, `Expr::cast`. -/
def Expr.cast (r : Red) : Option Expr :=
  match r.kind with
  | .literal => some (.literal r)
  | .tableExpr => some (.tableExpr r)
  | .infixExpr => some (.infixExpr r)
  | .prefixExpr => some (.prefixExpr r)
  | .indexExpr => some (.indexExpr r)
  | .dotExpr => some (.dotExpr r)
  | .functionExpr => some (.functionExpr r)
  | .callExpr => some (.callExpr r)
  | .methodCallExpr => some (.methodCallExpr r)
  | .nameRef => some (.nameRef r)
  | _ => none

/-- nodes.rs:1695-1708, `Expr::syntax`. -/
def Expr.syntax : Expr → Red
  | .literal r => r
  | .tableExpr r => r
  | .infixExpr r => r
  | .prefixExpr r => r
  | .indexExpr r => r
  | .dotExpr r => r
  | .functionExpr r => r
  | .callExpr r => r
  | .methodCallExpr r => r
  | .nameRef r => r

/-- nodes.rs:1727-1734, `ForContent::cast`. -/
def ForContent.cast (r : Red) : Option ForContent :=
  match r.kind with
  | .numericFor => some (.numericFor r)
  | .genericFor => some (.genericFor r)
  | _ => none

/-- nodes.rs:1735-1740, `ForContent::syntax`. -/
def ForContent.syntax : ForContent → Red
  | .numericFor r => r
  | .genericFor r => r

/-- nodes.rs:1759-1768, `TableContent::cast`. -/
def TableContent.cast (r : Red) : Option TableContent :=
  match r.kind with
  | .keyValue => some (.keyValue r)
  | .positionalValue => some (.positionalValue r)
  | _ => none

/-- nodes.rs:1769-1774, `TableContent::syntax`. -/
def TableContent.syntax : TableContent → Red
  | .keyValue r => r
  | .positionalValue r => r

/-- nodes.rs:1793-1800, `TableKey::cast`. -/
def TableKey.cast (r : Red) : Option TableKey :=
  match r.kind with
  | .index => some (.index r)
  | .name => some (.name r)
  | _ => none

/-- nodes.rs:1801-1806, `TableKey::syntax`. -/
def TableKey.syntax : TableKey → Red
  | .index r => r
  | .name r => r

end Verif.Ast
