import Verif.Model.AstNodes
import Verif.Model.AstCast

/-
Model of the hand-written accessors: crates/syntax/src/ast/{expr_ext,node_ext,stmt_ext}.rs.
-/
namespace Verif.Ast

/-- The child tokens of a node (`children_with_tokens().filter_map(|it| it.into_token())`). -/
def tokens (r : Red) : List Red := r.elems.filter fun e => !e.green.isNode

namespace InfixExpr

/-- expr_ext.rs:8-17, `InfixExpr::op_details`: the first token, other than `not`, that is an operator. -/
def opDetails (r : Red) : Option (Red × LuaOp) :=
  (tokens r).findSome? fun c => if c.kind == .notKw then none else (LuaOp.ofKind c.kind).map fun op => (c, op)

/-- expr_ext.rs:19-21, `InfixExpr::op_kind`. -/
def opKind (r : Red) : Option LuaOp := (opDetails r).map (·.2)

/-- expr_ext.rs:23-25, `InfixExpr::op_token`. -/
def opToken (r : Red) : Option Red := (opDetails r).map (·.1)

/-- expr_ext.rs:35-40, `InfixExpr::sub_exprs`: the first two child expressions. -/
def subExprs (r : Red) : Option Red × Option Red :=
  let es := children Can.expr r
  (es[0]?, es[1]?)

/-- expr_ext.rs:27-29, `InfixExpr::lhs`. -/
def lhs (r : Red) : Option Red := (subExprs r).1

/-- expr_ext.rs:31-33, `InfixExpr::rhs`. -/
def rhs (r : Red) : Option Red := (subExprs r).2

end InfixExpr

/-- expr_ext.rs:44-50, `enum LiteralKind`. -/
inductive LiteralKind where
  | str (t : Red)
  | number (t : Red)
  | bool (b : Bool)
  | nil
  | vararg

namespace Literal

/-- expr_ext.rs:53-59, `Literal::token`: the first element that is not trivia, which has to be a token; `none` is a
panic. -/
def firstToken (r : Red) : Option Red :=
  match r.elems.find? fun e => !e.kind.isTrivia with
  | some e => if e.green.isNode then none else some e
  | none => none

/-- expr_ext.rs:61-80, `Literal::kind`; `none` is a panic. -/
def kind (r : Red) : Option LiteralKind :=
  match firstToken r with
  | none => none
  | some t =>
    if t.kind == .number then some (.number t)
    else if t.kind == .str then some (.str t)
    else match t.kind with
      | .trueKw => some (.bool true)
      | .falseKw => some (.bool false)
      | .nilKw => some .nil
      | .tripleDot => some .vararg
      | _ => none

end Literal

/-- node_ext.rs:17-22, `text_of_first_token`: the text of the first child, which has to be a token; `none` is a panic.
-/
def textOfFirstToken (r : Red) : Option Text :=
  match r.green.children with
  | .token _ t :: _ => some t
  | _ => none

/-- node_ext.rs:6-8, `Name::text`. -/
def Name.text (r : Red) : Option Text := textOfFirstToken r

/-- node_ext.rs:12-14, `NameRef::text`. -/
def NameRef.text (r : Red) : Option Text := textOfFirstToken r

/-- stmt_ext.rs:6-15, `Stmt::is_block_like`. -/
def Stmt.isBlockLike : Stmt → Bool
  | .ifStmt _ | .forStmt _ | .whileStmt _ | .functionDefStmt _ | .repeatUntilStmt _ => true
  | _ => false

namespace AssignStmt

/-- stmt_ext.rs:27-32, `AssignStmt::sub_multival_exprs`. -/
def subMultivalExprs (r : Red) : Option Red × Option Red :=
  let es := children Can.multivalExpr r
  (es[0]?, es[1]?)

/-- stmt_ext.rs:19-21, `AssignStmt::lhs`. -/
def lhs (r : Red) : Option Red := (subMultivalExprs r).1

/-- stmt_ext.rs:23-25, `AssignStmt::rhs`. -/
def rhs (r : Red) : Option Red := (subMultivalExprs r).2

end AssignStmt

/-- stmt_ext.rs:36-38, `SourceFile::stmt_items`. -/
def SourceFile.stmtItems (r : Red) : List Red := children Can.stmtItem r

/-! ast/generated/tokens.rs: the typed tokens -/
namespace CanToken

/-- tokens.rs:16-18, `Error::can_cast`. -/
def error (k : SyntaxKind) : Bool := k == .error
/-- tokens.rs:41-43, `Ident::can_cast`. -/
def ident (k : SyntaxKind) : Bool := k == .ident
/-- tokens.rs:66-68, `Shebang::can_cast`. -/
def shebang (k : SyntaxKind) : Bool := k == .shebang
/-- tokens.rs:91-93, `Number::can_cast`. -/
def number (k : SyntaxKind) : Bool := k == .number
/-- tokens.rs:116-118, `Str::can_cast`. -/
def str (k : SyntaxKind) : Bool := k == .str
/-- tokens.rs:141-143, `True::can_cast`. -/
def true (k : SyntaxKind) : Bool := k == .trueLit
/-- tokens.rs:166-168, `False::can_cast`. -/
def false (k : SyntaxKind) : Bool := k == .falseLit
/-- tokens.rs:191-193, `Comment::can_cast`. -/
def comment (k : SyntaxKind) : Bool := k == .comment
/-- tokens.rs:216-218, `Whitespace::can_cast`. -/
def whitespace (k : SyntaxKind) : Bool := k == .whitespace

end CanToken

/-- tokens.rs, `AstToken::cast`, and ast.rs:38-61: a typed token is the token it wraps. -/
def castToken (can : SyntaxKind → Bool) (t : Red) : Option Red := if can t.kind then some t else none

end Verif.Ast
