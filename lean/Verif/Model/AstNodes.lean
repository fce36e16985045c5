import Verif.Model.Red
import Verif.Model.BindingPowers

/-
Model of crates/syntax/src/ast.rs (`support`) and of crates/syntax/src/ast/generated/nodes.rs: the typed accessors.
A typed node is the syntax node it wraps.  The accessors are transcribed by tools/gen_ast.py.
-/
namespace Verif.Ast

/-- ast.rs:81-83, `support::child`: the first child node that casts to the type. -/
def child (can : SyntaxKind → Bool) (r : Red) : Option Red := r.children.find? fun c => can c.kind

/-- ast.rs:85-87 and 70-76, `support::children`: the child nodes that cast to the type. -/
def children (can : SyntaxKind → Bool) (r : Red) : List Red := r.children.filter fun c => can c.kind

/-- ast.rs:89-91, `support::token`: the first child token of a kind. -/
def token (k : SyntaxKind) (r : Red) : Option Red := r.elems.find? fun e => !e.green.isNode && e.kind == k

/-! `can_cast` -/
namespace Can

/-- nodes.rs:707-709, `Name::can_cast`. -/
def name (k : SyntaxKind) : Bool := k == .name

/-- nodes.rs:722-724, `NameRef::can_cast`. -/
def nameRef (k : SyntaxKind) : Bool := k == .nameRef

/-- nodes.rs:737-739, `MultiName::can_cast`. -/
def multiName (k : SyntaxKind) : Bool := k == .multiName

/-- nodes.rs:752-754, `SourceFile::can_cast`. -/
def sourceFile (k : SyntaxKind) : Bool := k == .sourceFile

/-- nodes.rs:767-769, `Block::can_cast`. -/
def block (k : SyntaxKind) : Bool := k == .block

/-- nodes.rs:782-784, `AssignStmt::can_cast`. -/
def assignStmt (k : SyntaxKind) : Bool := k == .assignStmt

/-- nodes.rs:797-799, `LocalAssignStmt::can_cast`. -/
def localAssignStmt (k : SyntaxKind) : Bool := k == .localAssignStmt

/-- nodes.rs:812-814, `LocalFunctionDefStmt::can_cast`. -/
def localFunctionDefStmt (k : SyntaxKind) : Bool := k == .localFunctionDefStmt

/-- nodes.rs:827-829, `FunctionDefStmt::can_cast`. -/
def functionDefStmt (k : SyntaxKind) : Bool := k == .functionDefStmt

/-- nodes.rs:842-844, `ForStmt::can_cast`. -/
def forStmt (k : SyntaxKind) : Bool := k == .forStmt

/-- nodes.rs:857-859, `IfStmt::can_cast`. -/
def ifStmt (k : SyntaxKind) : Bool := k == .ifStmt

/-- nodes.rs:872-874, `ReturnStmt::can_cast`. -/
def returnStmt (k : SyntaxKind) : Bool := k == .returnStmt

/-- nodes.rs:887-889, `WhileStmt::can_cast`. -/
def whileStmt (k : SyntaxKind) : Bool := k == .whileStmt

/-- nodes.rs:902-904, `ExprStmt::can_cast`. -/
def exprStmt (k : SyntaxKind) : Bool := k == .exprStmt

/-- nodes.rs:917-919, `BreakStmt::can_cast`. -/
def breakStmt (k : SyntaxKind) : Bool := k == .breakStmt

/-- nodes.rs:932-934, `RepeatUntilStmt::can_cast`. -/
def repeatUntilStmt (k : SyntaxKind) : Bool := k == .repeatUntilStmt

/-- nodes.rs:947-949, `LabelStmt::can_cast`. -/
def labelStmt (k : SyntaxKind) : Bool := k == .labelStmt

/-- nodes.rs:962-964, `GotoStmt::can_cast`. -/
def gotoStmt (k : SyntaxKind) : Bool := k == .gotoStmt

/-- nodes.rs:977-979, `LabelDelim::can_cast`. -/
def labelDelim (k : SyntaxKind) : Bool := k == .labelDelim

/-- nodes.rs:992-994, `DoStmt::can_cast`. -/
def doStmt (k : SyntaxKind) : Bool := k == .doStmt

/-- nodes.rs:1007-1009, `ParamList::can_cast`. -/
def paramList (k : SyntaxKind) : Bool := k == .paramList

/-- nodes.rs:1022-1024, `FunctionMethod::can_cast`. -/
def functionMethod (k : SyntaxKind) : Bool := k == .functionMethod

/-- nodes.rs:1037-1039, `FunctionStatic::can_cast`. -/
def functionStatic (k : SyntaxKind) : Bool := k == .functionStatic

/-- nodes.rs:1052-1054, `IndexPath::can_cast`. -/
def indexPath (k : SyntaxKind) : Bool := k == .indexPath

/-- nodes.rs:1067-1069, `MultivalExpr::can_cast`. -/
def multivalExpr (k : SyntaxKind) : Bool := k == .multivalExpr

/-- nodes.rs:1082-1084, `ElseBranch::can_cast`. -/
def elseBranch (k : SyntaxKind) : Bool := k == .elseBranch

/-- nodes.rs:1097-1099, `ElseIfBranch::can_cast`. -/
def elseIfBranch (k : SyntaxKind) : Bool := k == .elseIfBranch

/-- nodes.rs:1112-1114, `NumericFor::can_cast`. -/
def numericFor (k : SyntaxKind) : Bool := k == .numericFor

/-- nodes.rs:1127-1129, `GenericFor::can_cast`. -/
def genericFor (k : SyntaxKind) : Bool := k == .genericFor

/-- nodes.rs:1142-1144, `Literal::can_cast`. -/
def literal (k : SyntaxKind) : Bool := k == .literal

/-- nodes.rs:1157-1159, `TableExpr::can_cast`. -/
def tableExpr (k : SyntaxKind) : Bool := k == .tableExpr

/-- nodes.rs:1172-1174, `InfixExpr::can_cast`. -/
def infixExpr (k : SyntaxKind) : Bool := k == .infixExpr

/-- nodes.rs:1187-1189, `PrefixExpr::can_cast`. -/
def prefixExpr (k : SyntaxKind) : Bool := k == .prefixExpr

/-- nodes.rs:1202-1204, `IndexExpr::can_cast`. -/
def indexExpr (k : SyntaxKind) : Bool := k == .indexExpr

/-- nodes.rs:1217-1219, `DotExpr::can_cast`. -/
def dotExpr (k : SyntaxKind) : Bool := k == .dotExpr

/-- nodes.rs:1232-1234, `FunctionExpr::can_cast`. -/
def functionExpr (k : SyntaxKind) : Bool := k == .functionExpr

/-- nodes.rs:1247-1249, `CallExpr::can_cast`. -/
def callExpr (k : SyntaxKind) : Bool := k == .callExpr

/-- nodes.rs:1262-1264, `MethodCallExpr::can_cast`. -/
def methodCallExpr (k : SyntaxKind) : Bool := k == .methodCallExpr

/-- nodes.rs:1277-1279, `CallArgs::can_cast`. -/
def callArgs (k : SyntaxKind) : Bool := k == .callArgs

/-- nodes.rs:1292-1294, `ArgList::can_cast`. -/
def argList (k : SyntaxKind) : Bool := k == .argList

/-- nodes.rs:1307-1309, `TableSep::can_cast`. -/
def tableSep (k : SyntaxKind) : Bool := k == .tableSep

/-- nodes.rs:1322-1324, `ParenExpr::can_cast`. -/
def parenExpr (k : SyntaxKind) : Bool := k == .parenExpr

/-- nodes.rs:1337-1339, `KeyValue::can_cast`. -/
def keyValue (k : SyntaxKind) : Bool := k == .keyValue

/-- nodes.rs:1352-1354, `PositionalValue::can_cast`. -/
def positionalValue (k : SyntaxKind) : Bool := k == .positionalValue

/-- nodes.rs:1367-1369, `Index::can_cast`. -/
def index (k : SyntaxKind) : Bool := k == .index

/-- nodes.rs:1382-1384, `IdentKey::can_cast`. -/
def identKey (k : SyntaxKind) : Bool := k == .identKey

/-- nodes.rs:1467-1485, `Stmt::can_cast`. -/
def stmt (k : SyntaxKind) : Bool :=
  [SyntaxKind.block, .assignStmt, .localAssignStmt, .localFunctionDefStmt, .functionDefStmt, .forStmt,
    .ifStmt, .returnStmt, .whileStmt, .exprStmt, .breakStmt, .repeatUntilStmt, .labelStmt, .gotoStmt].contains
    k

/-- nodes.rs:1543-1550, `StmtItem::can_cast`. -/
def stmtItem (k : SyntaxKind) : Bool :=
  [SyntaxKind.localAssignStmt, .localFunctionDefStmt, .functionDefStmt].contains k

/-- nodes.rs:1586-1591, `FunctionDefContent::can_cast`. -/
def functionDefContent (k : SyntaxKind) : Bool :=
  [SyntaxKind.functionMethod, .functionStatic, .name].contains k

/-- nodes.rs:1664-1678, `Expr::can_cast`. -/
def expr (k : SyntaxKind) : Bool :=
  [SyntaxKind.literal, .tableExpr, .infixExpr, .prefixExpr, .indexExpr, .dotExpr, .functionExpr, .callExpr,
    .methodCallExpr, .nameRef].contains k

/-- nodes.rs:1721-1726, `ForContent::can_cast`. -/
def forContent (k : SyntaxKind) : Bool :=
  [SyntaxKind.numericFor, .genericFor].contains k

/-- nodes.rs:1753-1758, `TableContent::can_cast`. -/
def tableContent (k : SyntaxKind) : Bool :=
  [SyntaxKind.keyValue, .positionalValue].contains k

/-- nodes.rs:1787-1792, `TableKey::can_cast`. -/
def tableKey (k : SyntaxKind) : Bool :=
  [SyntaxKind.index, .name].contains k

end Can

namespace Name
/-- nodes.rs:13-15, `Name::ident_token`. -/
def identToken (r : Red) : Option Red := token .ident r
end Name

namespace NameRef
/-- nodes.rs:22-24, `NameRef::ident_token`. -/
def identToken (r : Red) : Option Red := token .ident r
end NameRef

namespace MultiName
/-- nodes.rs:31-33, `MultiName::names`. -/
def names (r : Red) : List Red := children Can.name r
end MultiName

namespace SourceFile
/-- nodes.rs:40-42, `SourceFile::body`. -/
def body (r : Red) : Option Red := child Can.block r
end SourceFile

namespace Block
/-- nodes.rs:49-51, `Block::stmts`. -/
def stmts (r : Red) : List Red := children Can.stmt r
end Block

namespace AssignStmt
/-- nodes.rs:58-60, `AssignStmt::eq_token`. -/
def eqToken (r : Red) : Option Red := token .eq r
end AssignStmt

namespace LocalAssignStmt
/-- nodes.rs:67-69, `LocalAssignStmt::local_token`. -/
def localToken (r : Red) : Option Red := token .localKw r
/-- nodes.rs:70-72, `LocalAssignStmt::multi_name`. -/
def multiName (r : Red) : Option Red := child Can.multiName r
/-- nodes.rs:73-75, `LocalAssignStmt::eq_token`. -/
def eqToken (r : Red) : Option Red := token .eq r
/-- nodes.rs:76-78, `LocalAssignStmt::multival_expr`. -/
def multivalExpr (r : Red) : Option Red := child Can.multivalExpr r
end LocalAssignStmt

namespace LocalFunctionDefStmt
/-- nodes.rs:85-87, `LocalFunctionDefStmt::local_token`. -/
def localToken (r : Red) : Option Red := token .localKw r
/-- nodes.rs:88-90, `LocalFunctionDefStmt::function_token`. -/
def functionToken (r : Red) : Option Red := token .functionKw r
/-- nodes.rs:91-93, `LocalFunctionDefStmt::name`. -/
def name (r : Red) : Option Red := child Can.name r
/-- nodes.rs:94-96, `LocalFunctionDefStmt::param_list`. -/
def paramList (r : Red) : Option Red := child Can.paramList r
/-- nodes.rs:97-99, `LocalFunctionDefStmt::body`. -/
def body (r : Red) : Option Red := child Can.block r
/-- nodes.rs:100-102, `LocalFunctionDefStmt::end_token`. -/
def endToken (r : Red) : Option Red := token .endKw r
end LocalFunctionDefStmt

namespace FunctionDefStmt
/-- nodes.rs:109-111, `FunctionDefStmt::function_token`. -/
def functionToken (r : Red) : Option Red := token .functionKw r
/-- nodes.rs:112-114, `FunctionDefStmt::function_def_content`. -/
def functionDefContent (r : Red) : Option Red := child Can.functionDefContent r
/-- nodes.rs:115-117, `FunctionDefStmt::param_list`. -/
def paramList (r : Red) : Option Red := child Can.paramList r
/-- nodes.rs:118-120, `FunctionDefStmt::body`. -/
def body (r : Red) : Option Red := child Can.block r
/-- nodes.rs:121-123, `FunctionDefStmt::end_token`. -/
def endToken (r : Red) : Option Red := token .endKw r
end FunctionDefStmt

namespace ForStmt
/-- nodes.rs:130-132, `ForStmt::for_token`. -/
def forToken (r : Red) : Option Red := token .forKw r
/-- nodes.rs:133-135, `ForStmt::content`. -/
def content (r : Red) : Option Red := child Can.forContent r
/-- nodes.rs:136-138, `ForStmt::do_token`. -/
def doToken (r : Red) : Option Red := token .doKw r
/-- nodes.rs:139-141, `ForStmt::block`. -/
def block (r : Red) : Option Red := child Can.block r
/-- nodes.rs:142-144, `ForStmt::end_token`. -/
def endToken (r : Red) : Option Red := token .endKw r
end ForStmt

namespace IfStmt
/-- nodes.rs:151-153, `IfStmt::if_token`. -/
def ifToken (r : Red) : Option Red := token .ifKw r
/-- nodes.rs:154-156, `IfStmt::cond`. -/
def cond (r : Red) : Option Red := child Can.expr r
/-- nodes.rs:157-159, `IfStmt::then_token`. -/
def thenToken (r : Red) : Option Red := token .thenKw r
/-- nodes.rs:160-162, `IfStmt::block`. -/
def block (r : Red) : Option Red := child Can.block r
/-- nodes.rs:163-165, `IfStmt::else_branch`. -/
def elseBranch (r : Red) : Option Red := child Can.elseBranch r
/-- nodes.rs:166-168, `IfStmt::else_if_branch`. -/
def elseIfBranch (r : Red) : Option Red := child Can.elseIfBranch r
/-- nodes.rs:169-171, `IfStmt::end_token`. -/
def endToken (r : Red) : Option Red := token .endKw r
end IfStmt

namespace ReturnStmt
/-- nodes.rs:178-180, `ReturnStmt::return_token`. -/
def returnToken (r : Red) : Option Red := token .returnKw r
/-- nodes.rs:181-183, `ReturnStmt::expr`. -/
def expr (r : Red) : Option Red := child Can.expr r
end ReturnStmt

namespace WhileStmt
/-- nodes.rs:190-192, `WhileStmt::while_token`. -/
def whileToken (r : Red) : Option Red := token .whileKw r
/-- nodes.rs:193-195, `WhileStmt::cond`. -/
def cond (r : Red) : Option Red := child Can.expr r
/-- nodes.rs:196-198, `WhileStmt::do_token`. -/
def doToken (r : Red) : Option Red := token .doKw r
/-- nodes.rs:199-201, `WhileStmt::body`. -/
def body (r : Red) : Option Red := child Can.block r
/-- nodes.rs:202-204, `WhileStmt::end_token`. -/
def endToken (r : Red) : Option Red := token .endKw r
end WhileStmt

namespace ExprStmt
/-- nodes.rs:211-213, `ExprStmt::multival_expr`. -/
def multivalExpr (r : Red) : Option Red := child Can.multivalExpr r
end ExprStmt

namespace BreakStmt
/-- nodes.rs:220-222, `BreakStmt::break_token`. -/
def breakToken (r : Red) : Option Red := token .breakKw r
end BreakStmt

namespace RepeatUntilStmt
/-- nodes.rs:229-231, `RepeatUntilStmt::repeat_token`. -/
def repeatToken (r : Red) : Option Red := token .repeatKw r
/-- nodes.rs:232-234, `RepeatUntilStmt::block`. -/
def block (r : Red) : Option Red := child Can.block r
/-- nodes.rs:235-237, `RepeatUntilStmt::until_token`. -/
def untilToken (r : Red) : Option Red := token .untilKw r
/-- nodes.rs:238-240, `RepeatUntilStmt::expr`. -/
def expr (r : Red) : Option Red := child Can.expr r
end RepeatUntilStmt

namespace LabelStmt
/-- nodes.rs:247-249, `LabelStmt::start`. -/
def start (r : Red) : Option Red := child Can.labelDelim r
/-- nodes.rs:250-252, `LabelStmt::name`. -/
def name (r : Red) : Option Red := child Can.name r
/-- nodes.rs:253-255, `LabelStmt::finish`. -/
def finish (r : Red) : Option Red := child Can.labelDelim r
end LabelStmt

namespace GotoStmt
/-- nodes.rs:262-264, `GotoStmt::goto_token`. -/
def gotoToken (r : Red) : Option Red := token .gotoKw r
/-- nodes.rs:265-267, `GotoStmt::name_ref`. -/
def nameRef (r : Red) : Option Red := child Can.nameRef r
end GotoStmt

namespace LabelDelim
/-- nodes.rs:274-276, `LabelDelim::double_colon_token`. -/
def doubleColonToken (r : Red) : Option Red := token .doubleColon r
end LabelDelim

namespace DoStmt
/-- nodes.rs:283-285, `DoStmt::do_token`. -/
def doToken (r : Red) : Option Red := token .doKw r
/-- nodes.rs:286-288, `DoStmt::body`. -/
def body (r : Red) : Option Red := child Can.block r
/-- nodes.rs:289-291, `DoStmt::end_token`. -/
def endToken (r : Red) : Option Red := token .endKw r
end DoStmt

namespace ParamList
/-- nodes.rs:298-300, `ParamList::l_paren_token`. -/
def lParenToken (r : Red) : Option Red := token .lParen r
/-- nodes.rs:301-303, `ParamList::multi_name`. -/
def multiName (r : Red) : Option Red := child Can.multiName r
/-- nodes.rs:304-306, `ParamList::triple_dot_token`. -/
def tripleDotToken (r : Red) : Option Red := token .tripleDot r
/-- nodes.rs:307-309, `ParamList::r_paren_token`. -/
def rParenToken (r : Red) : Option Red := token .rParen r
end ParamList

namespace FunctionMethod
/-- nodes.rs:316-318, `FunctionMethod::index_path`. -/
def indexPath (r : Red) : Option Red := child Can.indexPath r
/-- nodes.rs:319-321, `FunctionMethod::colon_token`. -/
def colonToken (r : Red) : Option Red := token .colon r
/-- nodes.rs:322-324, `FunctionMethod::name`. -/
def name (r : Red) : Option Red := child Can.name r
end FunctionMethod

namespace FunctionStatic
/-- nodes.rs:331-333, `FunctionStatic::index_path`. -/
def indexPath (r : Red) : Option Red := child Can.indexPath r
/-- nodes.rs:334-336, `FunctionStatic::dot_token`. -/
def dotToken (r : Red) : Option Red := token .dot r
/-- nodes.rs:337-339, `FunctionStatic::name`. -/
def name (r : Red) : Option Red := child Can.name r
end FunctionStatic

namespace IndexPath
/-- nodes.rs:346-348, `IndexPath::name_refs`. -/
def nameRefs (r : Red) : List Red := children Can.nameRef r
end IndexPath

namespace MultivalExpr
/-- nodes.rs:355-357, `MultivalExpr::exprs`. -/
def exprs (r : Red) : List Red := children Can.expr r
end MultivalExpr

namespace ElseBranch
/-- nodes.rs:364-366, `ElseBranch::else_token`. -/
def elseToken (r : Red) : Option Red := token .elseKw r
/-- nodes.rs:367-369, `ElseBranch::block`. -/
def block (r : Red) : Option Red := child Can.block r
end ElseBranch

namespace ElseIfBranch
/-- nodes.rs:376-378, `ElseIfBranch::elseif_token`. -/
def elseifToken (r : Red) : Option Red := token .elseifKw r
/-- nodes.rs:379-381, `ElseIfBranch::cond`. -/
def cond (r : Red) : Option Red := child Can.expr r
/-- nodes.rs:382-384, `ElseIfBranch::then_token`. -/
def thenToken (r : Red) : Option Red := token .thenKw r
/-- nodes.rs:385-387, `ElseIfBranch::block`. -/
def block (r : Red) : Option Red := child Can.block r
/-- nodes.rs:388-390, `ElseIfBranch::else_if_branch`. -/
def elseIfBranch (r : Red) : Option Red := child Can.elseIfBranch r
/-- nodes.rs:391-393, `ElseIfBranch::else_branch`. -/
def elseBranch (r : Red) : Option Red := child Can.elseBranch r
end ElseIfBranch

namespace NumericFor
/-- nodes.rs:400-402, `NumericFor::name`. -/
def name (r : Red) : Option Red := child Can.name r
/-- nodes.rs:403-405, `NumericFor::eq_token`. -/
def eqToken (r : Red) : Option Red := token .eq r
/-- nodes.rs:406-408, `NumericFor::expr`. -/
def expr (r : Red) : Option Red := child Can.multivalExpr r
end NumericFor

namespace GenericFor
/-- nodes.rs:415-417, `GenericFor::multi_name`. -/
def multiName (r : Red) : Option Red := child Can.multiName r
/-- nodes.rs:418-420, `GenericFor::in_token`. -/
def inToken (r : Red) : Option Red := token .inKw r
/-- nodes.rs:421-423, `GenericFor::expr`. -/
def expr (r : Red) : Option Red := child Can.multivalExpr r
end GenericFor

namespace Literal
/-- nodes.rs:430-432, `Literal::number_token`. -/
def numberToken (r : Red) : Option Red := token .number r
/-- nodes.rs:433-435, `Literal::str_token`. -/
def strToken (r : Red) : Option Red := token .str r
/-- nodes.rs:436-438, `Literal::true_token`. -/
def trueToken (r : Red) : Option Red := token .trueKw r
/-- nodes.rs:439-441, `Literal::false_token`. -/
def falseToken (r : Red) : Option Red := token .falseKw r
end Literal

namespace TableExpr
/-- nodes.rs:448-450, `TableExpr::l_curly_token`. -/
def lCurlyToken (r : Red) : Option Red := token .lBrace r
/-- nodes.rs:451-453, `TableExpr::table_contents`. -/
def tableContents (r : Red) : Option Red := child Can.tableContent r
/-- nodes.rs:454-456, `TableExpr::r_curly_token`. -/
def rCurlyToken (r : Red) : Option Red := token .rBrace r
end TableExpr

namespace PrefixExpr
/-- nodes.rs:468-470, `PrefixExpr::expr`. -/
def expr (r : Red) : Option Red := child Can.expr r
end PrefixExpr

namespace IndexExpr
/-- nodes.rs:477-479, `IndexExpr::base`. -/
def base (r : Red) : Option Red := child Can.expr r
/-- nodes.rs:480-482, `IndexExpr::index`. -/
def index (r : Red) : Option Red := child Can.index r
end IndexExpr

namespace DotExpr
/-- nodes.rs:489-491, `DotExpr::expr`. -/
def expr (r : Red) : Option Red := child Can.expr r
/-- nodes.rs:492-494, `DotExpr::dot_token`. -/
def dotToken (r : Red) : Option Red := token .dot r
/-- nodes.rs:495-497, `DotExpr::ident_token`. -/
def identToken (r : Red) : Option Red := token .ident r
end DotExpr

namespace FunctionExpr
/-- nodes.rs:504-506, `FunctionExpr::function_token`. -/
def functionToken (r : Red) : Option Red := token .functionKw r
/-- nodes.rs:507-509, `FunctionExpr::params`. -/
def params (r : Red) : Option Red := child Can.paramList r
/-- nodes.rs:510-512, `FunctionExpr::body`. -/
def body (r : Red) : Option Red := child Can.block r
/-- nodes.rs:513-515, `FunctionExpr::end_token`. -/
def endToken (r : Red) : Option Red := token .endKw r
end FunctionExpr

namespace CallExpr
/-- nodes.rs:522-524, `CallExpr::fun`. -/
def fun_ (r : Red) : Option Red := child Can.expr r
/-- nodes.rs:525-527, `CallExpr::call_args`. -/
def callArgs (r : Red) : Option Red := child Can.callArgs r
end CallExpr

namespace MethodCallExpr
/-- nodes.rs:534-536, `MethodCallExpr::fun`. -/
def fun_ (r : Red) : Option Red := child Can.expr r
/-- nodes.rs:537-539, `MethodCallExpr::colon_token`. -/
def colonToken (r : Red) : Option Red := token .colon r
/-- nodes.rs:540-542, `MethodCallExpr::name_ref`. -/
def nameRef (r : Red) : Option Red := child Can.nameRef r
/-- nodes.rs:543-545, `MethodCallExpr::call_args`. -/
def callArgs (r : Red) : Option Red := child Can.callArgs r
end MethodCallExpr

namespace CallArgs
/-- nodes.rs:552-554, `CallArgs::arg_list`. -/
def argList (r : Red) : Option Red := child Can.argList r
/-- nodes.rs:555-557, `CallArgs::table_expr`. -/
def tableExpr (r : Red) : Option Red := child Can.tableExpr r
/-- nodes.rs:558-560, `CallArgs::str_token`. -/
def strToken (r : Red) : Option Red := token .str r
end CallArgs

namespace ArgList
/-- nodes.rs:567-569, `ArgList::l_paren_token`. -/
def lParenToken (r : Red) : Option Red := token .lParen r
/-- nodes.rs:570-572, `ArgList::args`. -/
def args (r : Red) : List Red := children Can.expr r
/-- nodes.rs:573-575, `ArgList::triple_dot_token`. -/
def tripleDotToken (r : Red) : Option Red := token .tripleDot r
/-- nodes.rs:576-578, `ArgList::r_paren_token`. -/
def rParenToken (r : Red) : Option Red := token .rParen r
end ArgList

namespace TableSep
/-- nodes.rs:585-587, `TableSep::semicolon_token`. -/
def semicolonToken (r : Red) : Option Red := token .semicolon r
end TableSep

namespace ParenExpr
/-- nodes.rs:594-596, `ParenExpr::l_paren_token`. -/
def lParenToken (r : Red) : Option Red := token .lParen r
/-- nodes.rs:597-599, `ParenExpr::expr`. -/
def expr (r : Red) : Option Red := child Can.expr r
/-- nodes.rs:600-602, `ParenExpr::r_paren_token`. -/
def rParenToken (r : Red) : Option Red := token .rParen r
end ParenExpr

namespace KeyValue
/-- nodes.rs:609-611, `KeyValue::key`. -/
def key (r : Red) : Option Red := child Can.tableKey r
/-- nodes.rs:612-614, `KeyValue::value`. -/
def value (r : Red) : Option Red := child Can.expr r
end KeyValue

namespace PositionalValue
/-- nodes.rs:621-623, `PositionalValue::expr`. -/
def expr (r : Red) : Option Red := child Can.expr r
end PositionalValue

namespace Index
/-- nodes.rs:630-632, `Index::l_brack_token`. -/
def lBrackToken (r : Red) : Option Red := token .lBracket r
/-- nodes.rs:633-635, `Index::expr`. -/
def expr (r : Red) : Option Red := child Can.expr r
/-- nodes.rs:636-638, `Index::r_brack_token`. -/
def rBrackToken (r : Red) : Option Red := token .rBracket r
end Index

namespace IdentKey
/-- nodes.rs:645-647, `IdentKey::ident_token`. -/
def identToken (r : Red) : Option Red := token .ident r
end IdentKey

end Verif.Ast
