import Verif.Model.Codegen
import Verif.Model.Ast

/-
The input of the code generator, and the checked-in files it is meant to have written.  Transcribed by tools/gen_codegen.py.
-/
namespace Verif.Codegen

/-- xtask/assets/lua.ungram, in the order in which the crate `ungrammar` meets the names. -/
def luaGrammar : Grammar := [
  -- lua.ungram:1
  ("Name", .token "ident"),
  -- lua.ungram:4
  ("NameRef", .token "ident"),
  -- lua.ungram:7
  ("MultiName", .seq [.node "Name", .rep (.seq [.token ",", .node "Name"])]),
  -- lua.ungram:10
  ("SourceFile", .labeled "body" (.node "Block")),
  -- lua.ungram:130
  ("Block", .rep (.node "Stmt")),
  -- lua.ungram:13
  ("Stmt", .alt [.node "Block", .node "AssignStmt", .node "LocalAssignStmt", .node "LocalFunctionDefStmt",
    .node "FunctionDefStmt", .node "ForStmt", .node "IfStmt", .node "ReturnStmt", .node "WhileStmt",
    .node "ExprStmt", .node "BreakStmt", .node "RepeatUntilStmt", .node "LabelStmt", .node "GotoStmt"]),
  -- lua.ungram:142
  ("AssignStmt", .seq [.labeled "lhs" (.node "MultivalExpr"), .opt (.seq [.token "=",
    .labeled "rhs" (.node "MultivalExpr")])]),
  -- lua.ungram:139
  ("LocalAssignStmt", .seq [.token "local", .node "MultiName", .opt (.seq [.token "=", .node "MultivalExpr"])]),
  -- lua.ungram:73
  ("LocalFunctionDefStmt", .seq [.token "local", .token "function", .node "Name", .node "ParamList",
    .labeled "body" (.node "Block"), .token "end"]),
  -- lua.ungram:51
  ("FunctionDefStmt", .seq [.token "function", .node "FunctionDefContent", .node "ParamList",
    .labeled "body" (.node "Block"), .token "end"]),
  -- lua.ungram:113
  ("ForStmt", .seq [.token "for", .labeled "content" (.node "ForContent"), .token "do", .node "Block", .token "end"]),
  -- lua.ungram:83
  ("IfStmt", .seq [.token "if", .labeled "cond" (.node "Expr"), .token "then", .node "Block",
    .opt (.alt [.node "ElseBranch", .node "ElseIfBranch"]), .token "end"]),
  -- lua.ungram:109
  ("ReturnStmt", .seq [.token "return", .opt (.node "Expr")]),
  -- lua.ungram:102
  ("WhileStmt", .seq [.token "while", .labeled "cond" (.node "Expr"), .token "do", .labeled "body" (.node "Block"),
    .token "end"]),
  -- lua.ungram:81
  ("ExprStmt", .node "MultivalExpr"),
  -- lua.ungram:43
  ("BreakStmt", .token "break"),
  -- lua.ungram:133
  ("RepeatUntilStmt", .seq [.token "repeat", .node "Block", .token "until", .node "Expr"]),
  -- lua.ungram:34
  ("LabelStmt", .seq [.labeled "start" (.node "LabelDelim"), .node "Name", .labeled "finish" (.node "LabelDelim")]),
  -- lua.ungram:40
  ("GotoStmt", .seq [.token "goto", .node "NameRef"]),
  -- lua.ungram:29
  ("StmtItem", .alt [.node "LocalAssignStmt", .node "LocalFunctionDefStmt", .node "FunctionDefStmt"]),
  -- lua.ungram:37
  ("LabelDelim", .token "::"),
  -- lua.ungram:46
  ("DoStmt", .seq [.token "do", .labeled "body" (.node "Block"), .token "end"]),
  -- lua.ungram:58
  ("FunctionDefContent", .alt [.node "FunctionMethod", .node "FunctionStatic", .node "Name"]),
  -- lua.ungram:78
  ("ParamList", .seq [.token "(", .opt (.seq [.node "MultiName", .opt (.seq [.token ",", .token "..."])]),
    .token ")"]),
  -- lua.ungram:63
  ("FunctionMethod", .seq [.node "IndexPath", .token ":", .node "Name"]),
  -- lua.ungram:68
  ("FunctionStatic", .seq [.node "IndexPath", .token ".", .node "Name"]),
  -- lua.ungram:233
  ("IndexPath", .seq [.node "NameRef", .rep (.seq [.token ".", .node "NameRef"])]),
  -- lua.ungram:163
  ("MultivalExpr", .seq [.node "Expr", .rep (.seq [.token ",", .node "Expr"])]),
  -- lua.ungram:145
  ("Expr", .alt [.node "Literal", .node "TableExpr", .node "InfixExpr", .node "PrefixExpr", .node "IndexExpr",
    .node "DotExpr", .node "FunctionExpr", .node "CallExpr", .node "MethodCallExpr", .node "NameRef"]),
  -- lua.ungram:91
  ("ElseBranch", .seq [.token "else", .node "Block"]),
  -- lua.ungram:95
  ("ElseIfBranch", .seq [.token "elseif", .labeled "cond" (.node "Expr"), .token "then", .node "Block",
    .opt (.alt [.node "ElseIfBranch", .node "ElseBranch"])]),
  -- lua.ungram:116
  ("ForContent", .alt [.node "NumericFor", .node "GenericFor"]),
  -- lua.ungram:120
  ("NumericFor", .seq [.node "Name", .token "=", .labeled "expr" (.node "MultivalExpr")]),
  -- lua.ungram:125
  ("GenericFor", .seq [.labeled "multi_name" (.node "MultiName"), .token "in",
    .labeled "expr" (.node "MultivalExpr")]),
  -- lua.ungram:174
  ("Literal", .alt [.token "number", .token "str", .token "true", .token "false"]),
  -- lua.ungram:186
  ("TableExpr", .seq [.token "{", .seq [.node "TableContent", .rep (.seq [.node "TableSep", .node "TableContent"]),
    .opt (.node "TableSep")], .token "}"]),
  -- lua.ungram:219
  ("InfixExpr", .seq [.labeled "lhs" (.node "Expr"), .labeled "op" (.alt [.token "^", .token "*", .token "/",
    .token "+", .token "-", .token "..", .token "<", .token ">", .token "<=", .token ">=", .token "~=", .token "==",
    .token "and", .token "or"]), .labeled "rhs" (.node "Expr")]),
  -- lua.ungram:224
  ("PrefixExpr", .seq [.labeled "op" (.alt [.token "not", .token "-"]), .node "Expr"]),
  -- lua.ungram:227
  ("IndexExpr", .seq [.labeled "base" (.node "Expr"), .node "Index"]),
  -- lua.ungram:194
  ("DotExpr", .seq [.node "Expr", .token ".", .token "ident"]),
  -- lua.ungram:180
  ("FunctionExpr", .seq [.token "function", .labeled "params" (.node "ParamList"), .labeled "body" (.node "Block"),
    .token "end"]),
  -- lua.ungram:157
  ("CallExpr", .seq [.labeled "fun" (.node "Expr"), .node "CallArgs"]),
  -- lua.ungram:160
  ("MethodCallExpr", .seq [.labeled "fun" (.node "Expr"), .token ":", .node "NameRef", .node "CallArgs"]),
  -- lua.ungram:166
  ("CallArgs", .alt [.node "ArgList", .node "TableExpr", .token "str"]),
  -- lua.ungram:171
  ("ArgList", .seq [.token "(", .labeled "args" (.opt (.seq [.node "Expr", .rep (.seq [.token ",", .node "Expr"])])),
    .opt (.seq [.token ",", .token "..."]), .token ")"]),
  -- lua.ungram:202
  ("TableContent", .alt [.node "KeyValue", .node "PositionalValue"]),
  -- lua.ungram:191
  ("TableSep", .alt [.token ",", .token ";"]),
  -- lua.ungram:197
  ("ParenExpr", .seq [.token "(", .node "Expr", .token ")"]),
  -- lua.ungram:209
  ("KeyValue", .seq [.labeled "key" (.node "TableKey"), .labeled "value" (.node "Expr")]),
  -- lua.ungram:206
  ("PositionalValue", .node "Expr"),
  -- lua.ungram:212
  ("TableKey", .alt [.node "Index", .node "Name"]),
  -- lua.ungram:230
  ("Index", .seq [.token "[", .node "Expr", .token "]"]),
  -- lua.ungram:216
  ("IdentKey", .token "ident")]

/-- xtask/assets/ast_src.toml; the entries of `[punct]` in the order of their keys, as in a `BTreeMap`. -/
def luaKinds : KindsSrc where
  punct := [
    ("!", "Bang"), ("#", "Hash"), ("%", "Modulo"), ("(", "LParen"), (")", "RParen"), ("*", "Asterisk"), ("+", "Plus"),
    (",", "Comma"), ("-", "Minus"), (".", "Dot"), ("..", "DoubleDot"), ("...", "TripleDot"), ("/", "Slash"),
    (":", "Colon"), ("::", "DoubleColon"), (";", "Semicolon"), ("<", "Lt"), ("<=", "LtEq"), ("=", "Eq"),
    ("==", "EqEq"), (">", "Gt"), (">=", "GtEq"), ("[", "LBracket"), ("]", "RBracket"), ("^", "Caret"),
    ("{", "LBrace"), ("}", "RBrace"), ("~=", "NotEq")]
  keywords := [
    "function", "local", "true", "false", "if", "then", "else", "elseif", "while", "for", "in", "break", "do", "goto",
    "and", "or", "not", "return", "end", "repeat", "until", "nil"]
  literals := [
    "Number", "Str", "True", "False"]
  tokens := [
    "Error", "Ident", "Shebang"]
  trivia := [
    "Comment", "Whitespace"]

/-- crates/parser/src/syntax_kind/generated.rs:227, the arms of the macro `T!`. -/
def checkedInT : List (String × String) := [
  ("!", "Bang"), ("#", "Hash"), ("%", "Modulo"), ("'('", "LParen"), ("')'", "RParen"), ("*", "Asterisk"),
  ("+", "Plus"), (",", "Comma"), ("-", "Minus"), (".", "Dot"), ("..", "DoubleDot"), ("...", "TripleDot"),
  ("/", "Slash"), (":", "Colon"), ("::", "DoubleColon"), (";", "Semicolon"), ("<", "Lt"), ("<=", "LtEq"), ("=", "Eq"),
  ("==", "EqEq"), (">", "Gt"), (">=", "GtEq"), ("'['", "LBracket"), ("']'", "RBracket"), ("^", "Caret"),
  ("'{'", "LBrace"), ("'}'", "RBrace"), ("~=", "NotEq"), ("function", "FunctionKw"), ("local", "LocalKw"),
  ("true", "TrueKw"), ("false", "FalseKw"), ("if", "IfKw"), ("then", "ThenKw"), ("else", "ElseKw"),
  ("elseif", "ElseifKw"), ("while", "WhileKw"), ("for", "ForKw"), ("in", "InKw"), ("break", "BreakKw"),
  ("do", "DoKw"), ("goto", "GotoKw"), ("and", "AndKw"), ("or", "OrKw"), ("not", "NotKw"), ("return", "ReturnKw"),
  ("end", "EndKw"), ("repeat", "RepeatKw"), ("until", "UntilKw"), ("nil", "NilKw"), ("number", "Number"),
  ("str", "Str"), ("true", "True"), ("false", "False"), ("error", "Error"), ("ident", "Ident"),
  ("shebang", "Shebang"), ("comment", "Comment"), ("whitespace", "Whitespace"), ("__", "Tombstone"), ("eof", "Eof"),
  ("unknown", "Unknown")]

/-- The structs of crates/syntax/src/ast/generated/nodes.rs with their methods (Model/AstNodes.lean). -/
def checkedInStructs : List (String × List (String × (Red → Result))) := [
  ("Name", [
    ("ident_token", fun r => .one (Ast.Name.identToken r))]),
  ("NameRef", [
    ("ident_token", fun r => .one (Ast.NameRef.identToken r))]),
  ("MultiName", [
    ("names", fun r => .many (Ast.MultiName.names r))]),
  ("SourceFile", [
    ("body", fun r => .one (Ast.SourceFile.body r))]),
  ("Block", [
    ("stmts", fun r => .many (Ast.Block.stmts r))]),
  ("AssignStmt", [
    ("eq_token", fun r => .one (Ast.AssignStmt.eqToken r))]),
  ("LocalAssignStmt", [
    ("local_token", fun r => .one (Ast.LocalAssignStmt.localToken r)),
    ("multi_name", fun r => .one (Ast.LocalAssignStmt.multiName r)),
    ("eq_token", fun r => .one (Ast.LocalAssignStmt.eqToken r)),
    ("multival_expr", fun r => .one (Ast.LocalAssignStmt.multivalExpr r))]),
  ("LocalFunctionDefStmt", [
    ("local_token", fun r => .one (Ast.LocalFunctionDefStmt.localToken r)),
    ("function_token", fun r => .one (Ast.LocalFunctionDefStmt.functionToken r)),
    ("name", fun r => .one (Ast.LocalFunctionDefStmt.name r)),
    ("param_list", fun r => .one (Ast.LocalFunctionDefStmt.paramList r)),
    ("body", fun r => .one (Ast.LocalFunctionDefStmt.body r)),
    ("end_token", fun r => .one (Ast.LocalFunctionDefStmt.endToken r))]),
  ("FunctionDefStmt", [
    ("function_token", fun r => .one (Ast.FunctionDefStmt.functionToken r)),
    ("function_def_content", fun r => .one (Ast.FunctionDefStmt.functionDefContent r)),
    ("param_list", fun r => .one (Ast.FunctionDefStmt.paramList r)),
    ("body", fun r => .one (Ast.FunctionDefStmt.body r)),
    ("end_token", fun r => .one (Ast.FunctionDefStmt.endToken r))]),
  ("ForStmt", [
    ("for_token", fun r => .one (Ast.ForStmt.forToken r)), ("content", fun r => .one (Ast.ForStmt.content r)),
    ("do_token", fun r => .one (Ast.ForStmt.doToken r)), ("block", fun r => .one (Ast.ForStmt.block r)),
    ("end_token", fun r => .one (Ast.ForStmt.endToken r))]),
  ("IfStmt", [
    ("if_token", fun r => .one (Ast.IfStmt.ifToken r)), ("cond", fun r => .one (Ast.IfStmt.cond r)),
    ("then_token", fun r => .one (Ast.IfStmt.thenToken r)), ("block", fun r => .one (Ast.IfStmt.block r)),
    ("else_branch", fun r => .one (Ast.IfStmt.elseBranch r)),
    ("else_if_branch", fun r => .one (Ast.IfStmt.elseIfBranch r)),
    ("end_token", fun r => .one (Ast.IfStmt.endToken r))]),
  ("ReturnStmt", [
    ("return_token", fun r => .one (Ast.ReturnStmt.returnToken r)), ("expr", fun r => .one (Ast.ReturnStmt.expr r))]),
  ("WhileStmt", [
    ("while_token", fun r => .one (Ast.WhileStmt.whileToken r)), ("cond", fun r => .one (Ast.WhileStmt.cond r)),
    ("do_token", fun r => .one (Ast.WhileStmt.doToken r)), ("body", fun r => .one (Ast.WhileStmt.body r)),
    ("end_token", fun r => .one (Ast.WhileStmt.endToken r))]),
  ("ExprStmt", [
    ("multival_expr", fun r => .one (Ast.ExprStmt.multivalExpr r))]),
  ("BreakStmt", [
    ("break_token", fun r => .one (Ast.BreakStmt.breakToken r))]),
  ("RepeatUntilStmt", [
    ("repeat_token", fun r => .one (Ast.RepeatUntilStmt.repeatToken r)),
    ("block", fun r => .one (Ast.RepeatUntilStmt.block r)),
    ("until_token", fun r => .one (Ast.RepeatUntilStmt.untilToken r)),
    ("expr", fun r => .one (Ast.RepeatUntilStmt.expr r))]),
  ("LabelStmt", [
    ("start", fun r => .one (Ast.LabelStmt.start r)), ("name", fun r => .one (Ast.LabelStmt.name r)),
    ("finish", fun r => .one (Ast.LabelStmt.finish r))]),
  ("GotoStmt", [
    ("goto_token", fun r => .one (Ast.GotoStmt.gotoToken r)), ("name_ref", fun r => .one (Ast.GotoStmt.nameRef r))]),
  ("LabelDelim", [
    ("double_colon_token", fun r => .one (Ast.LabelDelim.doubleColonToken r))]),
  ("DoStmt", [
    ("do_token", fun r => .one (Ast.DoStmt.doToken r)), ("body", fun r => .one (Ast.DoStmt.body r)),
    ("end_token", fun r => .one (Ast.DoStmt.endToken r))]),
  ("ParamList", [
    ("l_paren_token", fun r => .one (Ast.ParamList.lParenToken r)),
    ("multi_name", fun r => .one (Ast.ParamList.multiName r)),
    ("triple_dot_token", fun r => .one (Ast.ParamList.tripleDotToken r)),
    ("r_paren_token", fun r => .one (Ast.ParamList.rParenToken r))]),
  ("FunctionMethod", [
    ("index_path", fun r => .one (Ast.FunctionMethod.indexPath r)),
    ("colon_token", fun r => .one (Ast.FunctionMethod.colonToken r)),
    ("name", fun r => .one (Ast.FunctionMethod.name r))]),
  ("FunctionStatic", [
    ("index_path", fun r => .one (Ast.FunctionStatic.indexPath r)),
    ("dot_token", fun r => .one (Ast.FunctionStatic.dotToken r)), ("name", fun r => .one (Ast.FunctionStatic.name r))]),
  ("IndexPath", [
    ("name_refs", fun r => .many (Ast.IndexPath.nameRefs r))]),
  ("MultivalExpr", [
    ("exprs", fun r => .many (Ast.MultivalExpr.exprs r))]),
  ("ElseBranch", [
    ("else_token", fun r => .one (Ast.ElseBranch.elseToken r)), ("block", fun r => .one (Ast.ElseBranch.block r))]),
  ("ElseIfBranch", [
    ("elseif_token", fun r => .one (Ast.ElseIfBranch.elseifToken r)),
    ("cond", fun r => .one (Ast.ElseIfBranch.cond r)), ("then_token", fun r => .one (Ast.ElseIfBranch.thenToken r)),
    ("block", fun r => .one (Ast.ElseIfBranch.block r)),
    ("else_if_branch", fun r => .one (Ast.ElseIfBranch.elseIfBranch r)),
    ("else_branch", fun r => .one (Ast.ElseIfBranch.elseBranch r))]),
  ("NumericFor", [
    ("name", fun r => .one (Ast.NumericFor.name r)), ("eq_token", fun r => .one (Ast.NumericFor.eqToken r)),
    ("expr", fun r => .one (Ast.NumericFor.expr r))]),
  ("GenericFor", [
    ("multi_name", fun r => .one (Ast.GenericFor.multiName r)),
    ("in_token", fun r => .one (Ast.GenericFor.inToken r)), ("expr", fun r => .one (Ast.GenericFor.expr r))]),
  ("Literal", [
    ("number_token", fun r => .one (Ast.Literal.numberToken r)),
    ("str_token", fun r => .one (Ast.Literal.strToken r)), ("true_token", fun r => .one (Ast.Literal.trueToken r)),
    ("false_token", fun r => .one (Ast.Literal.falseToken r))]),
  ("TableExpr", [
    ("l_curly_token", fun r => .one (Ast.TableExpr.lCurlyToken r)),
    ("table_contents", fun r => .one (Ast.TableExpr.tableContents r)),
    ("r_curly_token", fun r => .one (Ast.TableExpr.rCurlyToken r))]),
  ("InfixExpr", []),
  ("PrefixExpr", [
    ("expr", fun r => .one (Ast.PrefixExpr.expr r))]),
  ("IndexExpr", [
    ("base", fun r => .one (Ast.IndexExpr.base r)), ("index", fun r => .one (Ast.IndexExpr.index r))]),
  ("DotExpr", [
    ("expr", fun r => .one (Ast.DotExpr.expr r)), ("dot_token", fun r => .one (Ast.DotExpr.dotToken r)),
    ("ident_token", fun r => .one (Ast.DotExpr.identToken r))]),
  ("FunctionExpr", [
    ("function_token", fun r => .one (Ast.FunctionExpr.functionToken r)),
    ("params", fun r => .one (Ast.FunctionExpr.params r)), ("body", fun r => .one (Ast.FunctionExpr.body r)),
    ("end_token", fun r => .one (Ast.FunctionExpr.endToken r))]),
  ("CallExpr", [
    ("fun", fun r => .one (Ast.CallExpr.fun_ r)), ("call_args", fun r => .one (Ast.CallExpr.callArgs r))]),
  ("MethodCallExpr", [
    ("fun", fun r => .one (Ast.MethodCallExpr.fun_ r)),
    ("colon_token", fun r => .one (Ast.MethodCallExpr.colonToken r)),
    ("name_ref", fun r => .one (Ast.MethodCallExpr.nameRef r)),
    ("call_args", fun r => .one (Ast.MethodCallExpr.callArgs r))]),
  ("CallArgs", [
    ("arg_list", fun r => .one (Ast.CallArgs.argList r)), ("table_expr", fun r => .one (Ast.CallArgs.tableExpr r)),
    ("str_token", fun r => .one (Ast.CallArgs.strToken r))]),
  ("ArgList", [
    ("l_paren_token", fun r => .one (Ast.ArgList.lParenToken r)), ("args", fun r => .many (Ast.ArgList.args r)),
    ("triple_dot_token", fun r => .one (Ast.ArgList.tripleDotToken r)),
    ("r_paren_token", fun r => .one (Ast.ArgList.rParenToken r))]),
  ("TableSep", [
    ("semicolon_token", fun r => .one (Ast.TableSep.semicolonToken r))]),
  ("ParenExpr", [
    ("l_paren_token", fun r => .one (Ast.ParenExpr.lParenToken r)), ("expr", fun r => .one (Ast.ParenExpr.expr r)),
    ("r_paren_token", fun r => .one (Ast.ParenExpr.rParenToken r))]),
  ("KeyValue", [
    ("key", fun r => .one (Ast.KeyValue.key r)), ("value", fun r => .one (Ast.KeyValue.value r))]),
  ("PositionalValue", [
    ("expr", fun r => .one (Ast.PositionalValue.expr r))]),
  ("Index", [
    ("l_brack_token", fun r => .one (Ast.Index.lBrackToken r)), ("expr", fun r => .one (Ast.Index.expr r)),
    ("r_brack_token", fun r => .one (Ast.Index.rBrackToken r))]),
  ("IdentKey", [
    ("ident_token", fun r => .one (Ast.IdentKey.identToken r))])]

/-- `can_cast` of the types of crates/syntax/src/ast/generated/nodes.rs. -/
def checkedInCasts : List (String × (SyntaxKind → Bool)) := [
  ("Name", Ast.Can.name), ("NameRef", Ast.Can.nameRef), ("MultiName", Ast.Can.multiName),
  ("SourceFile", Ast.Can.sourceFile), ("Block", Ast.Can.block), ("AssignStmt", Ast.Can.assignStmt),
  ("LocalAssignStmt", Ast.Can.localAssignStmt), ("LocalFunctionDefStmt", Ast.Can.localFunctionDefStmt),
  ("FunctionDefStmt", Ast.Can.functionDefStmt), ("ForStmt", Ast.Can.forStmt), ("IfStmt", Ast.Can.ifStmt),
  ("ReturnStmt", Ast.Can.returnStmt), ("WhileStmt", Ast.Can.whileStmt), ("ExprStmt", Ast.Can.exprStmt),
  ("BreakStmt", Ast.Can.breakStmt), ("RepeatUntilStmt", Ast.Can.repeatUntilStmt), ("LabelStmt", Ast.Can.labelStmt),
  ("GotoStmt", Ast.Can.gotoStmt), ("LabelDelim", Ast.Can.labelDelim), ("DoStmt", Ast.Can.doStmt),
  ("ParamList", Ast.Can.paramList), ("FunctionMethod", Ast.Can.functionMethod),
  ("FunctionStatic", Ast.Can.functionStatic), ("IndexPath", Ast.Can.indexPath),
  ("MultivalExpr", Ast.Can.multivalExpr), ("ElseBranch", Ast.Can.elseBranch), ("ElseIfBranch", Ast.Can.elseIfBranch),
  ("NumericFor", Ast.Can.numericFor), ("GenericFor", Ast.Can.genericFor), ("Literal", Ast.Can.literal),
  ("TableExpr", Ast.Can.tableExpr), ("InfixExpr", Ast.Can.infixExpr), ("PrefixExpr", Ast.Can.prefixExpr),
  ("IndexExpr", Ast.Can.indexExpr), ("DotExpr", Ast.Can.dotExpr), ("FunctionExpr", Ast.Can.functionExpr),
  ("CallExpr", Ast.Can.callExpr), ("MethodCallExpr", Ast.Can.methodCallExpr), ("CallArgs", Ast.Can.callArgs),
  ("ArgList", Ast.Can.argList), ("TableSep", Ast.Can.tableSep), ("ParenExpr", Ast.Can.parenExpr),
  ("KeyValue", Ast.Can.keyValue), ("PositionalValue", Ast.Can.positionalValue), ("Index", Ast.Can.index),
  ("IdentKey", Ast.Can.identKey), ("Stmt", Ast.Can.stmt), ("StmtItem", Ast.Can.stmtItem),
  ("FunctionDefContent", Ast.Can.functionDefContent), ("Expr", Ast.Can.expr), ("ForContent", Ast.Can.forContent),
  ("TableContent", Ast.Can.tableContent), ("TableKey", Ast.Can.tableKey)]

/-- `can_cast` of the types of crates/syntax/src/ast/generated/tokens.rs. -/
def checkedInTokens : List (String × (SyntaxKind → Bool)) := [
  ("Error", Ast.CanToken.error), ("Ident", Ast.CanToken.ident), ("Shebang", Ast.CanToken.shebang),
  ("Number", Ast.CanToken.number), ("Str", Ast.CanToken.str), ("True", Ast.CanToken.true),
  ("False", Ast.CanToken.false), ("Comment", Ast.CanToken.comment), ("Whitespace", Ast.CanToken.whitespace)]

end Verif.Codegen
