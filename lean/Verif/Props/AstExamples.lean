import Verif.Props.Ast
import Verif.Props.AstMore
import Verif.Props.AstExpr
import Verif.Props.Validation

/-
Programs with nodes of every kind, and programs for which the accessors give wrong answers.
-/
namespace Verif
open Spec Lua

/-- The first node of a kind, in at most `n` levels. -/
def firstOf (k : SyntaxKind) : Nat → Red → Option Red
  | 0, _ => none
  | n + 1, r => if r.kind == k then some r else r.children.findSome? (firstOf k n)

theorem firstOf_below {k : SyntaxKind} {a : Red} : ∀ {n : Nat} {r x : Red}, firstOf k n r = some x → Below a r →
    Below a x ∧ x.kind = k := by
  intro n
  induction n with
  | zero => intro r x h; simp [firstOf] at h
  | succ n ih =>
    intro r x h hr
    simp only [firstOf] at h
    split at h
    · rename_i hk
      simp only [Option.some.injEq] at h
      subst h
      exact ⟨hr, by simpa using hk⟩
    · obtain ⟨c, hc, h⟩ := List.exists_of_findSome?_eq_some h
      exact ih h (.child hr hc)

theorem nodeOf_first {text : Text} {tree : Green} {k : SyntaxKind} {x : Red} (h : parseText text = .ok (tree, []))
    (hx : firstOf k 40 (Red.root tree) = some x) : NodeOf text k x :=
  ⟨tree, h, firstOf_below hx .self⟩

theorem nodeOf_firstD {text : Text} {tree : Green} {k : SyntaxKind} (h : parseText text = .ok (tree, []))
    (hx : (firstOf k 40 (Red.root tree)).isSome = true) :
    NodeOf text k ((firstOf k 40 (Red.root tree)).getD (Red.root (.node .error []))) := by
  obtain ⟨r, hr⟩ := Option.isSome_iff_exists.1 hx
  rw [hr]
  exact nodeOf_first h hr

/-- the tree of `local a,b=1,-2 local c local function f(x,...)return ... end` -/
def program1 : Green :=
  .node .sourceFile [.node .block [.node .localAssignStmt [.token .localKw "local".toList,
  .token .whitespace " ".toList, .node .multiName [.node .name [.token .ident "a".toList],
  .token .comma ",".toList, .node .name [.token .ident "b".toList]], .token .eq "=".toList,
  .node .multivalExpr [.node .literal [.token .number "1".toList], .token .comma ",".toList,
  .node .prefixExpr [.token .minus "-".toList, .node .literal [.token .number "2".toList]]]],
  .token .whitespace " ".toList, .node .localAssignStmt [.token .localKw "local".toList,
  .token .whitespace " ".toList, .node .multiName [.node .name [.token .ident "c".toList]]],
  .token .whitespace " ".toList, .node .localFunctionDefStmt [.token .localKw "local".toList,
  .token .whitespace " ".toList, .token .functionKw "function".toList, .token .whitespace " ".toList,
  .node .name [.token .ident "f".toList], .node .paramList [.token .lParen "(".toList,
  .node .multiName [.node .name [.token .ident "x".toList], .token .comma ",".toList],
  .token .tripleDot "...".toList, .token .rParen ")".toList],
  .node .block [.node .returnStmt [.token .returnKw "return".toList, .token .whitespace " ".toList,
  .node .multivalExpr [.node .literal [.token .tripleDot "...".toList]]]], .token .whitespace " ".toList,
  .token .endKw "end".toList]]]

theorem program1_parses : parseText "local a,b=1,-2 local c local function f(x,...)return ... end".toList = .ok (program1, []) := by
  rw [parseText_eq_eval]; decide +kernel

/-- the tree of `function m.n:o()end function p.q()end function g()end goto l ::l:: break` -/
def program2 : Green :=
  .node .sourceFile [.node .block [.node .functionDefStmt [.token .functionKw "function".toList,
  .token .whitespace " ".toList,
  .node .functionDefContent [.node .functionMethod [.node .indexPath [.node .nameRef [.token .ident "m".toList],
  .token .dot ".".toList, .node .nameRef [.token .ident "n".toList]], .token .colon ":".toList,
  .node .name [.token .ident "o".toList]]], .node .paramList [.token .lParen "(".toList,
  .token .rParen ")".toList], .node .block [], .token .endKw "end".toList], .token .whitespace " ".toList,
  .node .functionDefStmt [.token .functionKw "function".toList, .token .whitespace " ".toList,
  .node .functionDefContent [.node .functionStatic [.node .indexPath [.node .nameRef [.token .ident "p".toList],
  .token .dot ".".toList], .node .name [.token .ident "q".toList]]], .node .paramList [.token .lParen "(".toList,
  .token .rParen ")".toList], .node .block [], .token .endKw "end".toList], .token .whitespace " ".toList,
  .node .functionDefStmt [.token .functionKw "function".toList, .token .whitespace " ".toList,
  .node .functionDefContent [.node .name [.token .ident "g".toList]], .node .paramList [.token .lParen "(".toList,
  .token .rParen ")".toList], .node .block [], .token .endKw "end".toList], .token .whitespace " ".toList,
  .node .gotoStmt [.token .gotoKw "goto".toList, .token .whitespace " ".toList,
  .node .nameRef [.token .ident "l".toList]], .token .whitespace " ".toList,
  .node .labelStmt [.node .labelDelim [.token .doubleColon "::".toList], .node .name [.token .ident "l".toList],
  .node .labelDelim [.token .doubleColon "::".toList]], .token .whitespace " ".toList,
  .node .breakStmt [.token .breakKw "break".toList]]]

theorem program2_parses : parseText "function m.n:o()end function p.q()end function g()end goto l ::l:: break".toList = .ok (program2, []) := by
  rw [parseText_eq_eval]; decide +kernel

/-- the tree of `for i=1,2 do end for k,v in t do end while a do end repeat until b do end` -/
def program3 : Green :=
  .node .sourceFile [.node .block [.node .forStmt [.token .forKw "for".toList, .token .whitespace " ".toList,
  .node .forContent [.node .numericFor [.node .name [.token .ident "i".toList], .token .eq "=".toList,
  .node .multivalExpr [.node .literal [.token .number "1".toList], .token .comma ",".toList,
  .node .literal [.token .number "2".toList]]]], .token .whitespace " ".toList, .token .doKw "do".toList,
  .token .whitespace " ".toList, .node .block [], .token .endKw "end".toList], .token .whitespace " ".toList,
  .node .forStmt [.token .forKw "for".toList, .token .whitespace " ".toList,
  .node .forContent [.node .genericFor [.node .multiName [.node .name [.token .ident "k".toList],
  .token .comma ",".toList, .node .name [.token .ident "v".toList]], .token .whitespace " ".toList,
  .token .inKw "in".toList, .token .whitespace " ".toList, .node .nameRef [.token .ident "t".toList]]],
  .token .whitespace " ".toList, .token .doKw "do".toList, .token .whitespace " ".toList, .node .block [],
  .token .endKw "end".toList], .token .whitespace " ".toList, .node .whileStmt [.token .whileKw "while".toList,
  .token .whitespace " ".toList, .node .nameRef [.token .ident "a".toList], .token .whitespace " ".toList,
  .token .doKw "do".toList, .token .whitespace " ".toList, .node .block [], .token .endKw "end".toList],
  .token .whitespace " ".toList, .node .repeatUntilStmt [.token .repeatKw "repeat".toList,
  .token .whitespace " ".toList, .node .block [], .token .untilKw "until".toList, .token .whitespace " ".toList,
  .node .nameRef [.token .ident "b".toList]], .token .whitespace " ".toList,
  .node .doStmt [.token .doKw "do".toList, .token .whitespace " ".toList, .node .block [],
  .token .endKw "end".toList]]]

theorem program3_parses : parseText "for i=1,2 do end for k,v in t do end while a do end repeat until b do end".toList = .ok (program3, []) := by
  rw [parseText_eq_eval]; decide +kernel

/-- the tree of `if a then elseif b then else end x.y[1]={z=1,[2]=3;4}` -/
def program4 : Green :=
  .node .sourceFile [.node .block [.node .ifStmt [.token .ifKw "if".toList, .token .whitespace " ".toList,
  .node .nameRef [.token .ident "a".toList], .token .whitespace " ".toList, .token .thenKw "then".toList,
  .token .whitespace " ".toList, .node .block [], .node .elseIfBranch [.token .elseifKw "elseif".toList,
  .token .whitespace " ".toList, .node .nameRef [.token .ident "b".toList], .token .whitespace " ".toList,
  .token .thenKw "then".toList, .token .whitespace " ".toList, .node .block [],
  .node .elseBranch [.token .elseKw "else".toList, .token .whitespace " ".toList, .node .block []]],
  .token .endKw "end".toList], .token .whitespace " ".toList,
  .node .assignStmt [.node .multivalExpr [.node .indexExpr [.node .dotExpr [.node .nameRef [.token .ident "x".toList],
  .token .dot ".".toList, .token .ident "y".toList], .node .index [.token .lBracket "[".toList,
  .node .literal [.token .number "1".toList], .token .rBracket "]".toList]]], .token .eq "=".toList,
  .node .multivalExpr [.node .tableExpr [.token .lBrace "{".toList,
  .node .tableContent [.node .keyValue [.node .tableKey [.node .name [.token .ident "z".toList]],
  .token .eq "=".toList, .node .literal [.token .number "1".toList]]], .node .tableSep [.token .comma ",".toList],
  .node .tableContent [.node .keyValue [.node .tableKey [.node .index [.token .lBracket "[".toList,
  .node .literal [.token .number "2".toList], .token .rBracket "]".toList]], .token .eq "=".toList,
  .node .literal [.token .number "3".toList]]], .node .tableSep [.token .semicolon ";".toList],
  .node .tableContent [.node .positionalValue [.node .literal [.token .number "4".toList]]],
  .token .rBrace "}".toList]]]]]

theorem program4_parses : parseText "if a then elseif b then else end x.y[1]={z=1,[2]=3;4}".toList = .ok (program4, []) := by
  rw [parseText_eq_eval]; decide +kernel

/-- the tree of `f(1)"s"{} a:b() return(a)+b` -/
def program5 : Green :=

  .node .sourceFile [.node .block [.node .exprStmt [.node .multivalExpr [.node .callExpr [.node .callExpr [.node .callExpr [.node .nameRef [.token .ident "f".toList],
  .node .callArgs [.node .argList [.token .lParen "(".toList,
  .node .multivalExpr [.node .literal [.token .number "1".toList]], .token .rParen ")".toList]]],
  .node .callArgs [.token .str "\"s\"".toList]], .node .callArgs [.node .tableExpr [.token .lBrace "{".toList,
  .token .rBrace "}".toList]]]]], .token .whitespace " ".toList,
  .node .exprStmt [.node .multivalExpr [.node .methodCallExpr [.node .nameRef [.token .ident "a".toList],
  .token .colon ":".toList, .node .nameRef [.token .ident "b".toList],
  .node .callArgs [.node .argList [.token .lParen "(".toList, .token .rParen ")".toList]]]]],
  .token .whitespace " ".toList, .node .returnStmt [.token .returnKw "return".toList,
  .node .multivalExpr [.node .infixExpr [.node .parenExpr [.token .lParen "(".toList,
  .node .nameRef [.token .ident "a".toList], .token .rParen ")".toList], .token .plus "+".toList,
  .node .nameRef [.token .ident "b".toList]]]]]]

theorem program5_parses : parseText "f(1)\"s\"{} a:b() return(a)+b".toList = .ok (program5, []) := by
  rw [parseText_eq_eval]; decide +kernel

/-- the tree of `x=function(a)end` -/
def program6 : Green :=

  .node .sourceFile [.node .block [.node .assignStmt [.node .multivalExpr [.node .nameRef [.token .ident "x".toList]],
  .token .eq "=".toList, .node .multivalExpr [.node .functionExpr [.token .functionKw "function".toList,
  .node .paramList [.token .lParen "(".toList, .node .multiName [.node .name [.token .ident "a".toList]],
  .token .rParen ")".toList], .node .block [], .token .endKw "end".toList]]]]]

theorem program6_parses : parseText "x=function(a)end".toList = .ok (program6, []) := by
  rw [parseText_eq_eval]; decide +kernel

/-- The kinds of nodes of files without errors. -/
def astKinds : List SyntaxKind :=
  [.sourceFile, .block, .name, .nameRef, .literal, .functionExpr, .tableExpr, .parenExpr, .callExpr,
  .methodCallExpr, .indexExpr, .dotExpr, .prefixExpr, .infixExpr, .multivalExpr, .tableSep, .tableContent,
  .keyValue, .tableKey, .positionalValue, .index, .callArgs, .argList, .multiName, .paramList, .ifStmt,
  .elseIfBranch, .elseBranch, .labelDelim, .labelStmt, .gotoStmt, .breakStmt, .doStmt, .whileStmt,
  .repeatUntilStmt, .localFunctionDefStmt, .localAssignStmt, .exprStmt, .assignStmt, .returnStmt, .functionDefStmt,
  .functionDefContent, .functionMethod, .functionStatic, .indexPath, .forStmt, .forContent, .numericFor,
  .genericFor]

/-- For every kind of node there is a program without errors that has one. -/
theorem astKinds_occur : ∀ k ∈ astKinds, ∃ text r, NodeOf text k r := by
  have hd : ∀ k ∈ astKinds, ∃ t ∈ [program1, program2, program3, program4, program5, program6],
      (firstOf k 40 (Red.root t)).isSome = true := by decide +kernel
  intro k hk
  obtain ⟨t, ht, h⟩ := hd k hk
  obtain ⟨r, hr⟩ := Option.isSome_iff_exists.1 h
  simp only [List.mem_cons, List.not_mem_nil, or_false] at ht
  rcases ht with rfl | rfl | rfl | rfl | rfl | rfl
  · exact ⟨_, r, nodeOf_first program1_parses hr⟩
  · exact ⟨_, r, nodeOf_first program2_parses hr⟩
  · exact ⟨_, r, nodeOf_first program3_parses hr⟩
  · exact ⟨_, r, nodeOf_first program4_parses hr⟩
  · exact ⟨_, r, nodeOf_first program5_parses hr⟩
  · exact ⟨_, r, nodeOf_first program6_parses hr⟩

/-- The list is complete. -/
theorem astKinds_complete (text : Text) (k : SyntaxKind) (r : Red) (h : NodeOf text k r) : k ∈ astKinds := by
  obtain ⟨ss, -, P⟩ := production h
  cases P <;> decide

private def treeC64OperandsFails : Green :=

  .node .sourceFile [.node .block [.node .assignStmt [.node .multivalExpr [.node .nameRef [.token .ident "x".toList]],
  .token .eq "=".toList, .node .multivalExpr [.node .infixExpr [.node .parenExpr [.token .lParen "(".toList,
  .node .nameRef [.token .ident "a".toList], .token .rParen ")".toList], .token .plus "+".toList,
  .node .nameRef [.token .ident "b".toList]]]]]]

/-- **C64 fails**: the left operand of `(a)+b` is reported to be `b`, and the right operand is missing. -/
theorem C64_operands_fails : ∃ r, NodeOf "x=(a)+b".toList .infixExpr r ∧
    (Ast.InfixExpr.lhs r).map (·.green.text) = some ['b'] ∧ (Ast.InfixExpr.rhs r).isNone = true := by
  have h : parseText "x=(a)+b".toList = .ok (treeC64OperandsFails, []) := by rw [parseText_eq_eval]; decide +kernel
  exact ⟨_, nodeOf_firstD h (by decide +kernel), by decide +kernel⟩

private def treeC64PrefixFails : Green :=

  .node .sourceFile [.node .block [.node .assignStmt [.node .multivalExpr [.node .nameRef [.token .ident "x".toList]],
  .token .eq "=".toList, .node .multivalExpr [.node .prefixExpr [.token .minus "-".toList,
  .node .parenExpr [.token .lParen "(".toList, .node .nameRef [.token .ident "a".toList],
  .token .rParen ")".toList]]]]]]

/-- **C64 fails**: `-(a)` has no operand. -/
theorem C64_prefix_fails : ∃ r, NodeOf "x=-(a)".toList .prefixExpr r ∧
    (Ast.PrefixExpr.expr r).isNone = true := by
  have h : parseText "x=-(a)".toList = .ok (treeC64PrefixFails, []) := by rw [parseText_eq_eval]; decide +kernel
  exact ⟨_, nodeOf_firstD h (by decide +kernel), by decide +kernel⟩

private def treeC66ConditionFails : Green :=
  .node .sourceFile [.node .block [.node .whileStmt [.token .whileKw "while".toList,
  .node .parenExpr [.token .lParen "(".toList, .node .nameRef [.token .ident "a".toList],
  .token .rParen ")".toList], .token .doKw "do".toList, .token .whitespace " ".toList, .node .block [],
  .token .endKw "end".toList]]]

/-- **C66 fails**: the condition of `while(a)` is missing. -/
theorem C66_condition_fails : ∃ r, NodeOf "while(a)do end".toList .whileStmt r ∧
    (Ast.WhileStmt.cond r).isNone = true := by
  have h : parseText "while(a)do end".toList = .ok (treeC66ConditionFails, []) := by rw [parseText_eq_eval]; decide +kernel
  exact ⟨_, nodeOf_firstD h (by decide +kernel), by decide +kernel⟩

private def treeC66IndexFails : Green :=

  .node .sourceFile [.node .block [.node .assignStmt [.node .multivalExpr [.node .nameRef [.token .ident "x".toList]],
  .token .eq "=".toList, .node .multivalExpr [.node .indexExpr [.node .parenExpr [.token .lParen "(".toList,
  .node .nameRef [.token .ident "a".toList], .token .rParen ")".toList], .node .index [.token .lBracket "[".toList,
  .node .nameRef [.token .ident "b".toList], .token .rBracket "]".toList]]]]]]

/-- **C66 fails**: in `(a)[b]` the indexed expression is missing. -/
theorem C66_index_fails : ∃ r, NodeOf "x=(a)[b]".toList .indexExpr r ∧
    (Ast.IndexExpr.base r).isNone = true := by
  have h : parseText "x=(a)[b]".toList = .ok (treeC66IndexFails, []) := by rw [parseText_eq_eval]; decide +kernel
  exact ⟨_, nodeOf_firstD h (by decide +kernel), by decide +kernel⟩

private def treeC67DoFails : Green :=
  .node .sourceFile [.node .block [.node .doStmt [.token .doKw "do".toList, .token .whitespace " ".toList,
  .node .block [], .token .endKw "end".toList]]]

/-- **C67 fails**: the statements of a block do not include `do end`. -/
theorem C67_do_fails : ∃ r, NodeOf "do end".toList .block r ∧
    (parts r).length = 1 ∧ (Ast.Block.stmts r).length = 0 := by
  have h : parseText "do end".toList = .ok (treeC67DoFails, []) := by rw [parseText_eq_eval]; decide +kernel
  exact ⟨_, nodeOf_firstD h (by decide +kernel), by decide +kernel⟩

private def treeC69ExprsFails : Green :=
  .node .sourceFile [.node .block [.node .localAssignStmt [.token .localKw "local".toList,
  .token .whitespace " ".toList, .node .multiName [.node .name [.token .ident "x".toList]], .token .eq "=".toList,
  .node .multivalExpr [.node .parenExpr [.token .lParen "(".toList, .node .nameRef [.token .ident "a".toList],
  .token .rParen ")".toList], .token .comma ",".toList, .node .nameRef [.token .ident "b".toList]]]]]

/-- **C69 fails**: the values of `local x=(a),b` do not include `(a)`. -/
theorem C69_exprs_fails : ∃ r, NodeOf "local x=(a),b".toList .multivalExpr r ∧
    (Ast.MultivalExpr.exprs r).map (·.green.text) = [['b']] := by
  have h : parseText "local x=(a),b".toList = .ok (treeC69ExprsFails, []) := by rw [parseText_eq_eval]; decide +kernel
  exact ⟨_, nodeOf_firstD h (by decide +kernel), by decide +kernel⟩

private def treeC71ReceiverFails : Green :=

  .node .sourceFile [.node .block [.node .exprStmt [.node .multivalExpr [.node .methodCallExpr [.node .parenExpr [.token .lParen "(".toList,
  .node .nameRef [.token .ident "a".toList], .token .rParen ")".toList], .token .colon ":".toList,
  .node .nameRef [.token .ident "b".toList], .node .callArgs [.node .argList [.token .lParen "(".toList,
  .token .rParen ")".toList]]]]]]]

/-- **C71 fails**: the receiver of `(a):b()` is reported to be `b`. -/
theorem C71_receiver_fails : ∃ r, NodeOf "(a):b()".toList .methodCallExpr r ∧
    (Ast.MethodCallExpr.fun_ r).map (·.green.text) = some ['b'] := by
  have h : parseText "(a):b()".toList = .ok (treeC71ReceiverFails, []) := by rw [parseText_eq_eval]; decide +kernel
  exact ⟨_, nodeOf_firstD h (by decide +kernel), by decide +kernel⟩

private def treeC71NameFails : Green :=

  .node .sourceFile [.node .block [.node .exprStmt [.node .multivalExpr [.node .methodCallExpr [.node .nameRef [.token .ident "a".toList],
  .token .colon ":".toList, .node .nameRef [.token .ident "b".toList],
  .node .callArgs [.node .argList [.token .lParen "(".toList, .token .rParen ")".toList]]]]]]]

/-- **C71 fails**: the method of `a:b()` is reported to be `a`. -/
theorem C71_name_fails : ∃ r, NodeOf "a:b()".toList .methodCallExpr r ∧
    (Ast.MethodCallExpr.nameRef r).map (·.green.text) = some ['a'] := by
  have h : parseText "a:b()".toList = .ok (treeC71NameFails, []) := by rw [parseText_eq_eval]; decide +kernel
  exact ⟨_, nodeOf_firstD h (by decide +kernel), by decide +kernel⟩

private def treeC73LabelFails : Green :=
  .node .sourceFile [.node .block [.node .labelStmt [.node .labelDelim [.token .doubleColon "::".toList],
  .node .name [.token .ident "l".toList], .node .labelDelim [.token .doubleColon "::".toList]]]]

/-- **C73 fails**: both delimiters of `::l::` are reported to be the first one. -/
theorem C73_label_fails : ∃ r, NodeOf "::l::".toList .labelStmt r ∧
    (Ast.LabelStmt.start r).map (·.range) = some ⟨0, 2⟩ ∧ (Ast.LabelStmt.finish r).map (·.range) = some ⟨0, 2⟩ := by
  have h : parseText "::l::".toList = .ok (treeC73LabelFails, []) := by rw [parseText_eq_eval]; decide +kernel
  exact ⟨_, nodeOf_firstD h (by decide +kernel), by decide +kernel⟩

private def treeC70ValuesFails : Green :=
  .node .sourceFile [.node .block [.node .returnStmt [.token .returnKw "return".toList,
  .token .whitespace " ".toList, .node .multivalExpr [.node .nameRef [.token .ident "a".toList]]]]]

/-- **C70 fails**: the value of `return a` is missing. -/
theorem C70_values_fails : ∃ r, NodeOf "return a".toList .returnStmt r ∧
    (Ast.ReturnStmt.expr r).isNone = true := by
  have h : parseText "return a".toList = .ok (treeC70ValuesFails, []) := by rw [parseText_eq_eval]; decide +kernel
  exact ⟨_, nodeOf_firstD h (by decide +kernel), by decide +kernel⟩

private def treeGoto : Green :=
  .node .sourceFile [.node .block [.node .gotoStmt [.token .gotoKw "goto".toList, .node .nameRef []]]]

/-- **C63 fails** for uses of names after a syntax error: `NameRef::text` panics on the tree of `goto`. -/
theorem C63_nameRef_fails : ∃ tree errors r, parseText "goto".toList = .ok (tree, errors) ∧ Below (Red.root tree) r ∧
    r.kind = .nameRef ∧ Ast.NameRef.text r = none := by
  refine ⟨treeGoto, [⟨"Expected Ident, got Eof", ⟨4, 4⟩⟩], (firstOf .nameRef 40 (Red.root treeGoto)).getD (Red.root (.node .error [])), ?_, ?_, ?_⟩
  · rw [parseText_eq_eval]; decide +kernel
  · obtain ⟨r, hr⟩ := Option.isSome_iff_exists.1
      (show (firstOf .nameRef 40 (Red.root treeGoto)).isSome = true by decide +kernel)
    rw [hr]
    exact (firstOf_below hr .self).1
  · decide +kernel

end Verif
