import Verif.Spec.PTree

/-
Declarative grammar of the Lua dialect lua-analyzer supports, written against the documented grammar
xtask/assets/lua.ungram and the tree shapes it names.  No parser code is used here.

`Deriv x nt ts` : the list of trees `ts` is a derivation of the nonterminal `nt` in the dialect `x`.
The dialects share all rules but three: rules marked `x = .accepted` are not Lua and not in lua.ungram
(programs the parser accepts silently), the rule marked `x = .documented` is in lua.ungram but the parser
does not support it.
-/
namespace Verif
namespace Lua
open PTree

/-- Tokens that are a literal on their own. -/
def literalKinds : List SyntaxKind := [.trueKw, .falseKw, .number, .str, .nilKw, .tripleDot]

/-- Unary operators. -/
def unaryOps : List SyntaxKind := [.notKw, .hash, .minus]

/-- Binary operators with their level in lua-analyzer: a higher level binds tighter. -/
def level : SyntaxKind → Nat
  | .orKw => 1 | .andKw => 2
  | .lt => 3 | .gt => 4 | .ltEq => 5 | .gtEq => 6 | .notEq => 7 | .eqEq => 8
  | .doubleDot => 9
  | .plus => 10 | .minus => 11
  | .asterisk => 12 | .slash => 13 | .modulo => 14
  | .caret => 16
  | _ => 0

/-- The level of the unary operators: between the multiplicative operators and `^`. -/
def unaryLevel : Nat := 15

/-- Right associative binary operators. -/
def rightAssoc (k : SyntaxKind) : Bool := k = .doubleDot || k = .caret

/-- Binary operators. -/
def isBinary (k : SyntaxKind) : Prop := level k ≠ 0

/-- The binary operators exposed on the left edge of an expression tree. -/
def leftOps : PTree → List SyntaxKind
  | .node .infixExpr (l :: .tok op :: _) => op :: leftOps l
  | _ => []

/-- The levels of the operators (binary or unary) exposed on the right edge of an expression tree. -/
def rightLevels : PTree → List Nat
  | .node .infixExpr [_, .tok op, r] => level op :: rightLevels r
  | .node .prefixExpr [.tok _, e] => unaryLevel :: rightLevels e
  | _ => []

/-- Kind of the root of a tree (tokens and errors have none). -/
def kindOf : PTree → Option SyntaxKind
  | .node k _ => some k
  | _ => none

/-- An expression that can be indexed as it stands. -/
def indexable (t : PTree) : Prop := kindOf t ≠ some .infixExpr ∧ kindOf t ≠ some .prefixExpr
/-- An expression that can be called as it stands: also not a literal. -/
def callable (t : PTree) : Prop := indexable t ∧ kindOf t ≠ some .literal

/-- Nodes whose last child is an expression (or a node ending in one). -/
def endsInExpr : List SyntaxKind :=
  [.infixExpr, .prefixExpr, .multivalExpr, .assignStmt, .exprStmt, .localAssignStmt, .returnStmt,
   .repeatUntilStmt]

/-- Expression nodes that can be called as they stand. -/
def callableKinds : List SyntaxKind :=
  [.nameRef, .parenExpr, .functionExpr, .tableExpr, .callExpr, .indexExpr, .methodCallExpr, .dotExpr]

mutual
/-- The tree ends in an expression that could be called, so that a following `(` would be read as its
arguments. -/
def endsCallable : PTree → Bool
  | .node k cs => if k ∈ endsInExpr then endsCallableL cs else decide (k ∈ callableKinds)
  | _ => false
/-- The last tree of the list ends so. -/
def endsCallableL : List PTree → Bool
  | [] => false
  | [t] => endsCallable t
  | _ :: t :: ts => endsCallableL (t :: ts)
end

/-- Tokens an expression can start with. -/
def exprFirst : List SyntaxKind :=
  [.notKw, .hash, .minus, .functionKw, .lBrace, .ident, .lParen] ++ literalKinds

/-- Statement `s` may be directly followed by the token `k`: a `(` must not be readable as call
arguments of `s`, and an expression after an empty `return` would be its value. -/
def mayFollow (s : PTree) (k : SyntaxKind) : Prop :=
  (k = .lParen → endsCallable s = false) ∧
  (s = .node .returnStmt [.tok .returnKw] → k ∉ exprFirst)

abbrev nameT : PTree := .node .name [.tok .ident]
abbrev nameRefT : PTree := .node .nameRef [.tok .ident]

/-- Expression statements and assignments start with a name or `(`. -/
def startsStmt (m : PTree) : Prop :=
  (yield m).head? = some .ident ∨ (yield m).head? = some .lParen

/-- Nonterminals. -/
inductive NT where
  | expr | exprTail | multival | tableItems | tableContent | index | callArgs
  | nameTail | params | block | stmts | stmt | elseOpt | pathTail | funcName | forContent

/-- Dialects: what lua.ungram documents, what the parser accepts, and what is common to both. -/
inductive Dialect where
  | documented | accepted | core
  deriving DecidableEq

/-- Derivations. -/
inductive Deriv (x : Dialect) : NT → List PTree → Prop where
  -- expressions
  | nameRef : Deriv x .expr [nameRefT]
  | literal (k) : k ∈ literalKinds → Deriv x .expr [.node .literal [.tok k]]
  | function (p b) : Deriv x .params [p] → Deriv x .block [b] →
      Deriv x .expr [.node .functionExpr [.tok .functionKw, p, b, .tok .endKw]]
  | table (ts) : Deriv x .tableItems ts →
      Deriv x .expr [.node .tableExpr (.tok .lBrace :: (ts ++ [.tok .rBrace]))]
  | paren (e) : Deriv x .expr [e] →
      Deriv x .expr [.node .parenExpr [.tok .lParen, e, .tok .rParen]]
  | call (f a) : Deriv x .expr [f] → callable f → Deriv x .callArgs [a] →
      Deriv x .expr [.node .callExpr [f, a]]
  | method (f a) : Deriv x .expr [f] → callable f → Deriv x .callArgs [a] →
      Deriv x .expr [.node .methodCallExpr [f, .tok .colon, nameRefT, a]]
  | indexE (f i) : Deriv x .expr [f] → indexable f → Deriv x .index [i] →
      Deriv x .expr [.node .indexExpr [f, i]]
  | dot (f) : Deriv x .expr [f] → indexable f →
      Deriv x .expr [.node .dotExpr [f, .tok .dot, .tok .ident]]
  | prefix (op e) : op ∈ unaryOps → Deriv x .expr [e] → (∀ q ∈ leftOps e, unaryLevel < level q) →
      Deriv x .expr [.node .prefixExpr [.tok op, e]]
  | infix (op l r) : isBinary op → Deriv x .expr [l] → Deriv x .expr [r] →
      (∀ p ∈ rightLevels l, level op < p ∨ (level op = p ∧ rightAssoc op = false)) →
      (∀ p ∈ leftOps r, level op < level p ∨ (level op = level p ∧ rightAssoc op = true)) →
      Deriv x .expr [.node .infixExpr [l, .tok op, r]]
  -- expression lists
  | tailNil : Deriv x .exprTail []
  | tailCons (e ts) : Deriv x .expr [e] → Deriv x .exprTail ts →
      Deriv x .exprTail (.tok .comma :: e :: ts)
  | multival (e ts) : Deriv x .expr [e] → Deriv x .exprTail ts →
      Deriv x .multival [.node .multivalExpr (e :: ts)]
  -- table constructors
  | itemsNil : Deriv x .tableItems []
  | itemsLast (c) : Deriv x .tableContent [c] → Deriv x .tableItems [c]
  | itemsCons (c sep ts) : Deriv x .tableContent [c] → sep ∈ [SyntaxKind.comma, .semicolon] →
      Deriv x .tableItems ts → Deriv x .tableItems (c :: .node .tableSep [.tok sep] :: ts)
  | namedField (e) : Deriv x .expr [e] →
      Deriv x .tableContent [.node .tableContent
        [.node .keyValue [.node .tableKey [nameT], .tok .eq, e]]]
  | indexedField (i e) : Deriv x .index [i] → Deriv x .expr [e] →
      Deriv x .tableContent [.node .tableContent
        [.node .keyValue [.node .tableKey [i], .tok .eq, e]]]
  | positional (e) : Deriv x .expr [e] →
      Deriv x .tableContent [.node .tableContent [.node .positionalValue [e]]]
  | index (e) : Deriv x .expr [e] →
      Deriv x .index [.node .index [.tok .lBracket, e, .tok .rBracket]]
  -- call arguments
  | argsEmpty : Deriv x .callArgs [.node .callArgs [.node .argList [.tok .lParen, .tok .rParen]]]
  | args (m) : Deriv x .multival [m] →
      Deriv x .callArgs [.node .callArgs [.node .argList [.tok .lParen, m, .tok .rParen]]]
  | argsTable (ts) : Deriv x .tableItems ts →
      Deriv x .callArgs
        [.node .callArgs [.node .tableExpr (.tok .lBrace :: (ts ++ [.tok .rBrace]))]]
  | argsStr : Deriv x .callArgs [.node .callArgs [.tok .str]]
  -- names and parameters
  | nameTailNil : Deriv x .nameTail []
  | nameTailCons (ts) : Deriv x .nameTail ts → Deriv x .nameTail (.tok .comma :: nameT :: ts)
  | paramsEmpty : Deriv x .params [.node .paramList [.tok .lParen, .tok .rParen]]
  | paramsNames (ts) : Deriv x .nameTail ts →
      Deriv x .params [.node .paramList [.tok .lParen, .node .multiName (nameT :: ts), .tok .rParen]]
  | paramsVararg : Deriv x .params
      [.node .paramList [.tok .lParen, .node .multiName [], .tok .tripleDot, .tok .rParen]]
  | paramsNamesVararg (ts) : Deriv x .nameTail ts →
      Deriv x .params [.node .paramList
        [.tok .lParen, .node .multiName (nameT :: (ts ++ [.tok .comma])), .tok .tripleDot,
          .tok .rParen]]
  /-- `function f(a ...)`: the missing comma goes unnoticed -/
  | paramsNoComma (ts) : x = .accepted → Deriv x .nameTail ts →
      Deriv x .params [.node .paramList
        [.tok .lParen, .node .multiName (nameT :: ts), .tok .tripleDot, .tok .rParen]]
  -- blocks
  | block (ts) : Deriv x .stmts ts → Deriv x .block [.node .block ts]
  | stmtsNil : Deriv x .stmts []
  | stmtsCons (s ts) : Deriv x .stmt [s] → Deriv x .stmts ts →
      (∀ k, (yieldL ts).head? = some k → mayFollow s k) → Deriv x .stmts (s :: ts)
  | stmtsSemi (s ts) : Deriv x .stmt [s] → Deriv x .stmts ts →
      Deriv x .stmts (s :: .tok .semicolon :: ts)
  -- statements
  | ifStmt (e b es) : Deriv x .expr [e] → Deriv x .block [b] → Deriv x .elseOpt es →
      Deriv x .stmt [.node .ifStmt
        (.tok .ifKw :: e :: .tok .thenKw :: b :: (es ++ [.tok .endKw]))]
  | elseNone : Deriv x .elseOpt []
  | elseBranch (b) : Deriv x .block [b] → Deriv x .elseOpt [.node .elseBranch [.tok .elseKw, b]]
  | elseIf (e b es) : Deriv x .expr [e] → Deriv x .block [b] → Deriv x .elseOpt es →
      Deriv x .elseOpt [.node .elseIfBranch (.tok .elseifKw :: e :: .tok .thenKw :: b :: es)]
  | label : Deriv x .stmt [.node .labelStmt
      [.node .labelDelim [.tok .doubleColon], nameT, .node .labelDelim [.tok .doubleColon]]]
  | goto : Deriv x .stmt [.node .gotoStmt [.tok .gotoKw, nameRefT]]
  | break : Deriv x .stmt [.node .breakStmt [.tok .breakKw]]
  | doStmt (b) : Deriv x .block [b] →
      Deriv x .stmt [.node .doStmt [.tok .doKw, b, .tok .endKw]]
  | while (e b) : Deriv x .expr [e] → Deriv x .block [b] →
      Deriv x .stmt [.node .whileStmt [.tok .whileKw, e, .tok .doKw, b, .tok .endKw]]
  | repeat (b e) : Deriv x .block [b] → Deriv x .expr [e] →
      Deriv x .stmt [.node .repeatUntilStmt [.tok .repeatKw, b, .tok .untilKw, e]]
  | localFunction (p b) : Deriv x .params [p] → Deriv x .block [b] →
      Deriv x .stmt [.node .localFunctionDefStmt
        [.tok .localKw, .tok .functionKw, nameT, p, b, .tok .endKw]]
  | localNames (ts) : Deriv x .nameTail ts →
      Deriv x .stmt [.node .localAssignStmt [.tok .localKw, .node .multiName (nameT :: ts)]]
  | localAssign (ts m) : Deriv x .nameTail ts → Deriv x .multival [m] →
      Deriv x .stmt [.node .localAssignStmt
        [.tok .localKw, .node .multiName (nameT :: ts), .tok .eq, m]]
  | exprStmt (m) : Deriv x .multival [m] → startsStmt m →
      Deriv x .stmt [.node .exprStmt [m]]
  | assign (m m') : Deriv x .multival [m] → startsStmt m → Deriv x .multival [m'] →
      Deriv x .stmt [.node .assignStmt [m, .tok .eq, m']]
  | returnNone : Deriv x .stmt [.node .returnStmt [.tok .returnKw]]
  | return (m) : Deriv x .multival [m] → Deriv x .stmt [.node .returnStmt [.tok .returnKw, m]]
  | function_ (n p b) : Deriv x .funcName [n] → Deriv x .params [p] → Deriv x .block [b] →
      Deriv x .stmt [.node .functionDefStmt [.tok .functionKw, n, p, b, .tok .endKw]]
  | pathNil : Deriv x .pathTail []
  | pathCons (ts) : Deriv x .pathTail ts → Deriv x .pathTail (.tok .dot :: nameRefT :: ts)
  | plainName : Deriv x .funcName [.node .functionDefContent [nameT]]
  | methodName (ts) : Deriv x .pathTail ts →
      Deriv x .funcName [.node .functionDefContent
        [.node .functionMethod [.node .indexPath (nameRefT :: ts), .tok .colon, nameT]]]
  | staticName (ts) : Deriv x .pathTail ts →
      Deriv x .funcName [.node .functionDefContent
        [.node .functionStatic [.node .indexPath (nameRefT :: (ts ++ [.tok .dot])), nameT]]]
  /-- `function a.b c() end`: the missing dot goes unnoticed -/
  | staticNoDot (ts) : x = .accepted → Deriv x .pathTail ts →
      Deriv x .funcName [.node .functionDefContent
        [.node .functionStatic [.node .indexPath (nameRefT :: ts), nameT]]]
  | forStmt (c b) : Deriv x .forContent [c] → Deriv x .block [b] →
      Deriv x .stmt [.node .forStmt [.tok .forKw, c, .tok .doKw, b, .tok .endKw]]
  | numericFor (m) : Deriv x .multival [m] →
      Deriv x .forContent [.node .forContent [.node .numericFor [nameT, .tok .eq, m]]]
  | genericFor (ts e) : Deriv x .nameTail ts → Deriv x .expr [e] →
      Deriv x .forContent [.node .forContent
        [.node .genericFor [.node .multiName (nameT :: ts), .tok .inKw, e]]]
  /-- `for k, v in next, t do end`: an expression list after `in` -/
  | genericForList (ts m) : x = .documented → Deriv x .nameTail ts → Deriv x .multival [m] →
      Deriv x .forContent [.node .forContent
        [.node .genericFor [.node .multiName (nameT :: ts), .tok .inKw, m]]]

/-- A whole file. -/
def Program (x : Dialect) (t : PTree) : Prop :=
  ∃ b, t = .node .sourceFile [b] ∧ Deriv x .block [b]

end Lua
end Verif
