import Verif.Model.Parser
import Verif.Model.BindingPowers

/-
Model of crates/parser/src/grammar.rs, grammar/expressions.rs and grammar/statements.rs, function by
function.

The Rust functions are mutually recursive.  Every recursion cycle passes through `expr_bp` or `block`,
so the other functions are written with these two as a parameter (`Rec`); `recN` ties the knot with
fuel.  Loops take their own fuel.  Running out of fuel is `Prog.outOfFuel`; the theorems show that it
does not happen.
-/
namespace Verif
namespace Grammar
open P

/-- The two functions all recursion goes through. -/
structure Rec where
  /-- `expr_bp(p, min_bp)` -/
  exprBp : Nat → Prog (Option Nat)
  /-- `block(p)` -/
  block : Prog Unit

/-! ### Token sets -/

/-- statements.rs:12, `STMT_RECOVERY`. -/
def STMT_RECOVERY : TokenSet := TokenSet.new [.functionKw, .doKw, .doubleColon]
/-- expressions.rs:10, `EXPR_RECOVERY_SET`. -/
def EXPR_RECOVERY_SET : TokenSet := TokenSet.new [.localKw]
/-- expressions.rs:225, `LITERAL_FIRST`. -/
def LITERAL_FIRST : TokenSet := TokenSet.new [.trueKw, .falseKw, .number, .str, .nilKw, .tripleDot]
/-- expressions.rs:164, `ATOM_EXPR_FIRST`. -/
def ATOM_EXPR_FIRST : TokenSet :=
  (TokenSet.new [.functionKw, .lBrace, .ident, .lParen]).union LITERAL_FIRST
/-- expressions.rs:149, `LHS_FIRST`. -/
def LHS_FIRST : TokenSet := (TokenSet.new [.notKw, .hash, .minus]).union ATOM_EXPR_FIRST
/-- expressions.rs:105, `EXPR_FIRST`. -/
def EXPR_FIRST : TokenSet := LHS_FIRST
/-- expressions.rs:200, `CALL_FIRST`. -/
def CALL_FIRST : TokenSet := TokenSet.new [.lBrace, .lParen, .str]
/-- expressions.rs:234, `TABLE_SEP`. -/
def TABLE_SEP : TokenSet := TokenSet.new [.comma, .semicolon]
/-- expressions.rs:242, `TABLE_RECOVERY`. -/
def TABLE_RECOVERY : TokenSet := (TokenSet.new [.rBrace, .lBracket]).union TABLE_SEP
/-- expressions.rs:249, `END` of `table_expr`. -/
def TABLE_END : TokenSet := TokenSet.new [.eof, .endKw, .rBrace]
/-- grammar.rs:123, `END` of `param_list`. -/
def PARAM_END : TokenSet := TokenSet.new [.rParen, .eof]
/-- grammar.rs:117, the end set of `block`. -/
def BLOCK_END : TokenSet := TokenSet.new [.eof, .endKw, .elseifKw, .elseKw, .untilKw]
/-- grammar.rs:113, the end set of `root_block`. -/
def ROOT_END : TokenSet := TokenSet.new [.eof]

/-! ### grammar.rs -/

/-- grammar.rs:68-72, `name_unchecked`. -/
def nameUnchecked : Prog Nat := do
  let m ← start
  bump .ident
  complete m .name

/-- grammar.rs:59-66, `name_r` (the returned marker is never used). -/
def nameR (recovery : TokenSet) : Prog Unit := do
  if ← atK .ident then
    let _ ← nameUnchecked
    return ()
  else
    errRecover "expected a name" recovery

/-- grammar.rs:74-78, `name_ref_unchecked`. -/
def nameRefUnchecked : Prog Nat := do
  let m ← start
  bump .ident
  complete m .nameRef

/-- grammar.rs:80-86, `name_ref_r`. -/
def nameRefR (recovery : TokenSet) : Prog Unit := do
  if ← atK .ident then
    let _ ← nameRefUnchecked
    return ()
  else
    errRecover "expected a name referencer" recovery

/-- grammar.rs:88-92, `name_ref`. -/
def nameRef : Prog Nat := do
  let m ← start
  let _ ← expect .ident
  complete m .nameRef

/-- grammar.rs:94-102, `name`. -/
def name : Prog Unit := do
  if ← atK .ident then
    let m ← start
    bump .ident
    let _ ← complete m .name
    return ()
  else
    error "expected a name"

/-- grammar.rs:47-55, the loop of `multi_name_r`. -/
def multiNameRLoop (recovery : TokenSet) (vararg : Bool) : Nat → Prog Unit
  | 0 => .outOfFuel
  | n + 1 => do
    if ← atK .comma then
      bump .comma
      if vararg && (← atK .tripleDot) then
        return ()
      else
        nameR recovery
        multiNameRLoop recovery vararg n
    else
      return ()

/-- grammar.rs:36-57, `multi_name_r`. -/
def multiNameR (fuel : Nat) (recovery : TokenSet) (vararg : Bool) : Prog Unit := do
  let recovery := recovery.union (TokenSet.new [.comma])
  let m ← start
  if vararg && (← atK .tripleDot) then
    let _ ← complete m .multiName
    return ()
  else
    nameR recovery
    multiNameRLoop recovery vararg fuel
    let _ ← complete m .multiName
    return ()

/-- grammar.rs:122-142, `param_list`. -/
def paramList (fuel : Nat) : Prog Nat := do
  let m ← start
  let _ ← expect .lParen
  if !(← atTs PARAM_END) then
    multiNameR fuel STMT_RECOVERY true
  if ← atK .tripleDot then
    bump .tripleDot
    if !(← atK .rParen) then
      errAndBump "Nothing can be after a vararg"
  let _ ← expect .rParen
  complete m .paramList

/-! ### grammar/expressions.rs -/

/-- expressions.rs:125-127, `expr_single`. -/
def exprSingle (r : Rec) : Prog (Option Nat) := r.exprBp BindingPowers.lowest

/-- expressions.rs:116-120, the loop of `expr_multi`. -/
def exprMultiLoop (r : Rec) : Nat → Prog Unit
  | 0 => .outOfFuel
  | n + 1 => do
    if ← atK .comma then
      bump .comma
      let _ ← exprSingle r
      exprMultiLoop r n
    else
      return ()

/-- expressions.rs:107-123, `expr` / `expr_multi`. -/
def expr (r : Rec) (fuel : Nat) : Prog Nat := do
  let m ← start
  let _ ← exprSingle r
  exprMultiLoop r fuel
  complete m .multivalExpr

/-- expressions.rs:397-403, `index`. -/
def index (r : Rec) : Prog Nat := do
  let m ← start
  bump .lBracket
  let _ ← exprSingle r
  let _ ← expect .rBracket
  complete m .index

/-- expressions.rs:236-240, `table_sep`. -/
def tableSep : Prog Nat := do
  let m ← start
  bumpTs TABLE_SEP
  complete m .tableSep

/-- expressions.rs:272-274, `table_correct`. -/
def tableCorrect (fuel : Nat) : Prog Unit :=
  errUntil fuel "Failed to find comma or closing bracket" TABLE_RECOVERY

/-- expressions.rs:276-321, `table_content`. -/
def tableContent (r : Rec) : Prog Nat := do
  let m ← start
  let c ← current
  if c == .ident then
    if (← nth 1) == .eq then
      let m1 ← start
      let m2 ← start
      let _ ← nameUnchecked
      let _ ← complete m2 .tableKey
      bump .eq
      let _ ← exprSingle r
      let _ ← complete m1 .keyValue
    else
      let m1 ← start
      let _ ← exprSingle r
      let _ ← complete m1 .positionalValue
  else if c == .lBracket then
    let m1 ← start
    let m2 ← start
    let _ ← index r
    let _ ← complete m2 .tableKey
    let _ ← expect .eq
    let _ ← exprSingle r
    let _ ← complete m1 .keyValue
  else if ← atTs EXPR_FIRST then
    let m1 ← start
    let _ ← exprSingle r
    let _ ← complete m1 .positionalValue
  else
    error "Expected an expression"
  complete m .tableContent

/-- expressions.rs:255-265, the inner loop of `table_expr`. -/
def tableInnerLoop (fuel0 : Nat) : Nat → Prog Unit
  | 0 => .outOfFuel
  | n + 1 => do
    if !(← atTs TABLE_END) then
      if ← atTs TABLE_SEP then
        let _ ← tableSep
        return ()
      else if ← atTs TABLE_RECOVERY then
        return ()
      else
        tableCorrect fuel0
        tableInnerLoop fuel0 n
    else
      return ()

/-- expressions.rs:252-266, the outer loop of `table_expr`. -/
def tableLoop (r : Rec) (fuel0 : Nat) : Nat → Prog Unit
  | 0 => .outOfFuel
  | n + 1 => do
    if !(← atTs TABLE_END) then
      let _ ← tableContent r
      tableInnerLoop fuel0 fuel0
      tableLoop r fuel0 n
    else
      return ()

/-- expressions.rs:244-270, `table_expr`. -/
def tableExpr (r : Rec) (fuel : Nat) : Prog Nat := do
  let m ← start
  bump .lBrace
  tableLoop r fuel fuel
  let _ ← expect .rBrace
  complete m .tableExpr

/-- expressions.rs:323-330, `function_expr`. -/
def functionExpr (r : Rec) (fuel : Nat) : Prog Nat := do
  let m ← start
  bump .functionKw
  let _ ← paramList fuel
  r.block
  let _ ← expect .endKw
  complete m .functionExpr

/-- expressions.rs:359-370, `arg_list`. -/
def argList (r : Rec) (fuel : Nat) : Prog Nat := do
  let m ← start
  bump .lParen
  if !(← atK .rParen) then
    let _ ← expr r fuel
  let _ ← expect .rParen
  complete m .argList

/-- expressions.rs:338-357, `call_args`. -/
def callArgs (r : Rec) (fuel : Nat) : Prog Nat := do
  if !(← atTs CALL_FIRST) then .panic else
  let m ← start
  let c ← current
  if c == .lParen then
    let _ ← argList r fuel
  else if c == .lBrace then
    let _ ← tableExpr r fuel
  else if c == .str then
    bumpAny
  else
    .panic
  complete m .callArgs

/-- expressions.rs:332-336, `call_expr`. -/
def callExpr (r : Rec) (fuel : Nat) (lhs : Nat) : Prog Nat := do
  let m ← precede lhs
  let _ ← callArgs r fuel
  complete m .callExpr

/-- expressions.rs:372-376, `index_expr`. -/
def indexExpr (r : Rec) (lhs : Nat) : Prog Nat := do
  let m ← precede lhs
  let _ ← index r
  complete m .indexExpr

/-- expressions.rs:378-388, `method_call_expr`. -/
def methodCallExpr (r : Rec) (fuel : Nat) (lhs : Nat) : Prog Nat := do
  let m ← precede lhs
  bump .colon
  let _ ← nameRef
  if ← atTs CALL_FIRST then
    let _ ← callArgs r fuel
  else
    error "Expected call arguments"
  complete m .methodCallExpr

/-- expressions.rs:390-395, `dot_expr`. -/
def dotExpr (lhs : Nat) : Prog Nat := do
  let m ← precede lhs
  bump .dot
  let _ ← expect .ident
  complete m .dotExpr

/-- expressions.rs:202-215, `postfix_expr` (the `loop`). -/
def postfixExpr (r : Rec) (fuel0 : Nat) : Nat → Nat → Bool → Prog Nat
  | 0, _, _ => .outOfFuel
  | n + 1, lhs, canCall => do
    let c ← current
    if canCall && (← atTs CALL_FIRST) then
      let lhs ← callExpr r fuel0 lhs
      postfixExpr r fuel0 n lhs true
    else if c == .colon && canCall then
      let lhs ← methodCallExpr r fuel0 lhs
      postfixExpr r fuel0 n lhs true
    else if c == .lBracket then
      let lhs ← indexExpr r lhs
      postfixExpr r fuel0 n lhs true
    else if c == .dot then
      let lhs ← dotExpr lhs
      postfixExpr r fuel0 n lhs true
    else
      return lhs

/-- expressions.rs:217-223, `paren_expr`. -/
def parenExpr (r : Rec) : Prog Nat := do
  let m ← start
  let _ ← expect .lParen
  let _ ← r.exprBp BindingPowers.lowest
  let _ ← expect .rParen
  complete m .parenExpr

/-- expressions.rs:227-232, `literal`. -/
def literal : Prog (Option Nat) := do
  if !(← atTs LITERAL_FIRST) then .panic else
  let m ← start
  bumpAny
  return some (← complete m .literal)

/-- expressions.rs:192-198, `prefix_expr`: on `None` the `?` returns while `m` is unfinished, so its
`DropBomb` panics. -/
def prefixExpr (r : Rec) (rBp : Nat) : Prog (Option Nat) := do
  let m ← start
  bumpAny
  match ← r.exprBp rBp with
  | none => .panic
  | some _ => return some (← complete m .prefixExpr)

/-- expressions.rs:167-190, `atom_expr`. -/
def atomExpr (r : Rec) (fuel : Nat) : Prog (Option (Nat × Bool)) := do
  let rBp := prefixBindingPower (← current)
  if rBp > 0 then
    match ← prefixExpr r rBp with
    | none => return none
    | some c => return some (c, false)
  else if ← atTs LITERAL_FIRST then
    return (← literal).map (·, false)
  else
    let c ← current
    if c == .functionKw then
      return some (← functionExpr r fuel, true)
    else if c == .lBrace then
      return some (← tableExpr r fuel, true)
    else if c == .ident then
      return some (← nameRef, true)
    else if c == .lParen then
      return some (← parenExpr r, true)
    else
      errRecover "Expected an expression" EXPR_RECOVERY_SET
      return none

/-- expressions.rs:151-162, `lhs`. -/
def lhs (r : Rec) (fuel : Nat) : Prog (Option Nat) := do
  let rBp := prefixBindingPower (← current)
  if rBp > 0 then
    let m ← start
    bumpAny
    let _ ← r.exprBp rBp
    return some (← complete m .prefixExpr)
  else
    match ← atomExpr r fuel with
    | none => return none
    | some (l, canCall) => return some (← postfixExpr r fuel fuel l canCall)

/-- expressions.rs:132-146, the `loop` of `expr_bp`. -/
def exprBpLoop (r : Rec) (minBp : Nat) : Nat → Nat → Prog Nat
  | 0, _ => .outOfFuel
  | n + 1, l => do
    let bp := infixBindingPower (← current)
    if bp.1 < minBp then
      return l
    else
      bumpAny
      let m ← precede l
      let _ ← r.exprBp bp.2
      let l' ← complete m .infixExpr
      exprBpLoop r minBp n l'

/-- expressions.rs:129-147, `expr_bp`. -/
def exprBp (r : Rec) (fuel : Nat) (minBp : Nat) : Prog (Option Nat) := do
  match ← lhs r fuel with
  | none => return none
  | some l => return some (← exprBpLoop r minBp fuel l)

/-! ### grammar/statements.rs -/

/-- statements.rs:111-116, `else_branch`. -/
def elseBranch (r : Rec) : Prog Nat := do
  let m ← start
  bump .elseKw
  r.block
  complete m .elseBranch

/-- statements.rs:93-109, `elseif_branch`. -/
def elseifBranch (r : Rec) : Nat → Prog Nat
  | 0 => .outOfFuel
  | n + 1 => do
    let m ← start
    bump .elseifKw
    let _ ← exprSingle r
    let _ ← expect .thenKw
    r.block
    let c ← current
    if c == .elseifKw then
      let _ ← elseifBranch r n
    else if c == .elseKw then
      let _ ← elseBranch r
    complete m .elseIfBranch

/-- statements.rs:74-91, `if_stmt`. -/
def ifStmt (r : Rec) (fuel : Nat) : Prog Nat := do
  let m ← start
  bump .ifKw
  let _ ← exprSingle r
  let _ ← expect .thenKw
  r.block
  let c ← current
  if c == .elseifKw then
    let _ ← elseifBranch r fuel
  else if c == .elseKw then
    let _ ← elseBranch r
  let _ ← expect .endKw
  complete m .ifStmt

/-- statements.rs:118-123, `goto_stmt`. -/
def gotoStmt : Prog Nat := do
  let m ← start
  bump .gotoKw
  let _ ← nameRef
  complete m .gotoStmt

/-- statements.rs:134-138, `label_delim`. -/
def labelDelim : Prog Nat := do
  let m ← start
  let _ ← expect .doubleColon
  complete m .labelDelim

/-- statements.rs:125-132, `label_stmt`. -/
def labelStmt : Prog Nat := do
  if !(← atK .doubleColon) then .panic else
  let m ← start
  let _ ← labelDelim
  nameR STMT_RECOVERY
  let _ ← labelDelim
  complete m .labelStmt

/-- statements.rs:140-148, `while_stmt`. -/
def whileStmt (r : Rec) : Prog Nat := do
  let m ← start
  bump .whileKw
  let _ ← exprSingle r
  let _ ← expect .doKw
  r.block
  let _ ← expect .endKw
  complete m .whileStmt

/-- statements.rs:174-181, `generic_for`. -/
def genericFor (r : Rec) (fuel : Nat) : Prog Nat := do
  if !(← atK .ident) then .panic else
  let m ← start
  multiNameR fuel STMT_RECOVERY false
  let _ ← expect .inKw
  let _ ← exprSingle r
  complete m .genericFor

/-- statements.rs:183-190, `numeric_for`. -/
def numericFor (r : Rec) (fuel : Nat) : Prog Nat := do
  if !(← atK .ident) then .panic else
  let m ← start
  name
  bump .eq
  let _ ← expr r fuel
  complete m .numericFor

/-- statements.rs:160-172, `for_content`. -/
def forContent (r : Rec) (fuel : Nat) : Prog Nat := do
  let m ← start
  if ← atK .ident then
    if (← nth 1) == .eq then
      let _ ← numericFor r fuel
    else
      let _ ← genericFor r fuel
  else
    error "Expected an identifier"
  complete m .forContent

/-- statements.rs:150-158, `for_stmt`. -/
def forStmt (r : Rec) (fuel : Nat) : Prog Nat := do
  let m ← start
  bump .forKw
  let _ ← forContent r fuel
  let _ ← expect .doKw
  r.block
  let _ ← expect .endKw
  complete m .forStmt

/-- statements.rs:192-199, `repeat_until_stmt`. -/
def repeatUntilStmt (r : Rec) : Prog Nat := do
  let m ← start
  bump .repeatKw
  r.block
  let _ ← expect .untilKw
  let _ ← exprSingle r
  complete m .repeatUntilStmt

/-- statements.rs:201-205, `break_stmt`. -/
def breakStmt : Prog Nat := do
  let m ← start
  bump .breakKw
  complete m .breakStmt

/-- statements.rs:225-236, `local_function_def_stmt`. -/
def localFunctionDefStmt (r : Rec) (fuel : Nat) : Prog Nat := do
  let m ← start
  bump .localKw
  let _ ← expect .functionKw
  nameR (STMT_RECOVERY.union (TokenSet.new [.lParen]))
  let _ ← paramList fuel
  r.block
  let _ ← expect .endKw
  complete m .localFunctionDefStmt

/-- statements.rs:314-322, `local_assign_stmt`. -/
def localAssignStmt (r : Rec) (fuel : Nat) : Prog Nat := do
  let m ← start
  bump .localKw
  multiNameR fuel STMT_RECOVERY false
  if ← accept .eq then
    let _ ← expr r fuel
  complete m .localAssignStmt

/-- statements.rs:207-212, `local_stmt`. -/
def localStmt (r : Rec) (fuel : Nat) : Prog Nat := do
  if (← nth 1) == .functionKw then
    localFunctionDefStmt r fuel
  else
    localAssignStmt r fuel

/-- statements.rs:214-223, `expr_stmt`. -/
def exprStmt (r : Rec) (fuel : Nat) : Prog Nat := do
  let m ← start
  let _ ← expr r fuel
  if ← accept .eq then
    let _ ← expr r fuel
    complete m .assignStmt
  else
    complete m .exprStmt

/-- statements.rs:270, `RECOVERY` of `index_path`. -/
def INDEX_PATH_RECOVERY : TokenSet := (TokenSet.new [.dot, .colon]).union STMT_RECOVERY
/-- statements.rs:250, `RECOVERY` of `function_def_content`. -/
def FUNCTION_DEF_RECOVERY : TokenSet := (TokenSet.new [.lParen]).union STMT_RECOVERY

/-- statements.rs:276-292, the loop of `index_path`. -/
def indexPathLoop : Nat → Prog Unit
  | 0 => .outOfFuel
  | n + 1 => do
    if ← atK .colon then
      return ()
    else if ← atK .dot then
      bump .dot
      if (← nth 1) == .lParen then
        return ()
      else
        nameRefR INDEX_PATH_RECOVERY
        indexPathLoop n
    else
      return ()

/-- statements.rs:269-295, `index_path`. -/
def indexPath (fuel : Nat) : Prog Nat := do
  let m ← start
  nameRefR INDEX_PATH_RECOVERY
  indexPathLoop fuel
  complete m .indexPath

/-- statements.rs:249-267, `function_def_content`. -/
def functionDefContent (fuel : Nat) : Prog Nat := do
  let m ← start
  if (← atK .ident) && (← nth 1) == .lParen then
    nameR ((TokenSet.new [.lParen]).union FUNCTION_DEF_RECOVERY)
  else
    let m1 ← precede (← indexPath fuel)
    if ← atK .colon then
      bump .colon
      nameR FUNCTION_DEF_RECOVERY
      let _ ← complete m1 .functionMethod
    else
      nameR FUNCTION_DEF_RECOVERY
      let _ ← complete m1 .functionStatic
  complete m .functionDefContent

/-- statements.rs:238-247, `function_def_stmt`. -/
def functionDefStmt (r : Rec) (fuel : Nat) : Prog Nat := do
  let m ← start
  let _ ← expect .functionKw
  let _ ← functionDefContent fuel
  let _ ← paramList fuel
  r.block
  let _ ← expect .endKw
  complete m .functionDefStmt

/-- statements.rs:297-303, `do_stmt`. -/
def doStmt (r : Rec) : Prog Nat := do
  let m ← start
  bump .doKw
  r.block
  let _ ← expect .endKw
  complete m .doStmt

/-- statements.rs:305-312, `return_stmt`. -/
def returnStmt (r : Rec) (fuel : Nat) : Prog Nat := do
  let m ← start
  bump .returnKw
  if ← atTs EXPR_FIRST then
    let _ ← expr r fuel
  complete m .returnStmt

/-- statements.rs:62-66, the `T![end]` arm of `stmt`. -/
def unmatchedEnd : Prog Unit := do
  let m ← startError
  bump .endKw
  completeError m (.message "Unmatched end token")

/-- statements.rs:15-68, the `match` of `stmt`. -/
def stmtCore (r : Rec) (fuel : Nat) : Prog Unit := do
  let c ← current
  if c == .ifKw then
    let _ ← ifStmt r fuel
  else if c == .doubleColon then
    let _ ← labelStmt
  else if c == .gotoKw then
    let _ ← gotoStmt
  else if c == .localKw then
    let _ ← localStmt r fuel
  else if c == .repeatKw then
    let _ ← repeatUntilStmt r
  else if c == .functionKw then
    let _ ← functionDefStmt r fuel
  else if c == .returnKw then
    let _ ← returnStmt r fuel
  else if c == .doKw then
    let _ ← doStmt r
  else if c == .whileKw then
    let _ ← whileStmt r
  else if c == .forKw then
    let _ ← forStmt r fuel
  else if c == .breakKw then
    let _ ← breakStmt
  else if c == .ident then
    let _ ← exprStmt r fuel
  else if c == .lParen then
    let _ ← exprStmt r fuel
  else if c == .semicolon then
    errAndBump "Semicolons can only be used after statements"
  else if ← atTs LITERAL_FIRST then
    errAndBump "A literal cannot be the start of a statement"
  else if c == .endKw then
    unmatchedEnd
  else
    errAndBump "Expected a statement"

/-- statements.rs:14-72, `stmt`. -/
def stmt (r : Rec) (fuel : Nat) : Prog Unit := do
  stmtCore r fuel
  let _ ← accept .semicolon
  return ()

/-- grammar.rs:106-108, the loop of `block_raw`. -/
def blockLoop (r : Rec) (fuel0 : Nat) (endSet : TokenSet) : Nat → Prog Unit
  | 0 => .outOfFuel
  | n + 1 => do
    if !(← atTs endSet) then
      stmt r fuel0
      blockLoop r fuel0 endSet n
    else
      return ()

/-- grammar.rs:104-110, `block_raw`. -/
def blockRaw (r : Rec) (fuel : Nat) (endSet : TokenSet) : Prog Unit := do
  let m ← start
  blockLoop r fuel endSet fuel
  let _ ← complete m .block
  return ()

/-- Ties the recursion through `expr_bp` and `block` with fuel. -/
def recN : Nat → Rec
  | 0 => { exprBp := fun _ => .outOfFuel, block := .outOfFuel }
  | n + 1 => { exprBp := exprBp (recN n) n, block := blockRaw (recN n) n BLOCK_END }

/-- grammar.rs:116-118, `block`. -/
def block (fuel : Nat) : Prog Unit := (recN fuel).block

/-- grammar.rs:112-114, `root_block`. -/
def rootBlock (fuel : Nat) : Prog Unit := blockRaw (recN fuel) fuel ROOT_END

/-- grammar.rs:16-23, `root`. -/
def root (fuel : Nat) : Prog Unit := do
  let m ← start
  rootBlock fuel
  let _ ← complete m .sourceFile
  return ()

end Grammar

/-- crates/parser/src/lib.rs:85-106, `parse` on a stream of (non-trivia) token kinds: run the root
grammar, then `event::process`.  The fuel is a function of the input length. -/
def parseKinds (toks : List SyntaxKind) : Except Fail (List SinkCall) :=
  match (Grammar.root (2 * toks.length + 3)).run { toks := toks, events := [] } with
  | .error e => .error e
  | .ok (_, s) => processEvents s.events

end Verif
