import Verif.Proof.AstProof

/-
The typed syntax tree: what the accessors return on the tree of a file without errors.  `parts r` are the child nodes
and the tokens of `r`, comments and white space left out.
-/
namespace Verif
open Spec Lua

variable {text : Text} {r : Red}

/-! ### C65: the bodies of functions, loops and branches -/

/-- A file is its block. -/
theorem C65_sourceFile (h : NodeOf text .sourceFile r) : ∃ b, parts r = [b] ∧
    sym b = .node .block ∧ Ast.SourceFile.body r = some b := by
  obtain ⟨ss, e, P⟩ := production h
  cases P with
  | sourceFile =>
    obtain ⟨b, hp, h1⟩ := map1 e
    refine ⟨b, hp, h1, ?_⟩
    rw [sym_node] at h1
    ast_simp [Ast.SourceFile.body, Ast.Can.block, hp, h1]

/-- `function (…) … end` -/
theorem C65_functionExpr (h : NodeOf text .functionExpr r) : ∃ f p b n, parts r = [f, p, b, n] ∧
    sym f = .tok .functionKw ∧ sym p = .node .paramList ∧ sym b = .node .block ∧ sym n = .tok .endKw ∧
    Ast.FunctionExpr.functionToken r = some f ∧ Ast.FunctionExpr.params r = some p ∧
    Ast.FunctionExpr.body r = some b ∧ Ast.FunctionExpr.endToken r = some n := by
  obtain ⟨ss, e, P⟩ := production h
  cases P with
  | functionExpr =>
    obtain ⟨f, p, b, n, hp, h1, h2, h3, h4⟩ := map4 e
    refine ⟨f, p, b, n, hp, h1, h2, h3, h4, ?_⟩
    rw [sym_tok] at h1 h4
    rw [sym_node] at h2 h3
    ast_simp [Ast.FunctionExpr.functionToken, Ast.FunctionExpr.params, Ast.FunctionExpr.body,
      Ast.FunctionExpr.endToken, Ast.Can.block, Ast.Can.paramList, hp, h1, h2, h3, h4]

/-- `local function name (…) … end` -/
theorem C65_localFunction (h : NodeOf text .localFunctionDefStmt r) : ∃ l f n p b x, parts r = [l, f, n, p, b, x] ∧
    sym l = .tok .localKw ∧ sym f = .tok .functionKw ∧ sym n = .node .name ∧ sym p = .node .paramList ∧
    sym b = .node .block ∧ sym x = .tok .endKw ∧ Ast.LocalFunctionDefStmt.localToken r = some l ∧
    Ast.LocalFunctionDefStmt.functionToken r = some f ∧ Ast.LocalFunctionDefStmt.name r = some n ∧
    Ast.LocalFunctionDefStmt.paramList r = some p ∧ Ast.LocalFunctionDefStmt.body r = some b ∧
    Ast.LocalFunctionDefStmt.endToken r = some x := by
  obtain ⟨ss, e, P⟩ := production h
  cases P with
  | localFunctionDefStmt =>
    obtain ⟨l, f, n, p, b, x, hp, h1, h2, h3, h4, h5, h6⟩ := map6 e
    refine ⟨l, f, n, p, b, x, hp, h1, h2, h3, h4, h5, h6, ?_⟩
    rw [sym_tok] at h1 h2 h6
    rw [sym_node] at h3 h4 h5
    ast_simp [Ast.LocalFunctionDefStmt.localToken, Ast.LocalFunctionDefStmt.functionToken,
      Ast.LocalFunctionDefStmt.name, Ast.LocalFunctionDefStmt.paramList, Ast.LocalFunctionDefStmt.body,
      Ast.LocalFunctionDefStmt.endToken, Ast.Can.block, Ast.Can.name, Ast.Can.paramList, hp, h1, h2, h3, h4, h5,
      h6]

/-- `function name (…) … end` -/
theorem C65_function (h : NodeOf text .functionDefStmt r) : ∃ f n p b x, parts r = [f, n, p, b, x] ∧
    sym f = .tok .functionKw ∧ sym n = .node .functionDefContent ∧ sym p = .node .paramList ∧
    sym b = .node .block ∧ sym x = .tok .endKw ∧ Ast.FunctionDefStmt.functionToken r = some f ∧
    Ast.FunctionDefStmt.paramList r = some p ∧ Ast.FunctionDefStmt.body r = some b ∧
    Ast.FunctionDefStmt.endToken r = some x := by
  obtain ⟨ss, e, P⟩ := production h
  cases P with
  | functionDefStmt =>
    obtain ⟨f, n, p, b, x, hp, h1, h2, h3, h4, h5⟩ := map5 e
    refine ⟨f, n, p, b, x, hp, h1, h2, h3, h4, h5, ?_⟩
    rw [sym_tok] at h1 h5
    rw [sym_node] at h2 h3 h4
    ast_simp [Ast.FunctionDefStmt.functionToken, Ast.FunctionDefStmt.paramList, Ast.FunctionDefStmt.body,
      Ast.FunctionDefStmt.endToken, Ast.Can.block, Ast.Can.paramList, hp, h1, h2, h3, h4, h5]

/-- `for … do … end` -/
theorem C65_for (h : NodeOf text .forStmt r) : ∃ f c d b x, parts r = [f, c, d, b, x] ∧
    sym f = .tok .forKw ∧ sym c = .node .forContent ∧ sym d = .tok .doKw ∧ sym b = .node .block ∧
    sym x = .tok .endKw ∧ Ast.ForStmt.forToken r = some f ∧ Ast.ForStmt.doToken r = some d ∧
    Ast.ForStmt.block r = some b ∧ Ast.ForStmt.endToken r = some x := by
  obtain ⟨ss, e, P⟩ := production h
  cases P with
  | forStmt =>
    obtain ⟨f, c, d, b, x, hp, h1, h2, h3, h4, h5⟩ := map5 e
    refine ⟨f, c, d, b, x, hp, h1, h2, h3, h4, h5, ?_⟩
    rw [sym_tok] at h1 h3 h5
    rw [sym_node] at h2 h4
    ast_simp [Ast.ForStmt.forToken, Ast.ForStmt.doToken, Ast.ForStmt.block, Ast.ForStmt.endToken, Ast.Can.block,
      hp, h1, h2, h3, h4, h5]

/-- `while … do … end` -/
theorem C65_while (h : NodeOf text .whileStmt r) : ∃ w c d b x, parts r = [w, c, d, b, x] ∧
    sym w = .tok .whileKw ∧ IsExpr (sym c) ∧ sym d = .tok .doKw ∧ sym b = .node .block ∧ sym x = .tok .endKw ∧
    Ast.WhileStmt.whileToken r = some w ∧ Ast.WhileStmt.doToken r = some d ∧ Ast.WhileStmt.body r = some b ∧
    Ast.WhileStmt.endToken r = some x := by
  obtain ⟨ss, e, P⟩ := production h
  cases P with
  | whileStmt s1 hs1 =>
    obtain ⟨w, c, d, b, x, hp, h1, h2, h3, h4, h5⟩ := map5 e
    refine ⟨w, c, d, b, x, hp, h1, h2 ▸ hs1, h3, h4, h5, ?_⟩
    obtain ⟨k1, hk1, rfl⟩ := hs1
    have hn1 := expr_ne hk1
    rw [sym_tok] at h1 h3 h5
    rw [sym_node] at h2 h4
    by_cases hq1 : k1 = .parenExpr
    all_goals ast_simp [Ast.WhileStmt.whileToken, Ast.WhileStmt.doToken, Ast.WhileStmt.body,
      Ast.WhileStmt.endToken, Ast.Can.block, hp, h1, h2, h3, h4, h5, hk1, hn1, hq1]

/-- `repeat … until …` -/
theorem C65_repeat (h : NodeOf text .repeatUntilStmt r) : ∃ w b u c, parts r = [w, b, u, c] ∧
    sym w = .tok .repeatKw ∧ sym b = .node .block ∧ sym u = .tok .untilKw ∧ IsExpr (sym c) ∧
    Ast.RepeatUntilStmt.repeatToken r = some w ∧ Ast.RepeatUntilStmt.block r = some b ∧
    Ast.RepeatUntilStmt.untilToken r = some u := by
  obtain ⟨ss, e, P⟩ := production h
  cases P with
  | repeatUntilStmt s1 hs1 =>
    obtain ⟨w, b, u, c, hp, h1, h2, h3, h4⟩ := map4 e
    refine ⟨w, b, u, c, hp, h1, h2, h3, h4 ▸ hs1, ?_⟩
    obtain ⟨k1, hk1, rfl⟩ := hs1
    have hn1 := expr_ne hk1
    rw [sym_tok] at h1 h3
    rw [sym_node] at h2 h4
    by_cases hq1 : k1 = .parenExpr
    all_goals ast_simp [Ast.RepeatUntilStmt.repeatToken, Ast.RepeatUntilStmt.block,
      Ast.RepeatUntilStmt.untilToken, Ast.Can.block, hp, h1, h2, h3, h4, hk1, hn1, hq1]

/-- `do … end` -/
theorem C65_do (h : NodeOf text .doStmt r) : ∃ d b x, parts r = [d, b, x] ∧
    sym d = .tok .doKw ∧ sym b = .node .block ∧ sym x = .tok .endKw ∧ Ast.DoStmt.doToken r = some d ∧
    Ast.DoStmt.body r = some b ∧ Ast.DoStmt.endToken r = some x := by
  obtain ⟨ss, e, P⟩ := production h
  cases P with
  | doStmt =>
    obtain ⟨d, b, x, hp, h1, h2, h3⟩ := map3 e
    refine ⟨d, b, x, hp, h1, h2, h3, ?_⟩
    rw [sym_tok] at h1 h3
    rw [sym_node] at h2
    ast_simp [Ast.DoStmt.doToken, Ast.DoStmt.body, Ast.DoStmt.endToken, Ast.Can.block, hp, h1, h2, h3]

/-- `else …` -/
theorem C65_else (h : NodeOf text .elseBranch r) : ∃ l b, parts r = [l, b] ∧
    sym l = .tok .elseKw ∧ sym b = .node .block ∧ Ast.ElseBranch.elseToken r = some l ∧
    Ast.ElseBranch.block r = some b := by
  obtain ⟨ss, e, P⟩ := production h
  cases P with
  | elseBranch =>
    obtain ⟨l, b, hp, h1, h2⟩ := map2 e
    refine ⟨l, b, hp, h1, h2, ?_⟩
    rw [sym_tok] at h1
    rw [sym_node] at h2
    ast_simp [Ast.ElseBranch.elseToken, Ast.ElseBranch.block, Ast.Can.block, hp, h1, h2]

/-- `break` -/
theorem C65_break (h : NodeOf text .breakStmt r) : ∃ b, parts r = [b] ∧
    sym b = .tok .breakKw ∧ Ast.BreakStmt.breakToken r = some b := by
  obtain ⟨ss, e, P⟩ := production h
  cases P with
  | breakStmt =>
    obtain ⟨b, hp, h1⟩ := map1 e
    refine ⟨b, hp, h1, ?_⟩
    rw [sym_tok] at h1
    ast_simp [Ast.BreakStmt.breakToken, hp, h1]

/-! ### C66: accessors that return an expression -/

/-- The condition of a `while` loop: missed exactly if it is in parentheses. -/
theorem C66_while_partial (h : NodeOf text .whileStmt r) : ∃ w c d b x, parts r = [w, c, d, b, x] ∧
    sym w = .tok .whileKw ∧ IsExpr (sym c) ∧ sym d = .tok .doKw ∧ sym b = .node .block ∧ sym x = .tok .endKw ∧
    Ast.WhileStmt.cond r = (if c.kind = .parenExpr then none else some c) := by
  obtain ⟨ss, e, P⟩ := production h
  cases P with
  | whileStmt s1 hs1 =>
    obtain ⟨w, c, d, b, x, hp, h1, h2, h3, h4, h5⟩ := map5 e
    refine ⟨w, c, d, b, x, hp, h1, h2 ▸ hs1, h3, h4, h5, ?_⟩
    obtain ⟨k1, hk1, rfl⟩ := hs1
    have hn1 := expr_ne hk1
    rw [sym_tok] at h1 h3 h5
    rw [sym_node] at h2 h4
    by_cases hq1 : k1 = .parenExpr
    all_goals ast_simp [Ast.WhileStmt.cond, hp, h1, h2, h3, h4, h5, hk1, hn1, hq1]

/-- The condition of a `repeat` loop. -/
theorem C66_repeat_partial (h : NodeOf text .repeatUntilStmt r) : ∃ w b u c, parts r = [w, b, u, c] ∧
    sym w = .tok .repeatKw ∧ sym b = .node .block ∧ sym u = .tok .untilKw ∧ IsExpr (sym c) ∧
    Ast.RepeatUntilStmt.expr r = (if c.kind = .parenExpr then none else some c) := by
  obtain ⟨ss, e, P⟩ := production h
  cases P with
  | repeatUntilStmt s1 hs1 =>
    obtain ⟨w, b, u, c, hp, h1, h2, h3, h4⟩ := map4 e
    refine ⟨w, b, u, c, hp, h1, h2, h3, h4 ▸ hs1, ?_⟩
    obtain ⟨k1, hk1, rfl⟩ := hs1
    have hn1 := expr_ne hk1
    rw [sym_tok] at h1 h3
    rw [sym_node] at h2 h4
    by_cases hq1 : k1 = .parenExpr
    all_goals ast_simp [Ast.RepeatUntilStmt.expr, hp, h1, h2, h3, h4, hk1, hn1, hq1]

/-- The expression in parentheses. -/
theorem C66_paren_partial (h : NodeOf text .parenExpr r) : ∃ l c x, parts r = [l, c, x] ∧
    sym l = .tok .lParen ∧ IsExpr (sym c) ∧ sym x = .tok .rParen ∧ Ast.ParenExpr.lParenToken r = some l ∧
    Ast.ParenExpr.expr r = (if c.kind = .parenExpr then none else some c) ∧ Ast.ParenExpr.rParenToken r = some x := by
  obtain ⟨ss, e, P⟩ := production h
  cases P with
  | parenExpr s1 hs1 =>
    obtain ⟨l, c, x, hp, h1, h2, h3⟩ := map3 e
    refine ⟨l, c, x, hp, h1, h2 ▸ hs1, h3, ?_⟩
    obtain ⟨k1, hk1, rfl⟩ := hs1
    have hn1 := expr_ne hk1
    rw [sym_tok] at h1 h3
    rw [sym_node] at h2
    by_cases hq1 : k1 = .parenExpr
    all_goals ast_simp [Ast.ParenExpr.lParenToken, Ast.ParenExpr.expr, Ast.ParenExpr.rParenToken, hp, h1, h2,
      h3, hk1, hn1, hq1]

/-- The expression in brackets. -/
theorem C66_index_partial (h : NodeOf text .index r) : ∃ l c x, parts r = [l, c, x] ∧
    sym l = .tok .lBracket ∧ IsExpr (sym c) ∧ sym x = .tok .rBracket ∧ Ast.Index.lBrackToken r = some l ∧
    Ast.Index.expr r = (if c.kind = .parenExpr then none else some c) ∧ Ast.Index.rBrackToken r = some x := by
  obtain ⟨ss, e, P⟩ := production h
  cases P with
  | index s1 hs1 =>
    obtain ⟨l, c, x, hp, h1, h2, h3⟩ := map3 e
    refine ⟨l, c, x, hp, h1, h2 ▸ hs1, h3, ?_⟩
    obtain ⟨k1, hk1, rfl⟩ := hs1
    have hn1 := expr_ne hk1
    rw [sym_tok] at h1 h3
    rw [sym_node] at h2
    by_cases hq1 : k1 = .parenExpr
    all_goals ast_simp [Ast.Index.lBrackToken, Ast.Index.expr, Ast.Index.rBrackToken, hp, h1, h2, h3, hk1, hn1,
      hq1]

/-- The parts of `base[index]`. -/
theorem C66_indexExpr_partial (h : NodeOf text .indexExpr r) : ∃ c i, parts r = [c, i] ∧
    IsExpr (sym c) ∧ sym i = .node .index ∧ Ast.IndexExpr.base r = (if c.kind = .parenExpr then none else some c) ∧
    Ast.IndexExpr.index r = some i := by
  obtain ⟨ss, e, P⟩ := production h
  cases P with
  | indexExpr s1 hs1 =>
    obtain ⟨c, i, hp, h1, h2⟩ := map2 e
    refine ⟨c, i, hp, h1 ▸ hs1, h2, ?_⟩
    obtain ⟨k1, hk1, rfl⟩ := hs1
    have hn1 := expr_ne hk1
    rw [sym_node] at h1 h2
    by_cases hq1 : k1 = .parenExpr
    all_goals ast_simp [Ast.IndexExpr.base, Ast.IndexExpr.index, Ast.Can.index, hp, h1, h2, hk1, hn1, hq1]

/-- The parts of `expr.name`. -/
theorem C66_dotExpr_partial (h : NodeOf text .dotExpr r) : ∃ c d i, parts r = [c, d, i] ∧
    IsExpr (sym c) ∧ sym d = .tok .dot ∧ sym i = .tok .ident ∧
    Ast.DotExpr.expr r = (if c.kind = .parenExpr then none else some c) ∧ Ast.DotExpr.dotToken r = some d ∧
    Ast.DotExpr.identToken r = some i := by
  obtain ⟨ss, e, P⟩ := production h
  cases P with
  | dotExpr s1 hs1 =>
    obtain ⟨c, d, i, hp, h1, h2, h3⟩ := map3 e
    refine ⟨c, d, i, hp, h1 ▸ hs1, h2, h3, ?_⟩
    obtain ⟨k1, hk1, rfl⟩ := hs1
    have hn1 := expr_ne hk1
    rw [sym_tok] at h2 h3
    rw [sym_node] at h1
    by_cases hq1 : k1 = .parenExpr
    all_goals ast_simp [Ast.DotExpr.expr, Ast.DotExpr.dotToken, Ast.DotExpr.identToken, hp, h1, h2, h3, hk1,
      hn1, hq1]

/-- The parts of a call. -/
theorem C66_call_partial (h : NodeOf text .callExpr r) : ∃ c a, parts r = [c, a] ∧
    IsExpr (sym c) ∧ sym a = .node .callArgs ∧
    Ast.CallExpr.fun_ r = (if c.kind = .parenExpr then none else some c) ∧ Ast.CallExpr.callArgs r = some a := by
  obtain ⟨ss, e, P⟩ := production h
  cases P with
  | callExpr s1 hs1 =>
    obtain ⟨c, a, hp, h1, h2⟩ := map2 e
    refine ⟨c, a, hp, h1 ▸ hs1, h2, ?_⟩
    obtain ⟨k1, hk1, rfl⟩ := hs1
    have hn1 := expr_ne hk1
    rw [sym_node] at h1 h2
    by_cases hq1 : k1 = .parenExpr
    all_goals ast_simp [Ast.CallExpr.fun_, Ast.CallExpr.callArgs, Ast.Can.callArgs, hp, h1, h2, hk1, hn1, hq1]

/-- A positional table entry. -/
theorem C66_positional_partial (h : NodeOf text .positionalValue r) : ∃ c, parts r = [c] ∧
    IsExpr (sym c) ∧ Ast.PositionalValue.expr r = (if c.kind = .parenExpr then none else some c) := by
  obtain ⟨ss, e, P⟩ := production h
  cases P with
  | positionalValue s1 hs1 =>
    obtain ⟨c, hp, h1⟩ := map1 e
    refine ⟨c, hp, h1 ▸ hs1, ?_⟩
    obtain ⟨k1, hk1, rfl⟩ := hs1
    have hn1 := expr_ne hk1
    rw [sym_node] at h1
    by_cases hq1 : k1 = .parenExpr
    all_goals ast_simp [Ast.PositionalValue.expr, hp, h1, hk1, hn1, hq1]

/-- The value of a table entry with a key. -/
theorem C66_keyValue_partial (h : NodeOf text .keyValue r) : ∃ key q c, parts r = [key, q, c] ∧
    sym key = .node .tableKey ∧ sym q = .tok .eq ∧ IsExpr (sym c) ∧
    Ast.KeyValue.value r = (if c.kind = .parenExpr then none else some c) := by
  obtain ⟨ss, e, P⟩ := production h
  cases P with
  | keyValue s1 hs1 =>
    obtain ⟨key, q, c, hp, h1, h2, h3⟩ := map3 e
    refine ⟨key, q, c, hp, h1, h2, h3 ▸ hs1, ?_⟩
    obtain ⟨k1, hk1, rfl⟩ := hs1
    have hn1 := expr_ne hk1
    rw [sym_tok] at h2
    rw [sym_node] at h1 h3
    by_cases hq1 : k1 = .parenExpr
    all_goals ast_simp [Ast.KeyValue.value, hp, h1, h2, h3, hk1, hn1, hq1]

/-! ### C68: assignments, locals and lists of names -/

/-- `… = …` -/
theorem C68_assign (h : NodeOf text .assignStmt r) : ∃ l q x, parts r = [l, q, x] ∧
    sym l = .node .multivalExpr ∧ sym q = .tok .eq ∧ sym x = .node .multivalExpr ∧ Ast.AssignStmt.eqToken r = some q := by
  obtain ⟨ss, e, P⟩ := production h
  cases P with
  | assignStmt =>
    obtain ⟨l, q, x, hp, h1, h2, h3⟩ := map3 e
    refine ⟨l, q, x, hp, h1, h2, h3, ?_⟩
    rw [sym_tok] at h2
    rw [sym_node] at h1 h3
    ast_simp [Ast.AssignStmt.eqToken, hp, h1, h2, h3]

/-- An expression statement. -/
theorem C68_exprStmt (h : NodeOf text .exprStmt r) : ∃ m, parts r = [m] ∧
    sym m = .node .multivalExpr ∧ Ast.ExprStmt.multivalExpr r = some m := by
  obtain ⟨ss, e, P⟩ := production h
  cases P with
  | exprStmt =>
    obtain ⟨m, hp, h1⟩ := map1 e
    refine ⟨m, hp, h1, ?_⟩
    rw [sym_node] at h1
    ast_simp [Ast.ExprStmt.multivalExpr, Ast.Can.multivalExpr, hp, h1]

/-- `name = …` of a `for` loop -/
theorem C68_numericFor (h : NodeOf text .numericFor r) : ∃ n q m, parts r = [n, q, m] ∧
    sym n = .node .name ∧ sym q = .tok .eq ∧ sym m = .node .multivalExpr ∧ Ast.NumericFor.name r = some n ∧
    Ast.NumericFor.eqToken r = some q ∧ Ast.NumericFor.expr r = some m := by
  obtain ⟨ss, e, P⟩ := production h
  cases P with
  | numericFor =>
    obtain ⟨n, q, m, hp, h1, h2, h3⟩ := map3 e
    refine ⟨n, q, m, hp, h1, h2, h3, ?_⟩
    rw [sym_tok] at h2
    rw [sym_node] at h1 h3
    ast_simp [Ast.NumericFor.name, Ast.NumericFor.eqToken, Ast.NumericFor.expr, Ast.Can.multivalExpr,
      Ast.Can.name, hp, h1, h2, h3]

/-- `names in …` of a `for` loop -/
theorem C68_genericFor (h : NodeOf text .genericFor r) : ∃ n i c, parts r = [n, i, c] ∧
    sym n = .node .multiName ∧ sym i = .tok .inKw ∧ IsExpr (sym c) ∧ Ast.GenericFor.multiName r = some n ∧
    Ast.GenericFor.inToken r = some i := by
  obtain ⟨ss, e, P⟩ := production h
  cases P with
  | genericFor s1 hs1 =>
    obtain ⟨n, i, c, hp, h1, h2, h3⟩ := map3 e
    refine ⟨n, i, c, hp, h1, h2, h3 ▸ hs1, ?_⟩
    obtain ⟨k1, hk1, rfl⟩ := hs1
    have hn1 := expr_ne hk1
    rw [sym_tok] at h2
    rw [sym_node] at h1 h3
    by_cases hq1 : k1 = .parenExpr
    all_goals ast_simp [Ast.GenericFor.multiName, Ast.GenericFor.inToken, Ast.Can.multiName, hp, h1, h2, h3,
      hk1, hn1, hq1]

/-- `goto name` -/
theorem C68_goto (h : NodeOf text .gotoStmt r) : ∃ g n, parts r = [g, n] ∧
    sym g = .tok .gotoKw ∧ sym n = .node .nameRef ∧ Ast.GotoStmt.gotoToken r = some g ∧
    Ast.GotoStmt.nameRef r = some n := by
  obtain ⟨ss, e, P⟩ := production h
  cases P with
  | gotoStmt =>
    obtain ⟨g, n, hp, h1, h2⟩ := map2 e
    refine ⟨g, n, hp, h1, h2, ?_⟩
    rw [sym_tok] at h1
    rw [sym_node] at h2
    ast_simp [Ast.GotoStmt.gotoToken, Ast.GotoStmt.nameRef, Ast.Can.nameRef, hp, h1, h2]

/-- `a.b:name` of a function -/
theorem C68_method (h : NodeOf text .functionMethod r) : ∃ p c n, parts r = [p, c, n] ∧
    sym p = .node .indexPath ∧ sym c = .tok .colon ∧ sym n = .node .name ∧
    Ast.FunctionMethod.indexPath r = some p ∧ Ast.FunctionMethod.colonToken r = some c ∧
    Ast.FunctionMethod.name r = some n := by
  obtain ⟨ss, e, P⟩ := production h
  cases P with
  | functionMethod =>
    obtain ⟨p, c, n, hp, h1, h2, h3⟩ := map3 e
    refine ⟨p, c, n, hp, h1, h2, h3, ?_⟩
    rw [sym_tok] at h2
    rw [sym_node] at h1 h3
    ast_simp [Ast.FunctionMethod.indexPath, Ast.FunctionMethod.colonToken, Ast.FunctionMethod.name,
      Ast.Can.indexPath, Ast.Can.name, hp, h1, h2, h3]

/-- `a.b.name` of a function -/
theorem C68_static (h : NodeOf text .functionStatic r) : ∃ p n, parts r = [p, n] ∧
    sym p = .node .indexPath ∧ sym n = .node .name ∧ Ast.FunctionStatic.indexPath r = some p ∧
    Ast.FunctionStatic.name r = some n := by
  obtain ⟨ss, e, P⟩ := production h
  cases P with
  | functionStatic =>
    obtain ⟨p, n, hp, h1, h2⟩ := map2 e
    refine ⟨p, n, hp, h1, h2, ?_⟩
    rw [sym_node] at h1 h2
    ast_simp [Ast.FunctionStatic.indexPath, Ast.FunctionStatic.name, Ast.Can.indexPath, Ast.Can.name, hp, h1,
      h2]

/-! ### C70: parts no accessor returns -/

/-- The name of a function is never found. -/
theorem C70_function_fails (h : NodeOf text .functionDefStmt r) : ∃ f n p b x, parts r = [f, n, p, b, x] ∧
    sym f = .tok .functionKw ∧ sym n = .node .functionDefContent ∧ sym p = .node .paramList ∧
    sym b = .node .block ∧ sym x = .tok .endKw ∧ Ast.FunctionDefStmt.functionDefContent r = none := by
  obtain ⟨ss, e, P⟩ := production h
  cases P with
  | functionDefStmt =>
    obtain ⟨f, n, p, b, x, hp, h1, h2, h3, h4, h5⟩ := map5 e
    refine ⟨f, n, p, b, x, hp, h1, h2, h3, h4, h5, ?_⟩
    rw [sym_tok] at h1 h5
    rw [sym_node] at h2 h3 h4
    ast_simp [Ast.FunctionDefStmt.functionDefContent, Ast.Can.functionDefContent, hp, h1, h2, h3, h4, h5]

/-- The head of a `for` loop is never found. -/
theorem C70_for_fails (h : NodeOf text .forStmt r) : ∃ f c d b x, parts r = [f, c, d, b, x] ∧
    sym f = .tok .forKw ∧ sym c = .node .forContent ∧ sym d = .tok .doKw ∧ sym b = .node .block ∧
    sym x = .tok .endKw ∧ Ast.ForStmt.content r = none := by
  obtain ⟨ss, e, P⟩ := production h
  cases P with
  | forStmt =>
    obtain ⟨f, c, d, b, x, hp, h1, h2, h3, h4, h5⟩ := map5 e
    refine ⟨f, c, d, b, x, hp, h1, h2, h3, h4, h5, ?_⟩
    rw [sym_tok] at h1 h3 h5
    rw [sym_node] at h2 h4
    ast_simp [Ast.ForStmt.content, Ast.Can.forContent, hp, h1, h2, h3, h4, h5]

/-- The expression of a generic `for` is never found. -/
theorem C70_genericFor_fails (h : NodeOf text .genericFor r) : ∃ n i c, parts r = [n, i, c] ∧
    sym n = .node .multiName ∧ sym i = .tok .inKw ∧ IsExpr (sym c) ∧ Ast.GenericFor.expr r = none := by
  obtain ⟨ss, e, P⟩ := production h
  cases P with
  | genericFor s1 hs1 =>
    obtain ⟨n, i, c, hp, h1, h2, h3⟩ := map3 e
    refine ⟨n, i, c, hp, h1, h2, h3 ▸ hs1, ?_⟩
    obtain ⟨k1, hk1, rfl⟩ := hs1
    have hn1 := expr_ne hk1
    rw [sym_tok] at h2
    rw [sym_node] at h1 h3
    by_cases hq1 : k1 = .parenExpr
    all_goals ast_simp [Ast.GenericFor.expr, Ast.Can.multivalExpr, hp, h1, h2, h3, hk1, hn1, hq1]

/-- The key of a table entry is never found. -/
theorem C70_keyValue_fails (h : NodeOf text .keyValue r) : ∃ key q c, parts r = [key, q, c] ∧
    sym key = .node .tableKey ∧ sym q = .tok .eq ∧ IsExpr (sym c) ∧ Ast.KeyValue.key r = none := by
  obtain ⟨ss, e, P⟩ := production h
  cases P with
  | keyValue s1 hs1 =>
    obtain ⟨key, q, c, hp, h1, h2, h3⟩ := map3 e
    refine ⟨key, q, c, hp, h1, h2, h3 ▸ hs1, ?_⟩
    obtain ⟨k1, hk1, rfl⟩ := hs1
    have hn1 := expr_ne hk1
    rw [sym_tok] at h2
    rw [sym_node] at h1 h3
    by_cases hq1 : k1 = .parenExpr
    all_goals ast_simp [Ast.KeyValue.key, Ast.Can.tableKey, hp, h1, h2, h3, hk1, hn1, hq1]

/-- The dot before the name of a function is never found: it is in the path. -/
theorem C70_static_fails (h : NodeOf text .functionStatic r) : ∃ p n, parts r = [p, n] ∧
    sym p = .node .indexPath ∧ sym n = .node .name ∧ Ast.FunctionStatic.dotToken r = none := by
  obtain ⟨ss, e, P⟩ := production h
  cases P with
  | functionStatic =>
    obtain ⟨p, n, hp, h1, h2⟩ := map2 e
    refine ⟨p, n, hp, h1, h2, ?_⟩
    rw [sym_node] at h1 h2
    ast_simp [Ast.FunctionStatic.dotToken, hp, h1, h2]

/-- `::name::`: the second delimiter is never found, `finish` returns the first one. -/
theorem C73_label_partial (h : NodeOf text .labelStmt r) : ∃ d n d', parts r = [d, n, d'] ∧
    sym d = .node .labelDelim ∧ sym n = .node .name ∧ sym d' = .node .labelDelim ∧ Ast.LabelStmt.start r = some d ∧
    Ast.LabelStmt.name r = some n ∧ Ast.LabelStmt.finish r = some d := by
  obtain ⟨ss, e, P⟩ := production h
  cases P with
  | labelStmt =>
    obtain ⟨d, n, d', hp, h1, h2, h3⟩ := map3 e
    refine ⟨d, n, d', hp, h1, h2, h3, ?_⟩
    rw [sym_node] at h1 h2 h3
    ast_simp [Ast.LabelStmt.start, Ast.LabelStmt.name, Ast.LabelStmt.finish, Ast.Can.labelDelim, Ast.Can.name,
      hp, h1, h2, h3]

/-- **C68**: `LabelDelim::double_colon_token`. -/
theorem C68_labelDelim (h : NodeOf text .labelDelim r) : ∃ d, parts r = [d] ∧ sym d = .tok .doubleColon ∧
    Ast.LabelDelim.doubleColonToken r = some d := by
  obtain ⟨ss, e, P⟩ := production h
  cases P with
  | labelDelim =>
    obtain ⟨d, hp, h1⟩ := map1 e
    refine ⟨d, hp, h1, ?_⟩
    rw [sym_tok] at h1
    ast_simp [Ast.LabelDelim.doubleColonToken, hp, h1]

/-- **C76**: every node of the tree of a file without lexical and syntax errors is made of the parts its production lists,
in that order. -/
theorem C76_productions (text : Text) (tree : Green) (h : parseText text = .ok (tree, [])) (r : Red)
    (hr : Below (Red.root tree) r) : Production r.kind ((parts r).map sym) :=
  productions text tree h r hr

end Verif
