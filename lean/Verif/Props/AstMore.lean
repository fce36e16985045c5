import Verif.Proof.AstProof
import Verif.Proof.TreeContext

/-
The typed syntax tree, continued: branches, lists, operators, calls, literals and names.
-/
namespace Verif
open Spec Lua

variable {text : Text} {r : Red}

/-! ### C65, C66: branches -/

/-- `if … then … [else …] end`: the body and the `else` part. -/
theorem C65_if (h : NodeOf text .ifStmt r) : ∃ i c t b es x, parts r = i :: c :: t :: b :: (es ++ [x]) ∧
    sym i = .tok .ifKw ∧ IsExpr (sym c) ∧ sym t = .tok .thenKw ∧ sym b = .node .block ∧ sym x = .tok .endKw ∧
    Ast.IfStmt.ifToken r = some i ∧ Ast.IfStmt.thenToken r = some t ∧ Ast.IfStmt.block r = some b ∧
    Ast.IfStmt.endToken r = some x ∧
    ((es = [] ∧ Ast.IfStmt.elseBranch r = none ∧ Ast.IfStmt.elseIfBranch r = none) ∨
     (∃ l, es = [l] ∧ sym l = .node .elseBranch ∧ Ast.IfStmt.elseBranch r = some l ∧ Ast.IfStmt.elseIfBranch r = none) ∨
     (∃ l, es = [l] ∧ sym l = .node .elseIfBranch ∧ Ast.IfStmt.elseBranch r = none ∧
       Ast.IfStmt.elseIfBranch r = some l)) := by
  obtain ⟨ss, e, P⟩ := production h
  cases P with
  | ifStmt s es hs he =>
    have hq : IsExpr s := hs
    obtain ⟨k1, hk1, rfl⟩ := hs
    have hn1 := expr_ne hk1
    cases he with
    | none =>
      obtain ⟨i, c, t, b, x, hp, h1, h2, h3, h4, h5⟩ := map5 e
      refine ⟨i, c, t, b, [], x, hp, h1, h2 ▸ hq, h3, h4, h5, ?_⟩
      rw [sym_tok] at h1 h3 h5
      rw [sym_node] at h2 h4
      ast_simp [Ast.IfStmt.ifToken, Ast.IfStmt.thenToken, Ast.IfStmt.block, Ast.IfStmt.endToken, Ast.IfStmt.elseBranch,
        Ast.IfStmt.elseIfBranch, Ast.Can.block, Ast.Can.elseBranch, Ast.Can.elseIfBranch, hp, h1, h2, h3, h4, h5, hn1]
    | elseBranch =>
      obtain ⟨i, c, t, b, l, x, hp, h1, h2, h3, h4, h6, h5⟩ := map6 e
      refine ⟨i, c, t, b, [l], x, hp, h1, h2 ▸ hq, h3, h4, h5, ?_⟩
      have h6' := h6
      rw [sym_tok] at h1 h3 h5
      rw [sym_node] at h2 h4 h6
      ast_simp [Ast.IfStmt.ifToken, Ast.IfStmt.thenToken, Ast.IfStmt.block, Ast.IfStmt.endToken, Ast.IfStmt.elseBranch,
        Ast.IfStmt.elseIfBranch, Ast.Can.block, Ast.Can.elseBranch, Ast.Can.elseIfBranch, hp, h1, h2, h3, h4, h5, h6, h6',
        hn1]
    | elseIfBranch =>
      obtain ⟨i, c, t, b, l, x, hp, h1, h2, h3, h4, h6, h5⟩ := map6 e
      refine ⟨i, c, t, b, [l], x, hp, h1, h2 ▸ hq, h3, h4, h5, ?_⟩
      have h6' := h6
      rw [sym_tok] at h1 h3 h5
      rw [sym_node] at h2 h4 h6
      ast_simp [Ast.IfStmt.ifToken, Ast.IfStmt.thenToken, Ast.IfStmt.block, Ast.IfStmt.endToken, Ast.IfStmt.elseBranch,
        Ast.IfStmt.elseIfBranch, Ast.Can.block, Ast.Can.elseBranch, Ast.Can.elseIfBranch, hp, h1, h2, h3, h4, h5, h6, h6',
        hn1]

/-- `elseif … then … [else …]` -/
theorem C65_elseIf (h : NodeOf text .elseIfBranch r) : ∃ i c t b es, parts r = i :: c :: t :: b :: es ∧
    sym i = .tok .elseifKw ∧ IsExpr (sym c) ∧ sym t = .tok .thenKw ∧ sym b = .node .block ∧
    Ast.ElseIfBranch.elseifToken r = some i ∧ Ast.ElseIfBranch.thenToken r = some t ∧
    Ast.ElseIfBranch.block r = some b ∧
    ((es = [] ∧ Ast.ElseIfBranch.elseBranch r = none ∧ Ast.ElseIfBranch.elseIfBranch r = none) ∨
     (∃ l, es = [l] ∧ sym l = .node .elseBranch ∧ Ast.ElseIfBranch.elseBranch r = some l ∧
       Ast.ElseIfBranch.elseIfBranch r = none) ∨
     (∃ l, es = [l] ∧ sym l = .node .elseIfBranch ∧ Ast.ElseIfBranch.elseBranch r = none ∧
       Ast.ElseIfBranch.elseIfBranch r = some l)) := by
  obtain ⟨ss, e, P⟩ := production h
  cases P with
  | elseIfBranch s es hs he =>
    have hq : IsExpr s := hs
    obtain ⟨k1, hk1, rfl⟩ := hs
    have hn1 := expr_ne hk1
    cases he with
    | none =>
      obtain ⟨i, c, t, b, hp, h1, h2, h3, h4⟩ := map4 e
      refine ⟨i, c, t, b, [], hp, h1, h2 ▸ hq, h3, h4, ?_⟩
      rw [sym_tok] at h1 h3
      rw [sym_node] at h2 h4
      ast_simp [Ast.ElseIfBranch.elseifToken, Ast.ElseIfBranch.thenToken, Ast.ElseIfBranch.block,
        Ast.ElseIfBranch.elseBranch, Ast.ElseIfBranch.elseIfBranch, Ast.Can.block, Ast.Can.elseBranch,
        Ast.Can.elseIfBranch, hp, h1, h2, h3, h4, hn1]
    | elseBranch =>
      obtain ⟨i, c, t, b, l, hp, h1, h2, h3, h4, h6⟩ := map5 e
      refine ⟨i, c, t, b, [l], hp, h1, h2 ▸ hq, h3, h4, ?_⟩
      have h6' := h6
      rw [sym_tok] at h1 h3
      rw [sym_node] at h2 h4 h6
      ast_simp [Ast.ElseIfBranch.elseifToken, Ast.ElseIfBranch.thenToken, Ast.ElseIfBranch.block,
        Ast.ElseIfBranch.elseBranch, Ast.ElseIfBranch.elseIfBranch, Ast.Can.block, Ast.Can.elseBranch,
        Ast.Can.elseIfBranch, hp, h1, h2, h3, h4, h6, h6', hn1]
    | elseIfBranch =>
      obtain ⟨i, c, t, b, l, hp, h1, h2, h3, h4, h6⟩ := map5 e
      refine ⟨i, c, t, b, [l], hp, h1, h2 ▸ hq, h3, h4, ?_⟩
      have h6' := h6
      rw [sym_tok] at h1 h3
      rw [sym_node] at h2 h4 h6
      ast_simp [Ast.ElseIfBranch.elseifToken, Ast.ElseIfBranch.thenToken, Ast.ElseIfBranch.block,
        Ast.ElseIfBranch.elseBranch, Ast.ElseIfBranch.elseIfBranch, Ast.Can.block, Ast.Can.elseBranch,
        Ast.Can.elseIfBranch, hp, h1, h2, h3, h4, h6, h6', hn1]

/-- The condition of an `if` statement. -/
theorem C66_if_partial (h : NodeOf text .ifStmt r) : ∃ i c rest, parts r = i :: c :: rest ∧ sym i = .tok .ifKw ∧
    IsExpr (sym c) ∧ Ast.IfStmt.cond r = (if c.kind = .parenExpr then none else some c) := by
  obtain ⟨ss, e, P⟩ := production h
  cases P with
  | ifStmt s es hs he =>
    have hq : IsExpr s := hs
    obtain ⟨k1, hk1, rfl⟩ := hs
    obtain ⟨i, _, hp, h1, e⟩ := mapCons e
    obtain ⟨c, _, rfl, h2, e⟩ := mapCons e
    obtain ⟨t, _, rfl, h3, e⟩ := mapCons e
    obtain ⟨b, _, rfl, h4, e⟩ := mapCons e
    refine ⟨i, c, _, hp, h1, h2 ▸ hq, ?_⟩
    rw [sym_tok] at h1 h3
    rw [sym_node] at h2 h4
    by_cases hq : k1 = .parenExpr
    · cases he with
      | none =>
        obtain ⟨x, rfl, h5⟩ := map1 e
        rw [sym_tok] at h5
        ast_simp [Ast.IfStmt.cond, hp, h1, h2, h3, h4, h5, hq]
      | elseBranch =>
        obtain ⟨l, x, rfl, h6, h5⟩ := map2 e
        rw [sym_tok] at h5
        rw [sym_node] at h6
        ast_simp [Ast.IfStmt.cond, hp, h1, h2, h3, h4, h5, h6, hq]
      | elseIfBranch =>
        obtain ⟨l, x, rfl, h6, h5⟩ := map2 e
        rw [sym_tok] at h5
        rw [sym_node] at h6
        ast_simp [Ast.IfStmt.cond, hp, h1, h2, h3, h4, h5, h6, hq]
    · ast_simp [Ast.IfStmt.cond, hp, h1, h2, hk1, hq]

/-- The condition of an `elseif` branch. -/
theorem C66_elseIf_partial (h : NodeOf text .elseIfBranch r) : ∃ i c rest, parts r = i :: c :: rest ∧
    sym i = .tok .elseifKw ∧ IsExpr (sym c) ∧
    Ast.ElseIfBranch.cond r = (if c.kind = .parenExpr then none else some c) := by
  obtain ⟨ss, e, P⟩ := production h
  cases P with
  | elseIfBranch s es hs he =>
    have hq : IsExpr s := hs
    obtain ⟨k1, hk1, rfl⟩ := hs
    obtain ⟨i, _, hp, h1, e⟩ := mapCons e
    obtain ⟨c, _, rfl, h2, e⟩ := mapCons e
    obtain ⟨t, _, rfl, h3, e⟩ := mapCons e
    obtain ⟨b, _, rfl, h4, e⟩ := mapCons e
    refine ⟨i, c, _, hp, h1, h2 ▸ hq, ?_⟩
    rw [sym_tok] at h1 h3
    rw [sym_node] at h2 h4
    by_cases hq : k1 = .parenExpr
    · cases he with
      | none =>
        rw [List.map_eq_nil_iff] at e
        subst e
        ast_simp [Ast.ElseIfBranch.cond, hp, h1, h2, h3, h4, hq]
      | elseBranch =>
        obtain ⟨l, rfl, h6⟩ := map1 e
        rw [sym_node] at h6
        ast_simp [Ast.ElseIfBranch.cond, hp, h1, h2, h3, h4, h6, hq]
      | elseIfBranch =>
        obtain ⟨l, rfl, h6⟩ := map1 e
        rw [sym_node] at h6
        ast_simp [Ast.ElseIfBranch.cond, hp, h1, h2, h3, h4, h6, hq]
    · ast_simp [Ast.ElseIfBranch.cond, hp, h1, h2, hk1, hq]

/-! ### C67: statements of a block -/

/-- The nodes among the parts. -/
private theorem filter_syms {l : List Red} {ss : List Sym} (e : l.map sym = ss) (p : SyntaxKind → Bool)
    (h : ∀ s ∈ ss, ∀ k, s = .node k → p k = true) :
    (l.filter fun e => e.green.isNode && p e.kind) = l.filter (·.green.isNode) := by
  subst e
  apply List.filter_congr
  intro x hx
  cases hn : x.green.isNode with
  | false => rfl
  | true => rw [Bool.true_and]; exact h (sym x) (List.mem_map_of_mem hx) x.kind (sym_node.2 ⟨hn, rfl⟩)

/-- **C67**: the children of a block are statements and semicolons, and `Block::stmts` lists the statements in order,
except those of the form `do … end`. -/
theorem C67_stmts_partial (h : NodeOf text .block r) :
    (∀ x ∈ parts r, (∃ k ∈ stmtKinds, sym x = .node k) ∨ sym x = .tok .semicolon) ∧
    Ast.Block.stmts r = (parts r).filter (fun x => x.green.isNode && x.kind != .doStmt) := by
  obtain ⟨ss, e, P⟩ := production h
  have hs : Stmts ss := by cases P; assumption
  have h1 : ∀ s ∈ ss, (∃ k ∈ stmtKinds, s = .node k) ∨ s = .tok .semicolon := by
    clear e P
    induction hs with
    | nil => simp
    | plain k ss hk _ ih =>
      intro s hs
      rcases List.mem_cons.1 hs with rfl | hs
      · exact .inl ⟨k, hk, rfl⟩
      · exact ih s hs
    | semi k ss hk _ ih =>
      intro s hs
      rcases List.mem_cons.1 hs with rfl | hs
      · exact .inl ⟨k, hk, rfl⟩
      · rcases List.mem_cons.1 hs with rfl | hs
        · exact .inr rfl
        · exact ih s hs
  have h2 : ∀ x ∈ parts r, (∃ k ∈ stmtKinds, sym x = .node k) ∨ sym x = .tok .semicolon :=
    fun x hx => h1 _ (e ▸ List.mem_map_of_mem hx)
  refine ⟨h2, ?_⟩
  rw [Ast.Block.stmts, children_parts]
  apply List.filter_congr
  intro x hx
  rcases h2 x hx with ⟨k, hk, hx⟩ | hx
  · rw [sym_node] at hx
    rw [hx.1, hx.2]
    clear hx
    revert k
    decide
  · rw [sym_tok] at hx
    rw [hx.1]; rfl

/-! ### C68, C69: lists -/

private theorem separated_mem {sep item ss} (h : Separated sep item ss) : ∀ s ∈ ss, item s ∨ s = .tok sep := by
  induction h with
  | one s hs => simp [hs]
  | cons s ss hs _ ih =>
    intro t ht
    rcases List.mem_cons.1 ht with rfl | ht
    · exact .inl hs
    · rcases List.mem_cons.1 ht with rfl | ht
      · exact .inr rfl
      · exact ih t ht

/-- **C68**: `MultiName::names` lists the names in order; the other parts are commas. -/
theorem C68_names (h : NodeOf text .multiName r) :
    (∀ x ∈ parts r, sym x = .node .name ∨ sym x = .tok .comma) ∧
    Ast.MultiName.names r = (parts r).filter (·.green.isNode) := by
  obtain ⟨ss, e, P⟩ := production h
  have h1 : ∀ s ∈ ss, s = .node .name ∨ s = .tok .comma := by
    cases P with
    | multiName _ hs => exact separated_mem hs
    | multiNameEmpty => simp
    | multiNameComma _ hs =>
      intro s hm
      rcases List.mem_append.1 hm with hm | hm
      · exact separated_mem hs s hm
      · simp at hm; exact .inr hm
  refine ⟨fun x hx => h1 _ (e ▸ List.mem_map_of_mem hx), ?_⟩
  rw [Ast.MultiName.names, children_parts]
  refine filter_syms e _ fun s hs k hk => ?_
  rcases h1 s hs with rfl | rfl <;> simp at hk
  rw [← hk]; rfl

/-- **C68**: `IndexPath::name_refs` lists the names of a path in order; the other parts are dots. -/
theorem C68_path (h : NodeOf text .indexPath r) :
    (∀ x ∈ parts r, sym x = .node .nameRef ∨ sym x = .tok .dot) ∧
    Ast.IndexPath.nameRefs r = (parts r).filter (·.green.isNode) := by
  obtain ⟨ss, e, P⟩ := production h
  have h1 : ∀ s ∈ ss, s = .node .nameRef ∨ s = .tok .dot := by
    cases P with
    | indexPath _ hs => exact separated_mem hs
    | indexPathDot _ hs =>
      intro s hm
      rcases List.mem_append.1 hm with hm | hm
      · exact separated_mem hs s hm
      · simp at hm; exact .inr hm
  refine ⟨fun x hx => h1 _ (e ▸ List.mem_map_of_mem hx), ?_⟩
  rw [Ast.IndexPath.nameRefs, children_parts]
  refine filter_syms e _ fun s hs k hk => ?_
  rcases h1 s hs with rfl | rfl <;> simp at hk
  rw [← hk]; rfl

/-- **C69**: the parts of an expression list are expressions and commas, and `MultivalExpr::exprs` lists the
expressions in order, except those in parentheses. -/
theorem C69_exprs_partial (h : NodeOf text .multivalExpr r) :
    (∀ x ∈ parts r, IsExpr (sym x) ∨ sym x = .tok .comma) ∧
    Ast.MultivalExpr.exprs r = (parts r).filter (fun x => x.green.isNode && x.kind != .parenExpr) := by
  obtain ⟨ss, e, P⟩ := production h
  have hs : Spec.exprs ss := by cases P; assumption
  have h2 : ∀ x ∈ parts r, IsExpr (sym x) ∨ sym x = .tok .comma :=
    fun x hx => separated_mem hs _ (e ▸ List.mem_map_of_mem hx)
  refine ⟨h2, ?_⟩
  rw [Ast.MultivalExpr.exprs, children_parts]
  apply List.filter_congr
  intro x hx
  rcases h2 x hx with ⟨k, hk, hx⟩ | hx
  · rw [sym_node] at hx
    rw [hx.1, hx.2]
    clear hx
    revert k
    decide
  · rw [sym_tok] at hx
    rw [hx.1]; rfl

/-- **C68**: `(names, ...)`: the parameters of a function. -/
theorem C68_params (h : NodeOf text .paramList r) : ∃ l ns vs x, parts r = l :: (ns ++ vs ++ [x]) ∧
    sym l = .tok .lParen ∧ sym x = .tok .rParen ∧ Ast.ParamList.lParenToken r = some l ∧
    Ast.ParamList.rParenToken r = some x ∧
    ((ns = [] ∧ Ast.ParamList.multiName r = none) ∨
      ∃ n, ns = [n] ∧ sym n = .node .multiName ∧ Ast.ParamList.multiName r = some n) ∧
    ((vs = [] ∧ Ast.ParamList.tripleDotToken r = none) ∨
      ∃ v, vs = [v] ∧ sym v = .tok .tripleDot ∧ Ast.ParamList.tripleDotToken r = some v) := by
  obtain ⟨ss, e, P⟩ := production h
  cases P with
  | paramListEmpty =>
    obtain ⟨l, x, hp, h1, h2⟩ := map2 e
    refine ⟨l, [], [], x, hp, h1, h2, ?_⟩
    rw [sym_tok] at h1 h2
    ast_simp [Ast.ParamList.lParenToken, Ast.ParamList.rParenToken, Ast.ParamList.multiName,
      Ast.ParamList.tripleDotToken, Ast.Can.multiName, hp, h1, h2]
  | paramList =>
    obtain ⟨l, n, x, hp, h1, h3, h2⟩ := map3 e
    refine ⟨l, [n], [], x, hp, h1, h2, ?_⟩
    have h3' := h3
    rw [sym_tok] at h1 h2
    rw [sym_node] at h3
    ast_simp [Ast.ParamList.lParenToken, Ast.ParamList.rParenToken, Ast.ParamList.multiName,
      Ast.ParamList.tripleDotToken, Ast.Can.multiName, hp, h1, h2, h3, h3']
  | paramListVararg =>
    obtain ⟨l, n, v, x, hp, h1, h3, h4, h2⟩ := map4 e
    refine ⟨l, [n], [v], x, hp, h1, h2, ?_⟩
    have h3' := h3
    have h4' := h4
    rw [sym_tok] at h1 h2 h4
    rw [sym_node] at h3
    ast_simp [Ast.ParamList.lParenToken, Ast.ParamList.rParenToken, Ast.ParamList.multiName,
      Ast.ParamList.tripleDotToken, Ast.Can.multiName, hp, h1, h2, h3, h3', h4, h4']

/-- **C68**: `local names [= values]` -/
theorem C68_local (h : NodeOf text .localAssignStmt r) : ∃ l n vs, parts r = l :: n :: vs ∧
    sym l = .tok .localKw ∧ sym n = .node .multiName ∧ Ast.LocalAssignStmt.localToken r = some l ∧
    Ast.LocalAssignStmt.multiName r = some n ∧
    ((vs = [] ∧ Ast.LocalAssignStmt.eqToken r = none ∧ Ast.LocalAssignStmt.multivalExpr r = none) ∨
      ∃ q v, vs = [q, v] ∧ sym q = .tok .eq ∧ sym v = .node .multivalExpr ∧ Ast.LocalAssignStmt.eqToken r = some q ∧
        Ast.LocalAssignStmt.multivalExpr r = some v) := by
  obtain ⟨ss, e, P⟩ := production h
  cases P with
  | localNames =>
    obtain ⟨l, n, hp, h1, h2⟩ := map2 e
    refine ⟨l, n, [], hp, h1, h2, ?_⟩
    rw [sym_tok] at h1
    rw [sym_node] at h2
    ast_simp [Ast.LocalAssignStmt.localToken, Ast.LocalAssignStmt.multiName, Ast.LocalAssignStmt.eqToken,
      Ast.LocalAssignStmt.multivalExpr, Ast.Can.multiName, Ast.Can.multivalExpr, hp, h1, h2]
  | localAssign =>
    obtain ⟨l, n, q, v, hp, h1, h2, h3, h4⟩ := map4 e
    refine ⟨l, n, [q, v], hp, h1, h2, ?_⟩
    have h3' := h3
    have h4' := h4
    rw [sym_tok] at h1 h3
    rw [sym_node] at h2 h4
    ast_simp [Ast.LocalAssignStmt.localToken, Ast.LocalAssignStmt.multiName, Ast.LocalAssignStmt.eqToken,
      Ast.LocalAssignStmt.multivalExpr, Ast.Can.multiName, Ast.Can.multivalExpr, hp, h1, h2, h3, h4, h3', h4']
    exact ⟨q, v, ⟨rfl, rfl⟩, h3', h4', rfl, rfl⟩

/-- **C68**: the two sides of an assignment. -/
theorem C68_assign_sides (h : NodeOf text .assignStmt r) : ∃ l q x, parts r = [l, q, x] ∧
    sym l = .node .multivalExpr ∧ sym q = .tok .eq ∧ sym x = .node .multivalExpr ∧
    Ast.AssignStmt.lhs r = some l ∧ Ast.AssignStmt.rhs r = some x := by
  obtain ⟨ss, e, P⟩ := production h
  cases P with
  | assignStmt =>
    obtain ⟨l, q, x, hp, h1, h2, h3⟩ := map3 e
    refine ⟨l, q, x, hp, h1, h2, h3, ?_⟩
    rw [sym_tok] at h2
    rw [sym_node] at h1 h3
    ast_simp [Ast.AssignStmt.lhs, Ast.AssignStmt.rhs, Ast.AssignStmt.subMultivalExprs, Ast.Can.multivalExpr, hp, h1, h2, h3]

/-! ### C70: parts no accessor returns, continued -/

/-- `ReturnStmt::expr` is always `None`, even if values are returned. -/
theorem C70_return_fails (h : NodeOf text .returnStmt r) : Ast.ReturnStmt.expr r = none ∧
    ∃ k vs, parts r = k :: vs ∧ sym k = .tok .returnKw ∧ Ast.ReturnStmt.returnToken r = some k ∧
      (vs = [] ∨ ∃ v, vs = [v] ∧ sym v = .node .multivalExpr) := by
  obtain ⟨ss, e, P⟩ := production h
  cases P with
  | returnNone =>
    obtain ⟨k, hp, h1⟩ := map1 e
    have h1' := h1
    rw [sym_tok] at h1
    refine ⟨?_, k, [], hp, h1', ?_, .inl rfl⟩ <;>
      ast_simp [Ast.ReturnStmt.expr, Ast.ReturnStmt.returnToken, hp, h1]
  | returnStmt =>
    obtain ⟨k, v, hp, h1, h2⟩ := map2 e
    have h1' := h1
    have h2' := h2
    rw [sym_tok] at h1
    rw [sym_node] at h2
    refine ⟨?_, k, [v], hp, h1', ?_, .inr ⟨v, rfl, h2'⟩⟩ <;>
      ast_simp [Ast.ReturnStmt.expr, Ast.ReturnStmt.returnToken, hp, h1, h2]

/-- `ArgList::args` is always empty, even if there are arguments. -/
theorem C70_args_fails (h : NodeOf text .argList r) : Ast.ArgList.args r = [] ∧
    ∃ l vs x, parts r = l :: (vs ++ [x]) ∧ sym l = .tok .lParen ∧ sym x = .tok .rParen ∧
      Ast.ArgList.lParenToken r = some l ∧ Ast.ArgList.rParenToken r = some x ∧
      (vs = [] ∨ ∃ v, vs = [v] ∧ sym v = .node .multivalExpr) := by
  obtain ⟨ss, e, P⟩ := production h
  cases P with
  | argListEmpty =>
    obtain ⟨l, x, hp, h1, h2⟩ := map2 e
    refine ⟨?_, l, [], x, hp, h1, h2, ?_⟩ <;> rw [sym_tok] at h1 h2 <;>
      ast_simp [Ast.ArgList.args, Ast.ArgList.lParenToken, Ast.ArgList.rParenToken, hp, h1, h2]
  | argList =>
    obtain ⟨l, v, x, hp, h1, h3, h2⟩ := map3 e
    have h3' := h3
    refine ⟨?_, l, [v], x, hp, h1, h2, ?_⟩ <;> rw [sym_tok] at h1 h2 <;> rw [sym_node] at h3 <;>
      ast_simp [Ast.ArgList.args, Ast.ArgList.lParenToken, Ast.ArgList.rParenToken, hp, h1, h2, h3, h3']

/-- `TableExpr::table_contents` is always `None`, even if the table has entries. -/
theorem C70_table_fails (h : NodeOf text .tableExpr r) : Ast.TableExpr.tableContents r = none ∧
    ∃ l vs x, parts r = l :: (vs ++ [x]) ∧ sym l = .tok .lBrace ∧ sym x = .tok .rBrace ∧
      Ast.TableExpr.lCurlyToken r = some l ∧ Ast.TableExpr.rCurlyToken r = some x ∧
      ∀ v ∈ vs, sym v = .node .tableContent ∨ sym v = .node .tableSep := by
  obtain ⟨ss, e, P⟩ := production h
  cases P with
  | tableExpr es hes =>
    have hm : ∀ s ∈ es, s = .node .tableContent ∨ s = .node .tableSep := by
      clear e
      induction hes with
      | nil => simp
      | last => simp
      | cons ss _ ih =>
        intro s hs
        rcases List.mem_cons.1 hs with rfl | hs
        · exact .inl rfl
        · rcases List.mem_cons.1 hs with rfl | hs
          · exact .inr rfl
          · exact ih s hs
    obtain ⟨l, xs, hp, h1, e⟩ := mapCons e
    obtain ⟨vs, ys, rfl, e1, e2⟩ := List.map_eq_append_iff.1 e
    obtain ⟨x, rfl, h2⟩ := map1 e2
    have hv : ∀ v ∈ vs, sym v = .node .tableContent ∨ sym v = .node .tableSep :=
      fun v hv => hm _ (e1 ▸ List.mem_map_of_mem hv)
    refine ⟨?_, l, vs, x, hp, h1, h2, ?_, ?_, hv⟩
    · rw [sym_tok] at h1 h2
      rw [Ast.TableExpr.tableContents, child_parts, hp, List.find?_eq_none]
      intro v hv'
      simp only [List.mem_cons, List.mem_append, List.not_mem_nil, or_false] at hv'
      rcases hv' with rfl | hv' | rfl
      · simp [h1]
      · rcases hv v hv' with h | h <;> rw [sym_node] at h <;> rw [h.1, h.2] <;> decide
      · simp [h2]
    · rw [sym_tok] at h1
      ast_simp [Ast.TableExpr.lCurlyToken, hp, h1]
    · rw [sym_tok] at h1 h2
      rw [Ast.TableExpr.rCurlyToken, token_parts _ (by decide), hp]
      have : vs.find? (fun e => !e.green.isNode && e.kind == .rBrace) = none := by
        rw [List.find?_eq_none]
        intro v hv'
        rcases hv v hv' with h | h <;> rw [sym_node] at h <;> simp [h.1]
      simp (decide := true) [List.find?_append, this, h1, h2]

/-- `SourceFile::stmt_items` is always empty, whatever functions and locals the file defines. -/
theorem C70_items_fails (h : NodeOf text .sourceFile r) : Ast.SourceFile.stmtItems r = [] := by
  obtain ⟨ss, e, P⟩ := production h
  cases P with
  | sourceFile =>
    obtain ⟨b, hp, h1⟩ := map1 e
    rw [sym_node] at h1
    ast_simp [Ast.SourceFile.stmtItems, Ast.Can.stmtItem, hp, h1]

end Verif
