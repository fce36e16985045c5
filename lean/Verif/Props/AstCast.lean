import Verif.Model.Ast
import Verif.Props.AstExpr
import Verif.Props.AstExamples

/-
C79: the union types of the typed tree.  C80: typed tokens.
-/
namespace Verif
open Spec Lua

variable {text : Text} {r : Red}

/-! ### C79: the union types

`member`: the kind a variant is named after. -/

def Ast.Stmt.member : Ast.Stmt → SyntaxKind
  | .block _ => .block
  | .assignStmt _ => .assignStmt
  | .localAssignStmt _ => .localAssignStmt
  | .localFunctionDefStmt _ => .localFunctionDefStmt
  | .functionDefStmt _ => .functionDefStmt
  | .forStmt _ => .forStmt
  | .ifStmt _ => .ifStmt
  | .returnStmt _ => .returnStmt
  | .whileStmt _ => .whileStmt
  | .exprStmt _ => .exprStmt
  | .breakStmt _ => .breakStmt
  | .repeatUntilStmt _ => .repeatUntilStmt
  | .labelStmt _ => .labelStmt
  | .gotoStmt _ => .gotoStmt

def Ast.StmtItem.member : Ast.StmtItem → SyntaxKind
  | .localAssignStmt _ => .localAssignStmt
  | .localFunctionDefStmt _ => .localFunctionDefStmt
  | .functionDefStmt _ => .functionDefStmt

def Ast.FunctionDefContent.member : Ast.FunctionDefContent → SyntaxKind
  | .functionMethod _ => .functionMethod
  | .functionStatic _ => .functionStatic
  | .name _ => .name

def Ast.Expr.member : Ast.Expr → SyntaxKind
  | .literal _ => .literal
  | .tableExpr _ => .tableExpr
  | .infixExpr _ => .infixExpr
  | .prefixExpr _ => .prefixExpr
  | .indexExpr _ => .indexExpr
  | .dotExpr _ => .dotExpr
  | .functionExpr _ => .functionExpr
  | .callExpr _ => .callExpr
  | .methodCallExpr _ => .methodCallExpr
  | .nameRef _ => .nameRef

def Ast.ForContent.member : Ast.ForContent → SyntaxKind
  | .numericFor _ => .numericFor
  | .genericFor _ => .genericFor

def Ast.TableContent.member : Ast.TableContent → SyntaxKind
  | .keyValue _ => .keyValue
  | .positionalValue _ => .positionalValue

def Ast.TableKey.member : Ast.TableKey → SyntaxKind
  | .index _ => .index
  | .name _ => .name

/-- What casting to a union type should be: a node casts exactly to the value whose variant is named after its kind and
which wraps that very node; it casts if there is such a variant; and `can_cast` says whether there is. -/
def CastsTo {α : Type} (cast : Red → Option α) (syn : α → Red) (member : α → SyntaxKind) (can : SyntaxKind → Bool) : Prop :=
  (∀ r s, cast r = some s ↔ syn s = r ∧ member s = r.kind) ∧ (∀ k, can k = true ↔ ∃ s, member s = k) ∧
    ∀ r, (cast r).isSome = can r.kind

/-- **C79** for `Stmt`. -/
theorem C79_stmt : CastsTo Ast.Stmt.cast Ast.Stmt.syntax Ast.Stmt.member Ast.Can.stmt := by
  refine ⟨fun r s => ⟨fun h => ?_, fun h => ?_⟩, fun k => ⟨fun h => ?_, ?_⟩, fun r => ?_⟩
  · simp only [Ast.Stmt.cast] at h
    split at h <;> simp only [Option.some.injEq, reduceCtorEq] at h <;> subst h <;> simp_all [Ast.Stmt.syntax, Ast.Stmt.member]
  · obtain ⟨h1, h2⟩ := h
    cases s <;> simp only [Ast.Stmt.syntax, Ast.Stmt.member] at h1 h2 <;> subst h1 <;> simp [Ast.Stmt.cast, ← h2]
  · simp only [Ast.Can.stmt, List.contains_iff_mem, List.mem_cons, List.not_mem_nil, or_false] at h
    rcases h with h | h | h | h | h | h | h | h | h | h | h | h | h | h
    · exact ⟨.block ⟨[], 0, default⟩, h.symm⟩
    · exact ⟨.assignStmt ⟨[], 0, default⟩, h.symm⟩
    · exact ⟨.localAssignStmt ⟨[], 0, default⟩, h.symm⟩
    · exact ⟨.localFunctionDefStmt ⟨[], 0, default⟩, h.symm⟩
    · exact ⟨.functionDefStmt ⟨[], 0, default⟩, h.symm⟩
    · exact ⟨.forStmt ⟨[], 0, default⟩, h.symm⟩
    · exact ⟨.ifStmt ⟨[], 0, default⟩, h.symm⟩
    · exact ⟨.returnStmt ⟨[], 0, default⟩, h.symm⟩
    · exact ⟨.whileStmt ⟨[], 0, default⟩, h.symm⟩
    · exact ⟨.exprStmt ⟨[], 0, default⟩, h.symm⟩
    · exact ⟨.breakStmt ⟨[], 0, default⟩, h.symm⟩
    · exact ⟨.repeatUntilStmt ⟨[], 0, default⟩, h.symm⟩
    · exact ⟨.labelStmt ⟨[], 0, default⟩, h.symm⟩
    · exact ⟨.gotoStmt ⟨[], 0, default⟩, h.symm⟩
  · rintro ⟨s, rfl⟩
    cases s <;> rfl
  · simp only [Ast.Stmt.cast]
    generalize r.kind = k
    cases k <;> rfl

/-- **C79** for `StmtItem`. -/
theorem C79_stmtItem : CastsTo Ast.StmtItem.cast Ast.StmtItem.syntax Ast.StmtItem.member Ast.Can.stmtItem := by
  refine ⟨fun r s => ⟨fun h => ?_, fun h => ?_⟩, fun k => ⟨fun h => ?_, ?_⟩, fun r => ?_⟩
  · simp only [Ast.StmtItem.cast] at h
    split at h <;> simp only [Option.some.injEq, reduceCtorEq] at h <;> subst h <;> simp_all [Ast.StmtItem.syntax, Ast.StmtItem.member]
  · obtain ⟨h1, h2⟩ := h
    cases s <;> simp only [Ast.StmtItem.syntax, Ast.StmtItem.member] at h1 h2 <;> subst h1 <;> simp [Ast.StmtItem.cast, ← h2]
  · simp only [Ast.Can.stmtItem, List.contains_iff_mem, List.mem_cons, List.not_mem_nil, or_false] at h
    rcases h with h | h | h
    · exact ⟨.localAssignStmt ⟨[], 0, default⟩, h.symm⟩
    · exact ⟨.localFunctionDefStmt ⟨[], 0, default⟩, h.symm⟩
    · exact ⟨.functionDefStmt ⟨[], 0, default⟩, h.symm⟩
  · rintro ⟨s, rfl⟩
    cases s <;> rfl
  · simp only [Ast.StmtItem.cast]
    generalize r.kind = k
    cases k <;> rfl

/-- **C79** for `FunctionDefContent`. -/
theorem C79_functionDefContent : CastsTo Ast.FunctionDefContent.cast Ast.FunctionDefContent.syntax Ast.FunctionDefContent.member Ast.Can.functionDefContent := by
  refine ⟨fun r s => ⟨fun h => ?_, fun h => ?_⟩, fun k => ⟨fun h => ?_, ?_⟩, fun r => ?_⟩
  · simp only [Ast.FunctionDefContent.cast] at h
    split at h <;> simp only [Option.some.injEq, reduceCtorEq] at h <;> subst h <;> simp_all [Ast.FunctionDefContent.syntax, Ast.FunctionDefContent.member]
  · obtain ⟨h1, h2⟩ := h
    cases s <;> simp only [Ast.FunctionDefContent.syntax, Ast.FunctionDefContent.member] at h1 h2 <;> subst h1 <;> simp [Ast.FunctionDefContent.cast, ← h2]
  · simp only [Ast.Can.functionDefContent, List.contains_iff_mem, List.mem_cons, List.not_mem_nil, or_false] at h
    rcases h with h | h | h
    · exact ⟨.functionMethod ⟨[], 0, default⟩, h.symm⟩
    · exact ⟨.functionStatic ⟨[], 0, default⟩, h.symm⟩
    · exact ⟨.name ⟨[], 0, default⟩, h.symm⟩
  · rintro ⟨s, rfl⟩
    cases s <;> rfl
  · simp only [Ast.FunctionDefContent.cast]
    generalize r.kind = k
    cases k <;> rfl

/-- **C79** for `Expr`. -/
theorem C79_expr : CastsTo Ast.Expr.cast Ast.Expr.syntax Ast.Expr.member Ast.Can.expr := by
  refine ⟨fun r s => ⟨fun h => ?_, fun h => ?_⟩, fun k => ⟨fun h => ?_, ?_⟩, fun r => ?_⟩
  · simp only [Ast.Expr.cast] at h
    split at h <;> simp only [Option.some.injEq, reduceCtorEq] at h <;> subst h <;> simp_all [Ast.Expr.syntax, Ast.Expr.member]
  · obtain ⟨h1, h2⟩ := h
    cases s <;> simp only [Ast.Expr.syntax, Ast.Expr.member] at h1 h2 <;> subst h1 <;> simp [Ast.Expr.cast, ← h2]
  · simp only [Ast.Can.expr, List.contains_iff_mem, List.mem_cons, List.not_mem_nil, or_false] at h
    rcases h with h | h | h | h | h | h | h | h | h | h
    · exact ⟨.literal ⟨[], 0, default⟩, h.symm⟩
    · exact ⟨.tableExpr ⟨[], 0, default⟩, h.symm⟩
    · exact ⟨.infixExpr ⟨[], 0, default⟩, h.symm⟩
    · exact ⟨.prefixExpr ⟨[], 0, default⟩, h.symm⟩
    · exact ⟨.indexExpr ⟨[], 0, default⟩, h.symm⟩
    · exact ⟨.dotExpr ⟨[], 0, default⟩, h.symm⟩
    · exact ⟨.functionExpr ⟨[], 0, default⟩, h.symm⟩
    · exact ⟨.callExpr ⟨[], 0, default⟩, h.symm⟩
    · exact ⟨.methodCallExpr ⟨[], 0, default⟩, h.symm⟩
    · exact ⟨.nameRef ⟨[], 0, default⟩, h.symm⟩
  · rintro ⟨s, rfl⟩
    cases s <;> rfl
  · simp only [Ast.Expr.cast]
    generalize r.kind = k
    cases k <;> rfl

/-- **C79** for `ForContent`. -/
theorem C79_forContent : CastsTo Ast.ForContent.cast Ast.ForContent.syntax Ast.ForContent.member Ast.Can.forContent := by
  refine ⟨fun r s => ⟨fun h => ?_, fun h => ?_⟩, fun k => ⟨fun h => ?_, ?_⟩, fun r => ?_⟩
  · simp only [Ast.ForContent.cast] at h
    split at h <;> simp only [Option.some.injEq, reduceCtorEq] at h <;> subst h <;> simp_all [Ast.ForContent.syntax, Ast.ForContent.member]
  · obtain ⟨h1, h2⟩ := h
    cases s <;> simp only [Ast.ForContent.syntax, Ast.ForContent.member] at h1 h2 <;> subst h1 <;> simp [Ast.ForContent.cast, ← h2]
  · simp only [Ast.Can.forContent, List.contains_iff_mem, List.mem_cons, List.not_mem_nil, or_false] at h
    rcases h with h | h
    · exact ⟨.numericFor ⟨[], 0, default⟩, h.symm⟩
    · exact ⟨.genericFor ⟨[], 0, default⟩, h.symm⟩
  · rintro ⟨s, rfl⟩
    cases s <;> rfl
  · simp only [Ast.ForContent.cast]
    generalize r.kind = k
    cases k <;> rfl

/-- **C79** for `TableContent`. -/
theorem C79_tableContent : CastsTo Ast.TableContent.cast Ast.TableContent.syntax Ast.TableContent.member Ast.Can.tableContent := by
  refine ⟨fun r s => ⟨fun h => ?_, fun h => ?_⟩, fun k => ⟨fun h => ?_, ?_⟩, fun r => ?_⟩
  · simp only [Ast.TableContent.cast] at h
    split at h <;> simp only [Option.some.injEq, reduceCtorEq] at h <;> subst h <;> simp_all [Ast.TableContent.syntax, Ast.TableContent.member]
  · obtain ⟨h1, h2⟩ := h
    cases s <;> simp only [Ast.TableContent.syntax, Ast.TableContent.member] at h1 h2 <;> subst h1 <;> simp [Ast.TableContent.cast, ← h2]
  · simp only [Ast.Can.tableContent, List.contains_iff_mem, List.mem_cons, List.not_mem_nil, or_false] at h
    rcases h with h | h
    · exact ⟨.keyValue ⟨[], 0, default⟩, h.symm⟩
    · exact ⟨.positionalValue ⟨[], 0, default⟩, h.symm⟩
  · rintro ⟨s, rfl⟩
    cases s <;> rfl
  · simp only [Ast.TableContent.cast]
    generalize r.kind = k
    cases k <;> rfl

/-- **C79** for `TableKey`. -/
theorem C79_tableKey : CastsTo Ast.TableKey.cast Ast.TableKey.syntax Ast.TableKey.member Ast.Can.tableKey := by
  refine ⟨fun r s => ⟨fun h => ?_, fun h => ?_⟩, fun k => ⟨fun h => ?_, ?_⟩, fun r => ?_⟩
  · simp only [Ast.TableKey.cast] at h
    split at h <;> simp only [Option.some.injEq, reduceCtorEq] at h <;> subst h <;> simp_all [Ast.TableKey.syntax, Ast.TableKey.member]
  · obtain ⟨h1, h2⟩ := h
    cases s <;> simp only [Ast.TableKey.syntax, Ast.TableKey.member] at h1 h2 <;> subst h1 <;> simp [Ast.TableKey.cast, ← h2]
  · simp only [Ast.Can.tableKey, List.contains_iff_mem, List.mem_cons, List.not_mem_nil, or_false] at h
    rcases h with h | h
    · exact ⟨.index ⟨[], 0, default⟩, h.symm⟩
    · exact ⟨.name ⟨[], 0, default⟩, h.symm⟩
  · rintro ⟨s, rfl⟩
    cases s <;> rfl
  · simp only [Ast.TableKey.cast]
    generalize r.kind = k
    cases k <;> rfl

/-- **C79** The child accessors find the children that cast. -/
theorem C79_children {α : Type} {cast : Red → Option α} {syn : α → Red} {member : α → SyntaxKind}
    {can : SyntaxKind → Bool} (h : CastsTo cast syn member can) (r : Red) :
    Ast.child can r = (r.children.findSome? cast).map syn ∧
      Ast.children can r = (r.children.filterMap cast).map syn := by
  have h1 : ∀ c : Red, (cast c).map syn = if can c.kind = true then some c else none := by
    intro c
    cases hc : cast c with
    | some s =>
      have := (h.1 c s).1 hc
      rw [if_pos ((h.2.1 _).2 ⟨s, this.2⟩)]; simp [this.1]
    | none =>
      rw [if_neg]; · rfl
      intro hcan
      have := h.2.2 c
      rw [hc, hcan] at this; cases this
  simp only [Ast.child, Ast.children]
  generalize r.children = l
  induction l with
  | nil => simp
  | cons c l ih =>
    have := h1 c
    cases hc : cast c with
    | some s =>
      rw [hc] at this
      by_cases hcan : can c.kind = true
      · rw [if_pos hcan] at this
        simp only [Option.map_some, Option.some.injEq] at this
        simp [hc, hcan, this, ih.2]
      · rw [if_neg hcan] at this; cases this
    | none =>
      rw [hc] at this
      by_cases hcan : can c.kind = true
      · rw [if_pos hcan] at this; cases this
      · simp [hc, hcan, ih]

/-! ### statements with blocks -/

/-- **C79** `Stmt::is_block_like` holds exactly for the statements that start with one of the words `if`, `for`, `while`,
`function`, `repeat`. -/
theorem C79_blockLike {k : SyntaxKind} (h : NodeOf text k r) (s : Ast.Stmt) (hs : Ast.Stmt.cast r = some s) :
    s.isBlockLike = true ↔ ∃ x ∈ (parts r).head?, ∃ k ∈ [SyntaxKind.ifKw, .forKw, .whileKw, .functionKw, .repeatKw],
      sym x = .tok k := by
  obtain ⟨h1, h2⟩ := (C79_stmt.1 r s).1 hs
  have hk : r.kind = k := by obtain ⟨_, _, _, h⟩ := h; exact h
  obtain ⟨ss, e, P⟩ := production h
  have key : (∃ x ∈ (parts r).head?, ∃ k ∈ [SyntaxKind.ifKw, .forKw, .whileKw, .functionKw, .repeatKw], sym x = .tok k) ↔
      ∃ k ∈ [SyntaxKind.ifKw, .forKw, .whileKw, .functionKw, .repeatKw], ss.head? = some (.tok k) := by
    rw [← e]
    cases parts r with
    | nil => simp
    | cons x l => simp
  rw [key]
  rw [hk] at h2
  cases s <;> simp only [Ast.Stmt.member] at h2 <;> subst h2 <;> cases P <;>
    (first
      | simp [Ast.Stmt.isBlockLike]; done
      | (rename_i hS; cases hS <;> simp [Ast.Stmt.isBlockLike]))

/-- Both answers occur. -/
example : (∃ text r s, NodeOf text .whileStmt r ∧ Ast.Stmt.cast r = some s ∧ s.isBlockLike = true) ∧
    ∃ text r s, NodeOf text .localFunctionDefStmt r ∧ Ast.Stmt.cast r = some s ∧ s.isBlockLike = false := by
  obtain ⟨text, r, h⟩ := astKinds_occur .whileStmt (by decide)
  obtain ⟨text', r', h'⟩ := astKinds_occur .localFunctionDefStmt (by decide)
  refine ⟨⟨text, r, .whileStmt r, h, (C79_stmt.1 _ _).2 ⟨rfl, ?_⟩, rfl⟩,
    ⟨text', r', .localFunctionDefStmt r', h', (C79_stmt.1 _ _).2 ⟨rfl, ?_⟩, rfl⟩⟩
  · obtain ⟨_, _, _, e⟩ := h; exact e.symm
  · obtain ⟨_, _, _, e⟩ := h'; exact e.symm

/-! ### C80: typed tokens -/

/-- **C80** The tokens of a file that are written as names, numbers, strings, comments and white space are exactly those
that cast to the typed tokens `Ident`, `Number`, `Str`, `Comment` and `Whitespace`; the typed token is the token itself.
(Missing: `True` and `False`, which fail.) -/
theorem C80_tokens_partial (text : Text) (tree : Green) (h : parseText text = .ok (tree, [])) (t : Red)
    (hm : (t.kind, t.green.text) ∈ tree.leaves) :
    (Ast.castToken Ast.CanToken.ident t = some t ↔ Spelled .ident t.green.text) ∧
    (Ast.castToken Ast.CanToken.number t = some t ↔ Spelled .number t.green.text) ∧
    (Ast.castToken Ast.CanToken.str t = some t ↔ Spelled .str t.green.text) ∧
    (Ast.castToken Ast.CanToken.comment t = some t ↔ Spelled .comment t.green.text) ∧
    (Ast.castToken Ast.CanToken.whitespace t = some t ↔ Spelled .whitespace t.green.text) := by
  have hs := C75_tree text tree h _ hm
  have key : ∀ (can : SyntaxKind → Bool) (k : SyntaxKind), (∀ x, can x = (x == k)) →
      (Ast.castToken can t = some t ↔ Spelled k t.green.text) := by
    intro can k hc
    simp only [Ast.castToken, hc]
    constructor
    · intro h
      split at h
      · next h' => rw [← beq_iff_eq.1 h']; exact hs
      · cases h
    · intro h
      have e : t.kind = k := C75_unique hs h
      simp [e]
  exact ⟨key _ _ fun _ => rfl, key _ _ fun _ => rfl, key _ _ fun _ => rfl, key _ _ fun _ => rfl, key _ _ fun _ => rfl⟩

/-- **C80 fails** for `True` and `False`: no token of any file casts to them (nor to `Shebang` or `Error`). -/
theorem C80_true_fails (text : Text) (tree : Green) (errors : List SyntaxError)
    (h : parseText text = .ok (tree, errors)) (t : Red) (hm : (t.kind, t.green.text) ∈ tree.leaves) :
    Ast.castToken Ast.CanToken.true t = none ∧ Ast.castToken Ast.CanToken.false t = none ∧
      Ast.castToken Ast.CanToken.shebang t = none ∧ Ast.castToken Ast.CanToken.error t = none := by
  obtain ⟨ls, tree', errors', h1, h2, _, _, h4, _⟩ := parseText_tree text
  rw [h] at h2
  simp only [Except.ok.injEq, Prod.mk.injEq] at h2
  obtain ⟨rfl, rfl⟩ := h2
  rw [h4, List.mem_map] at hm
  obtain ⟨l, hl, e⟩ := hm
  have hs := lexemes_spelled h1 l hl
  have hk : t.kind = l.kind := by simp only [lxOf, Prod.mk.injEq] at e; exact e.1.symm
  have hd : ∀ p ∈ keywords ++ operators, p.2 ≠ .trueLit ∧ p.2 ≠ .falseLit ∧ p.2 ≠ .shebang ∧ p.2 ≠ .error := by decide
  have : l.kind ≠ .trueLit ∧ l.kind ≠ .falseLit ∧ l.kind ≠ .shebang ∧ l.kind ≠ .error := by
    generalize l.kind = k at hs ⊢
    generalize l.word = w at hs
    split at hs
    · cases hs with
      | fixed h => exact hd _ h
      | _ => simp
    · cases hs <;> simp
  simp [Ast.castToken, hk, Ast.CanToken.true, Ast.CanToken.false, Ast.CanToken.shebang, Ast.CanToken.error, this]

/-- the tree of `return true` -/
private def returnTrue : Green :=
  .node .sourceFile [.node .block [.node .returnStmt [.token .returnKw "return".toList,
  .token .whitespace " ".toList, .node .multivalExpr [.node .literal [.token .trueKw "true".toList]]]]]

/-- The word `true` is a token that should cast to `True`. -/
example : parseText "return true".toList = .ok (returnTrue, []) ∧ ∃ t : Red, (t.kind, t.green.text) ∈ returnTrue.leaves ∧ Spelled t.kind "true".toList ∧
    Ast.castToken Ast.CanToken.true t = none :=
  ⟨by rw [parseText_eq_eval]; decide +kernel, ⟨[0, 0, 2, 0, 0], 7, .token .trueKw "true".toList⟩, by decide +kernel, .fixed (s := "true") (by decide), rfl⟩

/-! ### C72: the tokens of literals -/

/-- **C72** The token accessors of a literal: each returns the token of the literal if it is of its kind. -/
theorem C72_tokens (h : NodeOf text .literal r) : ∃ x, parts r = [x] ∧
    Ast.Literal.numberToken r = (if sym x = .tok .number then some x else none) ∧
    Ast.Literal.strToken r = (if sym x = .tok .str then some x else none) ∧
    Ast.Literal.trueToken r = (if sym x = .tok .trueKw then some x else none) ∧
    Ast.Literal.falseToken r = (if sym x = .tok .falseKw then some x else none) := by
  obtain ⟨ss, e, P⟩ := production h
  cases P with
  | literal k hk =>
    obtain ⟨x, hp, h1⟩ := map1 e
    refine ⟨x, hp, ?_⟩
    rw [h1]
    rw [sym_tok] at h1
    simp only [literalKinds, List.mem_cons, List.not_mem_nil, or_false] at hk
    rcases hk with rfl | rfl | rfl | rfl | rfl | rfl <;>
      ast_simp [Ast.Literal.numberToken, Ast.Literal.strToken, Ast.Literal.trueToken, Ast.Literal.falseToken, hp, h1]

/-- **C70** `ArgList::triple_dot_token` never returns anything. -/
theorem C70_argDots_fails (h : NodeOf text .argList r) : Ast.ArgList.tripleDotToken r = none := by
  obtain ⟨ss, e, P⟩ := production h
  cases P with
  | argListEmpty =>
    obtain ⟨x, y, hp, h1, h2⟩ := map2 e
    rw [sym_tok] at h1 h2
    ast_simp [Ast.ArgList.tripleDotToken, hp, h1, h2]
  | argList =>
    obtain ⟨x, y, z, hp, h1, h2, h3⟩ := map3 e
    rw [sym_tok] at h1 h3
    rw [sym_node] at h2
    ast_simp [Ast.ArgList.tripleDotToken, hp, h1, h2, h3]
/-- The struct types of the typed tree: each by the kind it is named after, with its `can_cast`. -/
def structTypes : List (SyntaxKind × (SyntaxKind → Bool)) :=
  [(.name, Ast.Can.name), (.nameRef, Ast.Can.nameRef), (.multiName, Ast.Can.multiName),
  (.sourceFile, Ast.Can.sourceFile), (.block, Ast.Can.block), (.assignStmt, Ast.Can.assignStmt),
  (.localAssignStmt, Ast.Can.localAssignStmt), (.localFunctionDefStmt, Ast.Can.localFunctionDefStmt),
  (.functionDefStmt, Ast.Can.functionDefStmt), (.forStmt, Ast.Can.forStmt), (.ifStmt, Ast.Can.ifStmt),
  (.returnStmt, Ast.Can.returnStmt), (.whileStmt, Ast.Can.whileStmt), (.exprStmt, Ast.Can.exprStmt),
  (.breakStmt, Ast.Can.breakStmt), (.repeatUntilStmt, Ast.Can.repeatUntilStmt), (.labelStmt, Ast.Can.labelStmt),
  (.gotoStmt, Ast.Can.gotoStmt), (.labelDelim, Ast.Can.labelDelim), (.doStmt, Ast.Can.doStmt),
  (.paramList, Ast.Can.paramList), (.functionMethod, Ast.Can.functionMethod),
  (.functionStatic, Ast.Can.functionStatic), (.indexPath, Ast.Can.indexPath), (.multivalExpr, Ast.Can.multivalExpr),
  (.elseBranch, Ast.Can.elseBranch), (.elseIfBranch, Ast.Can.elseIfBranch), (.numericFor, Ast.Can.numericFor),
  (.genericFor, Ast.Can.genericFor), (.literal, Ast.Can.literal), (.tableExpr, Ast.Can.tableExpr),
  (.infixExpr, Ast.Can.infixExpr), (.prefixExpr, Ast.Can.prefixExpr), (.indexExpr, Ast.Can.indexExpr),
  (.dotExpr, Ast.Can.dotExpr), (.functionExpr, Ast.Can.functionExpr), (.callExpr, Ast.Can.callExpr),
  (.methodCallExpr, Ast.Can.methodCallExpr), (.callArgs, Ast.Can.callArgs), (.argList, Ast.Can.argList),
  (.tableSep, Ast.Can.tableSep), (.parenExpr, Ast.Can.parenExpr), (.keyValue, Ast.Can.keyValue),
  (.positionalValue, Ast.Can.positionalValue), (.index, Ast.Can.index), (.identKey, Ast.Can.identKey)]

/-- **C79** for the struct types: a node casts to one exactly if its kind has the name of the type, and the result is
that very node. -/
theorem C79_struct : ∀ p ∈ structTypes, ∀ r r' : Red, Ast.castPlain p.2 r = some r' ↔ r' = r ∧ r.kind = p.1 := by
  have hc : ∀ p ∈ structTypes, ∀ k, p.2 k = (k == p.1) := by
    unfold structTypes
    repeat' (first | exact List.forall_mem_nil _ | refine List.forall_mem_cons.2 ⟨fun _ => rfl, ?_⟩)
  intro p hp r r'
  have hc := hc p hp
  simp only [Ast.castPlain, hc]
  by_cases h : r.kind = p.1
  · simp [h, eq_comm]
  · simp [h]

/-- **C79** Every node of a file without errors casts to exactly one of the struct types, the one named after its kind,
unless it is one of the wrappers around the contents of a function's name, of a `for`, of a table field or of a key. -/
theorem C79_struct_one {text : Text} {k : SyntaxKind} {r : Red} (h : NodeOf text k r)
    (hw : k ∉ [SyntaxKind.functionDefContent, .forContent, .tableContent, .tableKey]) :
    ∃ p ∈ structTypes, Ast.castPlain p.2 r = some r ∧
      ∀ q ∈ structTypes, ∀ r', Ast.castPlain q.2 r = some r' → q.1 = p.1 := by
  have hk : ∀ k ∈ astKinds, k ∉ [SyntaxKind.functionDefContent, .forContent, .tableContent, .tableKey] →
    k ∈ structTypes.map (·.1) := by decide
  obtain ⟨p, hp, rfl⟩ := List.mem_map.1 (hk k (astKinds_complete text k r h) hw)
  have hkind : r.kind = p.1 := by obtain ⟨_, _, _, hk⟩ := h; exact hk
  refine ⟨p, hp, (C79_struct p hp r r).2 ⟨rfl, hkind⟩, fun q hq r' hr => ?_⟩
  rw [← hkind, ((C79_struct q hq r r').1 hr).2]

/-- **C79 fails** for the four wrappers: they cast to no type at all, struct or union. -/
theorem C79_wrapper_fails {r : Red}
    (hw : r.kind ∈ [SyntaxKind.functionDefContent, .forContent, .tableContent, .tableKey]) :
    (∀ p ∈ structTypes, Ast.castPlain p.2 r = none) ∧ Ast.Stmt.cast r = none ∧ Ast.StmtItem.cast r = none ∧
      Ast.FunctionDefContent.cast r = none ∧ Ast.Expr.cast r = none ∧ Ast.ForContent.cast r = none ∧
      Ast.TableContent.cast r = none ∧ Ast.TableKey.cast r = none := by
  have hn : ∀ k ∈ [SyntaxKind.functionDefContent, .forContent, .tableContent, .tableKey],
    k ∉ structTypes.map (·.1) := by decide
  refine ⟨fun p hp => ?_, ?_⟩
  · cases e : Ast.castPlain p.2 r with
    | none => rfl
    | some r' =>
      exact absurd (List.mem_map.2 ⟨p, hp, ((C79_struct p hp r r').1 e).2.symm⟩) (hn _ hw)
  · simp only [Ast.Stmt.cast, Ast.StmtItem.cast, Ast.FunctionDefContent.cast, Ast.Expr.cast, Ast.ForContent.cast,
      Ast.TableContent.cast, Ast.TableKey.cast]
    generalize r.kind = k at hw
    simp only [List.mem_cons, List.not_mem_nil, or_false] at hw
    rcases hw with rfl | rfl | rfl | rfl <;> exact ⟨rfl, rfl, rfl, rfl, rfl, rfl, rfl⟩

/-- There are such nodes, in files without errors, and there are others. -/
example : (∃ text r, NodeOf text .forContent r) ∧ ∃ text r, NodeOf text .doStmt r :=
  ⟨astKinds_occur .forContent (by decide), astKinds_occur .doStmt (by decide)⟩

end Verif
