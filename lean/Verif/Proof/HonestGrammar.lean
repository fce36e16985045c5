import Verif.Proof.Honest

/-
The grammar functions only report true messages.
-/
set_option linter.unusedSimpArgs false
set_option linter.unusedVariables false
namespace Verif
open Item PTree P Grammar Spec

structure RK (r : Rec) : Prop where
  expr : ∀ {c n}, K c (r.exprBp n)
  block : ∀ {c}, K c r.block

/-- one step through a grammar function -/
macro "kstep" : tactic => `(tactic| with_reducible first
  | exact K.pure _ | exact K.panic | exact K.fuel | exact K.complete (by decide) | exact K.precede | exact K.bump
  | exact K.bumpAny | exact K.bumpTs | exact K.expect | exact K.accept | exact K.acceptAny | exact K.bumpExpect
  | refine K.current fun _ => ?_ | refine K.nth fun _ => ?_ | refine K.atK ?_ ?_ | refine K.atTs ?_ ?_
  | refine K.start fun _ => ?_
  | refine K.ite (fun _ => ?_) (fun _ => ?_)
  | refine K.bind ?_ fun _ => ?_)

syntax "ksteps" "[" term,* "]" : tactic
macro_rules
  | `(tactic| ksteps [$ts,*]) => do
    let ts := ts.getElems
    `(tactic| repeat' (first $[| with_reducible exact $ts]* | kstep | dsimp only | contradiction))

variable {c : SyntaxKind → Prop} {r : Rec}

theorem K.nameUnchecked : K c nameUnchecked := by unfold Grammar.nameUnchecked; ksteps []

theorem K.nameR {rec} : K c (nameR rec) := by
  unfold Grammar.nameR
  refine K.atK ?_ ?_
  · refine K.ite (fun _ => K.bind K.nameUnchecked fun _ => K.pure _) (fun h => absurd rfl h)
  · refine K.ite (fun h => by simp at h) (fun h => K.errRecover fun x hx => ?_)
    exact .inr (.inl ⟨by simp, hx.2⟩)

theorem K.nameRefUnchecked : K c nameRefUnchecked := by unfold Grammar.nameRefUnchecked; ksteps []

theorem K.nameRefR {rec} : K c (nameRefR rec) := by
  unfold Grammar.nameRefR
  refine K.atK ?_ ?_
  · refine K.ite (fun _ => K.bind K.nameRefUnchecked fun _ => K.pure _) (fun h => absurd rfl h)
  · refine K.ite (fun h => by simp at h) (fun h => K.errRecover fun x hx => ?_)
    exact .inr (.inl ⟨by simp, hx.2⟩)

theorem K.nameRef : K c nameRef := by unfold Grammar.nameRef; ksteps []

theorem K.name : K c name := by
  unfold Grammar.name
  refine K.atK ?_ ?_
  · refine K.ite (fun _ => by ksteps []) (fun h => absurd rfl h)
  · refine K.ite (fun h => by simp at h) (fun h => K.error fun x hx => ?_)
    exact .inr (.inl ⟨by simp, hx.2⟩)

theorem K.multiNameRLoop {rec v} : ∀ n {c}, K c (multiNameRLoop rec v n) := by
  intro n
  induction n with
  | zero => intro c; exact K.fuel
  | succ n ih => intro c; unfold Grammar.multiNameRLoop; ksteps [K.nameR, ih]

theorem K.multiNameR {fuel rec v} : K c (multiNameR fuel rec v) := by
  unfold Grammar.multiNameR; ksteps [K.nameR, K.multiNameRLoop _]

theorem K.paramList {fuel} : K c (paramList fuel) := by
  unfold Grammar.paramList
  ksteps [K.multiNameR]
  all_goals exact K.errAndBump fun x hx => .inr (.inr (.inr (.inr (.inl ⟨rfl, hx.2⟩))))

theorem K.exprSingle (hr : RK r) : K c (exprSingle r) := hr.expr

theorem K.exprMultiLoop (hr : RK r) : ∀ n {c}, K c (exprMultiLoop r n) := by
  intro n
  induction n with
  | zero => intro c; exact K.fuel
  | succ n ih => intro c; unfold Grammar.exprMultiLoop; ksteps [K.exprSingle hr, ih]

theorem K.expr (hr : RK r) {fuel} : K c (expr r fuel) := by
  unfold Grammar.expr; ksteps [K.exprSingle hr, K.exprMultiLoop hr _]

theorem K.index (hr : RK r) : K c (index r) := by unfold Grammar.index; ksteps [K.exprSingle hr]

theorem K.tableSep : K c tableSep := by unfold Grammar.tableSep; ksteps []

theorem K.tableContent (hr : RK r) : K c (tableContent r) := by
  unfold Grammar.tableContent
  ksteps [K.exprSingle hr, K.nameUnchecked, K.index hr]
  all_goals refine K.error fun x hx => .inr (.inr (.inl ⟨rfl, ?_⟩))
  all_goals simp [EXPR_FIRST, LHS_FIRST, ATOM_EXPR_FIRST, LITERAL_FIRST, TokenSet.contains_union, TokenSet.contains_new] at hx
  all_goals simp [expressionStart]
  all_goals grind

theorem K.tableInnerLoop {fuel} : ∀ n {c}, K c (tableInnerLoop fuel n) := by
  intro n
  induction n with
  | zero => intro c; exact K.fuel
  | succ n ih =>
    intro c; unfold Grammar.tableInnerLoop tableCorrect; ksteps [K.tableSep, ih]
    all_goals refine K.errUntil fun x hx => .inr (.inr (.inr (.inr (.inr (.inl ⟨rfl, ?_⟩)))))
    all_goals simp [TABLE_END, TABLE_SEP, TABLE_RECOVERY, TokenSet.contains_union, TokenSet.contains_new] at hx
    all_goals simp
    all_goals grind

theorem K.tableLoop (hr : RK r) {fuel} : ∀ n {c}, K c (tableLoop r fuel n) := by
  intro n
  induction n with
  | zero => intro c; exact K.fuel
  | succ n ih => intro c; unfold Grammar.tableLoop; ksteps [K.tableContent hr, K.tableInnerLoop _, ih]

theorem K.tableExpr (hr : RK r) {fuel} : K c (tableExpr r fuel) := by
  unfold Grammar.tableExpr; ksteps [K.tableLoop hr _]

theorem K.functionExpr (hr : RK r) {fuel} : K c (functionExpr r fuel) := by
  unfold Grammar.functionExpr; ksteps [K.paramList, hr.block]

theorem K.argList (hr : RK r) {fuel} : K c (argList r fuel) := by unfold Grammar.argList; ksteps [K.expr hr]

theorem K.callArgs (hr : RK r) {fuel} : K c (callArgs r fuel) := by
  unfold Grammar.callArgs; ksteps [K.argList hr, K.tableExpr hr]

theorem K.callExpr (hr : RK r) {fuel l} : K c (callExpr r fuel l) := by
  unfold Grammar.callExpr; ksteps [K.callArgs hr]

theorem K.indexExpr (hr : RK r) {l} : K c (indexExpr r l) := by unfold Grammar.indexExpr; ksteps [K.index hr]

theorem K.methodCallExpr (hr : RK r) {fuel l} : K c (methodCallExpr r fuel l) := by
  unfold Grammar.methodCallExpr; ksteps [K.callArgs hr, K.nameRef]
  all_goals refine K.error fun x hx => .inr (.inr (.inr (.inl ⟨rfl, ?_⟩)))
  all_goals simp [CALL_FIRST, TokenSet.contains_union, TokenSet.contains_new] at hx
  all_goals simp
  all_goals grind

theorem K.dotExpr {l} : K c (dotExpr l) := by unfold Grammar.dotExpr; ksteps []

theorem K.postfixExpr (hr : RK r) {fuel} : ∀ n {c l b}, K c (postfixExpr r fuel n l b) := by
  intro n
  induction n with
  | zero => intro c l b; exact K.fuel
  | succ n ih =>
    intro c l b; unfold Grammar.postfixExpr; ksteps [K.callExpr hr, K.methodCallExpr hr, K.indexExpr hr, K.dotExpr, ih]

theorem K.parenExpr (hr : RK r) : K c (parenExpr r) := by unfold Grammar.parenExpr; ksteps [hr.expr]

theorem K.literal : K c literal := by unfold Grammar.literal; ksteps []

theorem K.prefixExpr (hr : RK r) {n} : K c (prefixExpr r n) := by
  unfold Grammar.prefixExpr; ksteps [hr.expr]
  split <;> ksteps []

theorem K.atomExpr (hr : RK r) {fuel} : K c (atomExpr r fuel) := by
  unfold Grammar.atomExpr
  refine K.current fun k => ?_
  dsimp only
  refine K.ite (fun h => ?_) (fun h => ?_)
  · ksteps [K.prefixExpr hr]
    split <;> ksteps []
  · ksteps [K.literal, K.functionExpr hr, K.tableExpr hr, K.nameRef, K.parenExpr hr]
    all_goals refine K.errRecover fun x hx => .inr (.inr (.inl ⟨rfl, ?_⟩))
    all_goals simp [LITERAL_FIRST, TokenSet.contains_union, TokenSet.contains_new] at hx
    all_goals (obtain ⟨⟨⟨_, rfl⟩, h1⟩, rfl⟩ := hx)
    all_goals revert h
    all_goals simp_all [expressionStart]
    all_goals (intro h; refine ⟨?_, ?_, ?_⟩ <;> (rintro rfl; revert h; decide))

theorem K.lhs (hr : RK r) {fuel} : K c (lhs r fuel) := by
  unfold Grammar.lhs
  refine K.current fun k => ?_
  dsimp only
  refine K.ite (fun h => ?_) (fun h => ?_)
  · ksteps [hr.expr]
  · ksteps [K.atomExpr hr]
    split <;> ksteps [K.postfixExpr hr _]

theorem K.exprBpLoop (hr : RK r) {b} : ∀ n {c l}, K c (exprBpLoop r b n l) := by
  intro n
  induction n with
  | zero => intro c l; exact K.fuel
  | succ n ih => intro c l; unfold Grammar.exprBpLoop; ksteps [hr.expr, ih]

theorem K.exprBp (hr : RK r) {fuel b} : K c (exprBp r fuel b) := by
  unfold Grammar.exprBp; ksteps [K.lhs hr]
  split <;> ksteps [K.exprBpLoop hr _]

theorem K.elseBranch (hr : RK r) : K c (elseBranch r) := by unfold Grammar.elseBranch; ksteps [hr.block]

theorem K.elseifBranch (hr : RK r) : ∀ n {c}, K c (elseifBranch r n) := by
  intro n
  induction n with
  | zero => intro c; exact K.fuel
  | succ n ih =>
    intro c; unfold Grammar.elseifBranch; ksteps [K.exprSingle hr, hr.block, K.elseBranch hr, ih]

theorem K.ifStmt (hr : RK r) {fuel} : K c (ifStmt r fuel) := by
  unfold Grammar.ifStmt; ksteps [K.exprSingle hr, hr.block, K.elseBranch hr, K.elseifBranch hr _]

theorem K.gotoStmt : K c gotoStmt := by unfold Grammar.gotoStmt; ksteps [K.nameRef]
theorem K.labelDelim : K c labelDelim := by unfold Grammar.labelDelim; ksteps []
theorem K.labelStmt : K c labelStmt := by unfold Grammar.labelStmt; ksteps [K.labelDelim, K.nameR]
theorem K.whileStmt (hr : RK r) : K c (whileStmt r) := by
  unfold Grammar.whileStmt; ksteps [K.exprSingle hr, hr.block]
theorem K.genericFor (hr : RK r) {fuel} : K c (genericFor r fuel) := by
  unfold Grammar.genericFor; ksteps [K.exprSingle hr, K.multiNameR]
theorem K.numericFor (hr : RK r) {fuel} : K c (numericFor r fuel) := by
  unfold Grammar.numericFor; ksteps [K.expr hr, K.name]
theorem K.forContent (hr : RK r) {fuel} : K c (forContent r fuel) := by
  unfold Grammar.forContent; ksteps [K.numericFor hr, K.genericFor hr]
  all_goals exact K.error fun x hx => .inr (.inl ⟨by simp, hx.2⟩)
theorem K.forStmt (hr : RK r) {fuel} : K c (forStmt r fuel) := by
  unfold Grammar.forStmt; ksteps [K.forContent hr, hr.block]
theorem K.repeatUntilStmt (hr : RK r) : K c (repeatUntilStmt r) := by
  unfold Grammar.repeatUntilStmt; ksteps [K.exprSingle hr, hr.block]
theorem K.breakStmt : K c breakStmt := by unfold Grammar.breakStmt; ksteps []
theorem K.localFunctionDefStmt (hr : RK r) {fuel} : K c (localFunctionDefStmt r fuel) := by
  unfold Grammar.localFunctionDefStmt; ksteps [K.paramList, K.nameR, hr.block]
theorem K.localAssignStmt (hr : RK r) {fuel} : K c (localAssignStmt r fuel) := by
  unfold Grammar.localAssignStmt; ksteps [K.expr hr, K.multiNameR]
theorem K.localStmt (hr : RK r) {fuel} : K c (localStmt r fuel) := by
  unfold Grammar.localStmt; ksteps [K.localFunctionDefStmt hr, K.localAssignStmt hr]
theorem K.exprStmt (hr : RK r) {fuel} : K c (exprStmt r fuel) := by
  unfold Grammar.exprStmt; ksteps [K.expr hr]
theorem K.indexPathLoop : ∀ n {c}, K c (indexPathLoop n) := by
  intro n
  induction n with
  | zero => intro c; exact K.fuel
  | succ n ih => intro c; unfold Grammar.indexPathLoop; ksteps [K.nameRefR, ih]
theorem K.indexPath {fuel} : K c (indexPath fuel) := by
  unfold Grammar.indexPath; ksteps [K.nameRefR, K.indexPathLoop _]
theorem K.functionDefContent {fuel} : K c (functionDefContent fuel) := by
  unfold Grammar.functionDefContent; ksteps [K.nameR, K.indexPath]
theorem K.functionDefStmt (hr : RK r) {fuel} : K c (functionDefStmt r fuel) := by
  unfold Grammar.functionDefStmt; ksteps [K.functionDefContent, K.paramList, hr.block]
theorem K.doStmt (hr : RK r) : K c (doStmt r) := by unfold Grammar.doStmt; ksteps [hr.block]
theorem K.returnStmt (hr : RK r) {fuel} : K c (returnStmt r fuel) := by
  unfold Grammar.returnStmt; ksteps [K.expr hr]
theorem K.unmatchedEnd (h : ∀ x, c x → x = .endKw) : K c unmatchedEnd := by
  unfold Grammar.unmatchedEnd
  exact K.errorNode toks_bump fun x hx => .inr (.inr (.inr (.inr (.inr (.inr (.inl ⟨rfl, h x hx⟩))))))

theorem K.stmtCore (hr : RK r) {fuel} : K c (stmtCore r fuel) := by
  unfold Grammar.stmtCore
  refine K.current fun k => ?_
  ksteps [K.ifStmt hr, K.labelStmt, K.gotoStmt, K.localStmt hr, K.repeatUntilStmt hr, K.functionDefStmt hr,
    K.returnStmt hr, K.doStmt hr, K.whileStmt hr, K.forStmt hr, K.breakStmt, K.exprStmt hr]
  · refine K.errAndBump fun x hx => .inr (.inr (.inr (.inr (.inr (.inr (.inr (.inl ⟨rfl, ?_⟩)))))))
    simp_all
  · refine K.errAndBump fun x hx => .inr (.inr (.inr (.inr (.inr (.inr (.inr (.inr (.inl ⟨rfl, ?_⟩))))))))
    have := hx.2
    simp [LITERAL_FIRST, TokenSet.contains_new] at this
    rcases this with h | h | h | h | h | h <;> simp [h]
  · refine K.unmatchedEnd fun x hx => ?_
    simp_all
  · refine K.errAndBump fun x hx => .inr (.inr (.inr (.inr (.inr (.inr (.inr (.inr (.inr ⟨rfl, ?_⟩))))))))
    simp_all [statementStart]

theorem K.stmt (hr : RK r) {fuel} : K c (stmt r fuel) := by unfold Grammar.stmt; ksteps [K.stmtCore hr]

theorem K.blockLoop (hr : RK r) {fuel e} : ∀ n {c}, K c (blockLoop r fuel e n) := by
  intro n
  induction n with
  | zero => intro c; exact K.fuel
  | succ n ih => intro c; unfold Grammar.blockLoop; ksteps [K.stmt hr, ih]

theorem K.blockRaw (hr : RK r) {fuel e} : K c (blockRaw r fuel e) := by
  unfold Grammar.blockRaw; ksteps [K.blockLoop hr _]

theorem recN_rk : ∀ n, RK (recN n)
  | 0 => ⟨K.fuel, K.fuel⟩
  | n + 1 => ⟨K.exprBp (recN_rk n), K.blockRaw (recN_rk n)⟩

theorem K.root {fuel} : K c (root fuel) := by
  unfold Grammar.root rootBlock; ksteps [K.blockRaw (recN_rk _)]

end Verif
