import Verif.Proof.Complete

set_option linter.unusedSimpArgs false
set_option linter.unusedVariables false
namespace Verif
open Item PTree Lua P Grammar

/-! ### atoms and postfix forms -/

theorem exprC_of_post {t} (hp : rightPows t = []) (hl : leftOps t = [])
    (hn : kindOf t = some .literal ∨ endsCallable t = true)
    (first : ∃ k ∈ exprFirst, ∃ l, yield t = k :: l)
    (second : ∀ rest, la rest ≠ .eq → la (yield t) = .ident → lookahead (yield t ++ rest) 1 ≠ .eq)
    (h : ∀ n fuel rest, 2 * (yield t ++ rest).length ≤ n →
    (yield t ++ rest).length ≤ fuel →
    ∀ ev cur st Q, (∀ p k bf af ev' f', toTree (.node p k bf af) = t → rest.length < f' →
      wpF (postfixExpr (recN n) fuel f' p (decide (kindOf t ≠ some .literal)))
        ⟨rest, ev', .node p k bf af :: cur, st⟩ (fun a s => Q (some a) s)) →
    wpF (lhs (recN n) fuel) ⟨yield t ++ rest, ev, cur, st⟩ Q) : ExprC t where
  pos := by simp [hp]
  lpos := by simp [hl]
  first := first
  second := second
  loop := loop_of_lhs (lhs_of_post hn h) (by obtain ⟨k, _, l, h⟩ := first; simp [h])
  post _ := h

/-- `lhs` on an atom -/
theorem lhs_atom {n fuel toks rest t cc ev cur st} {Q : Option Nat → FState → Prop}
    (hpre : la toks ∉ unaryOps) (hlt : rest.length < fuel)
    (h : Spec (atomExpr (recN n) fuel) toks fun a items toks' =>
      (∃ p k bf af, a = some (p, cc) ∧ items = [.node p k bf af]) ∧ toTreeL items = [t] ∧ toks' = rest)
    (hq : ∀ p k bf af ev' f', toTree (.node p k bf af) = t → rest.length < f' →
      wpF (postfixExpr (recN n) fuel f' p cc)
        ⟨rest, ev', .node p k bf af :: cur, st⟩ (fun a s => Q (some a) s)) :
    wpF (lhs (recN n) fuel) ⟨toks, ev, cur, st⟩ Q := by
  have hz : ¬ prefixBindingPower (lookahead toks 0) > 0 := by
    intro h'; exact hpre ((prefix_pos_iff _).1 h')
  simp only [lhs, wpF_bind, wpF_current, wpF_ite]
  refine ⟨fun h' => absurd h' hz, fun _ => ?_⟩
  refine h.use ?_
  rintro a items toks' ev' y - - ⟨⟨p, k, bf, af, rfl, rfl⟩, ht, rfl⟩
  simp only [wpF_bind, wpF_pure, List.reverse_cons, List.reverse_nil, List.nil_append,
    List.singleton_append]
  exact hq p k bf af ev' fuel (by simpa [toTreeL] using ht) hlt

theorem atom_of_runsN {n fuel toks rest t} {p : Prog Nat}
    (hp : RunsN p toks t rest)
    (hpre : la toks ∉ unaryOps) (hlit : la toks ∉ literalKinds)
    (heq : ∀ ev cur st Q, wpF p ⟨toks, ev, cur, st⟩ (fun a s => Q (some (a, true)) s) →
      wpF (atomExpr (recN n) fuel) ⟨toks, ev, cur, st⟩ Q) :
    Spec (atomExpr (recN n) fuel) toks fun a items toks' =>
      (∃ p k bf af, a = some (p, true) ∧ items = [.node p k bf af]) ∧ toTreeL items = [t] ∧
        toks' = rest := by
  intro ev cur st
  refine heq ev cur st _ ?_
  refine wpF_mono (hp ev cur st) ?_
  rintro a s ⟨items, toks', ev', rfl, y, ⟨k, bf, af, rfl⟩, ht, rfl⟩
  exact ⟨_, _, _, rfl, y, ⟨_, _, _, _, rfl, rfl⟩, ht, rfl⟩

theorem atom_dispatch {n fuel ev cur st} {k : SyntaxKind} {ts} (hpre : k ∉ unaryOps)
    (hlit : k ∉ literalKinds) (Q) :
    wpF (atomExpr (recN n) fuel) ⟨k :: ts, ev, cur, st⟩ Q ↔
    (k = .functionKw → wpF (functionExpr (recN n) fuel) ⟨k :: ts, ev, cur, st⟩
      fun a s => Q (some (a, true)) s) ∧
    (k = .lBrace → wpF (tableExpr (recN n) fuel) ⟨k :: ts, ev, cur, st⟩
      fun a s => Q (some (a, true)) s) ∧
    (k = .ident → wpF nameRef ⟨k :: ts, ev, cur, st⟩ fun a s => Q (some (a, true)) s) ∧
    (k = .lParen → wpF (parenExpr (recN n)) ⟨k :: ts, ev, cur, st⟩
      fun a s => Q (some (a, true)) s) ∧
    (k ∉ [SyntaxKind.functionKw, .lBrace, .ident, .lParen] →
      wpF (errRecover "Expected an expression" EXPR_RECOVERY_SET) ⟨k :: ts, ev, cur, st⟩
        fun a s => Q none s) := by
  have hz : ¬ prefixBindingPower k > 0 := by
    intro h'; exact hpre ((prefix_pos_iff _).1 h')
  simp only [atomExpr, wpF_bind, wpF_current, wpF_ite, wpF_atTs, contains_LITERAL_FIRST, wpF_pure]
  simp only [hz, false_implies, true_and, not_false_eq_true, forall_const, lookahead_cons, hlit,
    decide_false, Bool.false_eq_true, beq_iff_eq]
  constructor
  · rintro ⟨h1, h2⟩
    refine ⟨h1, fun h => ?_, fun h => ?_, fun h => ?_, fun h => ?_⟩
    · exact (h2 (by simp [h])).1 h
    · exact ((h2 (by simp [h])).2 (by simp [h])).1 h
    · exact (((h2 (by simp [h])).2 (by simp [h])).2 (by simp [h])).1 h
    · simp at h
      exact (((h2 h.1).2 h.2.1).2 h.2.2.1).2 h.2.2.2
  · rintro ⟨h1, h2, h3, h4, h5⟩
    refine ⟨h1, fun a => ⟨h2, fun b => ⟨h3, fun c => ⟨h4, fun d => h5 (by simp [a, b, c, d])⟩⟩⟩⟩

theorem nameRef_runs (rest) : RunsN nameRef (.ident :: rest) nameRefT rest := by
  refine runsN_intro (by simp [PTree.yield, yieldL]) ?_
  intro ev cur st
  simp [nameRef, expect]
  exact RPostN.mk (by simp [toTree, toTreeL])

theorem expect_runs {k : SyntaxKind} (hk : k ≠ .eof) (rest) :
    Runs (expect k) (k :: rest) [.tok k] rest := by
  refine runs_intro (by simp [PTree.yield, yieldL]) ?_
  intro ev cur st
  simp [expect, hk]
  exact RPost.mk [.tok k] rfl (by simp [toTree, toTreeL])

/-! ### what completeness says for every nonterminal -/

/-- tokens that start a statement -/
def stmtFirst : List SyntaxKind :=
  [.ifKw, .doubleColon, .gotoKw, .localKw, .repeatKw, .functionKw, .returnKw, .doKw, .whileKw, .forKw,
   .breakKw, .ident, .lParen]
/-- tokens that end a block -/
def blockEnds : List SyntaxKind := [.eof, .endKw, .elseifKw, .elseKw, .untilKw]
/-- tokens that can follow a statement -/
def stmtFollow : List SyntaxKind := .semicolon :: (stmtFirst ++ blockEnds)

structure MultivalC (m : PTree) : Prop where
  first : ∃ k ∈ exprFirst, ∃ l, yield m = k :: l
  run : ∀ n fuel rest, la rest ≠ .comma → stop [m] (la rest) → 2 * (yield m ++ rest).length + 1 ≤ n →
    (yield m ++ rest).length < fuel → RunsN (expr (recN n) fuel) (yield m ++ rest) m rest

structure StmtC (s : PTree) : Prop where
  first : ∃ k ∈ stmtFirst, ∃ l, yield s = k :: l
  run : ∀ n fuel rest, la rest ∈ stmtFollow → mayFollow s (la rest) →
    2 * (yield s ++ rest).length + 1 ≤ n → (yield s ++ rest).length < fuel →
    Runs (stmtCore (recN n) fuel) (yield s ++ rest) [s] rest

structure StmtsC (ts : List PTree) : Prop where
  first : ∀ k, (yieldL ts).head? = some k → k ∈ stmtFirst
  run : ∀ n fuel0 f es rest, (∀ k ∈ stmtFirst, TokenSet.contains es k = false) →
    es.contains (la rest) = true → la rest ∈ blockEnds →
    2 * (yieldL ts ++ rest).length + 1 ≤ n → (yieldL ts ++ rest).length < fuel0 →
    (yieldL ts ++ rest).length < f →
    Runs (blockLoop (recN n) fuel0 es f) (yieldL ts ++ rest) ts rest

def ElseC (es : List PTree) : Prop :=
  (es = [] ∨ (∃ l, yieldL es = .elseKw :: l ∧ ∀ n rest, la rest = .endKw →
      2 * (yieldL es ++ rest).length ≤ n → Runs (elseBranch (recN n)) (yieldL es ++ rest) es rest) ∨
    (∃ l, yieldL es = .elseifKw :: l ∧ ∀ n f rest, la rest = .endKw →
      2 * (yieldL es ++ rest).length ≤ n → (yieldL es ++ rest).length ≤ f →
      Runs (elseifBranch (recN n) f) (yieldL es ++ rest) es rest))

def Compl : NT → List PTree → Prop
  | .expr, ts => ∀ t, ts = [t] → ExprC t
  | .exprTail, ts => (ts = [] ∨ ∃ l, yieldL ts = .comma :: l) ∧
    ∀ n f rest, la rest ≠ .comma → (ts ≠ [] → stop ts (la rest)) →
    2 * (yieldL ts ++ rest).length ≤ n → (yieldL ts ++ rest).length < f →
    Runs (exprMultiLoop (recN n) f) (yieldL ts ++ rest) ts rest
  | .multival, ts => ∀ m, ts = [m] → MultivalC m
  | .tableItems, ts => ∀ n f0 f rest, la rest = .rBrace → 2 * (yieldL ts ++ rest).length + 1 ≤ n →
    (yieldL ts ++ rest).length < f0 → (yieldL ts ++ rest).length < f →
    Runs (tableLoop (recN n) f0 f) (yieldL ts ++ rest) ts rest
  | .tableContent, ts => (∃ k ∈ .lBracket :: exprFirst, ∃ l, yieldL ts = k :: l) ∧
    ∀ n rest, la rest ∈ [SyntaxKind.comma, .semicolon, .rBrace] →
    2 * (yieldL ts ++ rest).length + 1 ≤ n →
    Runs (tableContent (recN n)) (yieldL ts ++ rest) ts rest
  | .index, ts => ∀ i, ts = [i] → (∃ l, yield i = .lBracket :: l) ∧
    ∀ n rest, 2 * (yield i ++ rest).length ≤ n → RunsN (index (recN n)) (yield i ++ rest) i rest
  | .callArgs, ts => ∀ a, ts = [a] → (∃ k ∈ [SyntaxKind.lBrace, .lParen, .str], ∃ l, yield a = k :: l) ∧
    ∀ n fuel rest, 2 * (yield a ++ rest).length ≤ n → (yield a ++ rest).length ≤ fuel →
    RunsN (callArgs (recN n) fuel) (yield a ++ rest) a rest
  | .nameTail, ts => ∀ rec va f rest, (yieldL ts ++ rest).length < f → ∀ ev cur st Q,
    (∀ items ev' f', toTreeL items = ts → rest.length < f' →
      wpF (multiNameRLoop rec va f') ⟨rest, ev', items.reverse ++ cur, st⟩ Q) →
    wpF (multiNameRLoop rec va f) ⟨yieldL ts ++ rest, ev, cur, st⟩ Q
  | .params, ts => ∀ p, ts = [p] → (∃ l, yield p = .lParen :: l) ∧
    ∀ f rest, (yield p ++ rest).length < f → RunsN (paramList f) (yield p ++ rest) p rest
  | .block, ts => ∀ b, ts = [b] → ∃ ss, b = .node .block ss ∧ StmtsC ss
  | .stmts, ts => StmtsC ts
  | .stmt, ts => ∀ s, ts = [s] → StmtC s
  | .elseOpt, ts => ElseC ts
  | .pathTail, ts => (ts = [] ∨ ∃ l, yieldL ts = .dot :: l) ∧
    ∀ f rest, la rest ≠ .lParen → (yieldL ts ++ rest).length < f → ∀ ev cur st Q,
    (∀ items ev' f', toTreeL items = ts → rest.length < f' →
      wpF (indexPathLoop f') ⟨rest, ev', items.reverse ++ cur, st⟩ Q) →
    wpF (indexPathLoop f) ⟨yieldL ts ++ rest, ev, cur, st⟩ Q
  | .funcName, ts => ∀ f rest, la rest = .lParen → (yieldL ts ++ rest).length < f →
    Runs (functionDefContent f) (yieldL ts ++ rest) ts rest
  | .forContent, ts => ∀ n fuel rest, la rest = .doKw → 2 * (yieldL ts ++ rest).length + 1 ≤ n →
    (yieldL ts ++ rest).length < fuel →
    Runs (forContent (recN n) fuel) (yieldL ts ++ rest) ts rest

theorem StmtsC.block {ss} (h : StmtsC ss) (n rest) (hr : la rest ∈ blockEnds)
    (hb : 2 * (yieldL ss ++ rest).length + 2 ≤ n) :
    Runs (recN n).block (yieldL ss ++ rest) [.node .block ss] rest := by
  obtain ⟨n', rfl⟩ : ∃ n', n = n' + 1 := ⟨n - 1, by omega⟩
  refine runs_intro (by simp [yieldL, PTree.yield]) ?_
  intro ev cur st
  show wpF (blockRaw (recN n') n' BLOCK_END) _ _
  simp only [blockRaw, wpF_bind, wpF_start]
  refine (h.run n' n' n' BLOCK_END rest ?_ ?_ hr (by omega) (by omega) (by omega)).use ?_
  · unfold BLOCK_END; simp only [TokenSet.contains_new]; decide
  · unfold BLOCK_END; simp only [TokenSet.contains_new]; simpa [blockEnds] using hr
  · intro _ items ev' ht
    simp
    exact RPost.mk [.node ev .block [] items] (by simp) (by simp [toTreeL, toTree, ht])

end Verif
