import Verif.Proof.Complete5

set_option linter.unusedSimpArgs false
set_option linter.unusedVariables false
namespace Verif
open Item PTree Lua P Grammar

/-! ### statements -/

theorem stmtFollow_facts : ∀ k ∈ stmtFollow, (ibp k).1 = 0 ∧ k ≠ .lBracket ∧ k ≠ .dot ∧ k ≠ .lBrace ∧
    k ≠ .str ∧ k ≠ .colon ∧ k ≠ .comma ∧ k ≠ .eq := by decide

theorem stop_stmt {ts k} (hk : k ∈ stmtFollow) (h : k = .lParen → endsCallableL ts = false) :
    stop ts k := by
  obtain ⟨h1, h2, h3, h4, h5, h6, -⟩ := stmtFollow_facts k hk
  refine ⟨h1, h2, h3, fun hc => ⟨h4, fun h' => ?_, h5, h6⟩⟩
  rw [h h'] at hc; simp at hc

/-- a statement starting with the keyword `k` -/
theorem stmtC_of {s : PTree} {k : SyntaxKind} {l} (hk : k ∈ stmtFirst) (hy : yield s = k :: l)
    (run : ∀ n fuel rest, la rest ∈ stmtFollow → mayFollow s (la rest) →
      2 * (k :: (l ++ rest)).length + 1 ≤ n → (k :: (l ++ rest)).length < fuel →
      Runs (stmtCore (recN n) fuel) (k :: (l ++ rest)) [s] rest) : Compl .stmt [s] := by
  rintro s' ⟨rfl⟩
  refine ⟨⟨k, hk, l, hy⟩, fun n fuel rest h1 h2 hb hf => ?_⟩
  have := run n fuel rest h1 h2 (by simpa [hy] using hb) (by simpa [hy] using hf)
  simpa [hy] using this

theorem c_forStmt (c b) (hc : Compl .forContent [c]) (hb' : Compl .block [b]) :
    Compl .stmt [.node .forStmt [.tok .forKw, c, .tok .doKw, b, .tok .endKw]] := by
  obtain ⟨ss, rfl, hss⟩ := hb' _ rfl
  refine stmtC_of (k := .forKw) (by simp [stmtFirst]) (by ynorm; rfl) ?_
  intro n fuel rest _ _ hb hf
  refine runs_intro (by ynorm) ?_
  intro ev cur st
  simp at hb hf
  simp only [List.append_assoc, List.cons_append, List.nil_append]
  simp [stmtCore, forStmt]
  have h := hc n fuel (.doKw :: (yieldL ss ++ .endKw :: rest)) (by simp) (by simp [yieldL]; omega)
    (by simp [yieldL]; omega)
  simp only [yieldL, List.append_nil] at h
  refine h.use ?_
  intro _ i1 e1 h1
  refine (expect_runs (k := .doKw) (by simp) _).use ?_
  intro _ i2 e2 h2
  refine (hss.block n (.endKw :: rest) (by simp [blockEnds]) (by simp; omega)).use ?_
  intro _ i3 e3 h3
  refine (expect_runs (k := .endKw) (by simp) _).use ?_
  intro _ i4 e4 h4
  simp
  exact RPost.mk [_] rfl (by simp [toTree, toTreeL, h1, h2, h3, h4])

theorem c_numericFor (m) (hm : Compl .multival [m]) :
    Compl .forContent [.node .forContent [.node .numericFor [nameT, .tok .eq, m]]] := by
  intro n fuel rest hr hb hf
  refine runs_intro rfl ?_
  intro ev cur st
  simp [yieldL, PTree.yield] at hb hf
  ynorm
  simp [forContent, numericFor, name]
  refine ((hm m rfl).run n fuel rest (by rw [hr]; simp) (by rw [hr]; exact stop_of_zero (by simp))
    (by simp; omega) (by simp; omega)).runs.use ?_
  intro _ i1 e1 h1
  simp
  exact RPost.mk [_] rfl (by simp [toTree, toTreeL, h1])

theorem c_genericFor (ts e) (ht : Compl .nameTail ts) (hT : ts = [] ∨ ∃ l, yieldL ts = SyntaxKind.comma :: l)
    (he : ExprC e) :
    Compl .forContent [.node .forContent
        [.node .genericFor [.node .multiName (nameT :: ts), .tok .inKw, e]]] := by
  intro n fuel rest hr hb hf
  refine runs_intro rfl ?_
  intro ev cur st
  simp [yieldL, PTree.yield] at hb hf
  ynorm
  have hla : lookahead (yieldL ts ++ .inKw :: (yield e ++ rest)) 0 ≠ .eq := by
    rcases hT with rfl | ⟨l, hl⟩
    · simp [yieldL]
    · rw [hl]; simp
  simp [forContent, genericFor, hla]
  refine (multiNameR_runs ts ht fuel STMT_RECOVERY false (.inKw :: (yield e ++ rest)) (by simp; omega)
    (by simp)).use ?_
  intro _ i1 e1 h1
  refine (expect_runs (k := .inKw) (by simp) _).use ?_
  intro _ i2 e2 h2
  refine (he.run1 n rest (by simp; omega) (by rw [hr]; exact stop_of_zero (by simp))).use ?_
  intro _ i3 e3 h3
  simp
  exact RPost.mk [_] rfl (by simp [toTree, toTreeL, h1, h2, h3])

theorem c_function_ (nm p b) (hn : Compl .funcName [nm]) (hp : Compl .params [p]) (hb' : Compl .block [b]) :
    Compl .stmt [.node .functionDefStmt [.tok .functionKw, nm, p, b, .tok .endKw]] := by
  obtain ⟨ss, rfl, hss⟩ := hb' _ rfl
  obtain ⟨⟨l, hl⟩, hp⟩ := hp p rfl
  refine stmtC_of (k := .functionKw) (by simp [stmtFirst]) (by ynorm; rfl) ?_
  intro n fuel rest _ _ hb hf
  refine runs_intro (by ynorm) ?_
  intro ev cur st
  simp at hb hf
  simp only [List.append_assoc, List.cons_append, List.nil_append]
  simp [stmtCore, functionDefStmt, expect]
  have h := hn fuel (yield p ++ (yieldL ss ++ .endKw :: rest)) (by rw [hl]; simp) (by simp [yieldL]; omega)
  simp only [yieldL, List.append_nil] at h
  refine h.use ?_
  intro _ i1 e1 h1
  refine (hp fuel _ (by simp; omega)).runs.use ?_
  intro _ i2 e2 h2
  refine (hss.block n (.endKw :: rest) (by simp [blockEnds]) (by simp; omega)).use ?_
  intro _ i3 e3 h3
  simp
  exact RPost.mk [_] rfl (by simp [toTree, toTreeL, h1, h2, h3])

theorem c_returnNone : Compl .stmt [.node .returnStmt [.tok .returnKw]] := by
  refine stmtC_of (k := .returnKw) (l := []) (by simp [stmtFirst]) (by ynorm) ?_
  intro n fuel rest hr hm hb hf
  refine runs_intro (by ynorm) ?_
  intro ev cur st
  have := hm.2 rfl
  simp only [List.nil_append]
  simp [stmtCore, returnStmt, contains_EXPR_FIRST, this]
  exact RPost.mk [_] rfl (by simp [toTree, toTreeL])

theorem c_return (m) (hm : Compl .multival [m]) : Compl .stmt [.node .returnStmt [.tok .returnKw, m]] := by
  have hm := hm m rfl
  obtain ⟨k, hk, l, hy⟩ := hm.first
  refine stmtC_of (k := .returnKw) (by simp [stmtFirst]) (by ynorm; rfl) ?_
  intro n fuel rest hr hmf hb hf
  refine runs_intro (by ynorm) ?_
  intro ev cur st
  simp at hb hf
  have hla : lookahead (yield m ++ rest) 0 = k := by rw [hy]; simp
  have hkf : EXPR_FIRST.contains k = true := by simp [contains_EXPR_FIRST, hk]
  simp [stmtCore, returnStmt, hla, hkf]
  have hst : stop [m] (la rest) := stop_stmt hr (by
    intro h; simpa [endsCallable, endsInExpr, endsCallableL] using hmf.1 h)
  refine (hm.run n fuel rest (stmtFollow_facts _ hr).2.2.2.2.2.2.1 hst (by simp; omega) (by simp; omega)).runs.use ?_
  intro _ i1 e1 h1
  simp
  exact RPost.mk [_] rfl (by simp [toTree, toTreeL, h1])

theorem startsStmt_cases {m} (hm : MultivalC m) (hs : startsStmt m) :
    ∃ k l, yield m = k :: l ∧ (k = .ident ∨ k = .lParen) := by
  obtain ⟨k, hk, l, hy⟩ := hm.first
  refine ⟨k, l, hy, ?_⟩
  simpa [startsStmt, hy] using hs

theorem exprStmt_dispatch {k n fuel l ev cur st Q} (hk : k = SyntaxKind.ident ∨ k = .lParen)
    (h : wpF (exprStmt (recN n) fuel) ⟨k :: l, ev, cur, st⟩ fun _ s => Q () s) :
    wpF (stmtCore (recN n) fuel) ⟨k :: l, ev, cur, st⟩ Q := by
  rcases hk with rfl | rfl <;> · simp [stmtCore]; exact h

theorem c_exprStmt (m) (hm : Compl .multival [m]) (hs : startsStmt m) :
    Compl .stmt [.node .exprStmt [m]] := by
  have hm := hm m rfl
  obtain ⟨k, l, hy, hk⟩ := startsStmt_cases hm hs
  refine stmtC_of (k := k) (l := l) (by rcases hk with rfl | rfl <;> simp [stmtFirst]) (by simp [yieldL, PTree.yield, hy]) ?_
  intro n fuel rest hr hmf hb hf
  refine runs_intro (by simp [yieldL, PTree.yield, hy]) ?_
  intro ev cur st
  refine exprStmt_dispatch hk ?_
  rw [← List.cons_append, ← hy] at *
  have hst : stop [m] (la rest) := stop_stmt hr (by
    intro h; simpa [endsCallable, endsInExpr, endsCallableL] using hmf.1 h)
  have hfa := stmtFollow_facts _ hr
  have hne : lookahead rest 0 ≠ .eq := hfa.2.2.2.2.2.2.2
  simp only [exprStmt, wpF_bind, wpF_start]
  refine (hm.run n fuel rest hfa.2.2.2.2.2.2.1 hst (by simpa using hb) (by simpa using hf)).runs.use ?_
  intro _ i1 e1 h1
  simp [accept, hne]
  exact RPost.mk [_] rfl (by simp [toTree, toTreeL, h1])

theorem c_assign (m m') (hm : Compl .multival [m]) (hs : startsStmt m) (hm' : Compl .multival [m']) :
    Compl .stmt [.node .assignStmt [m, .tok .eq, m']] := by
  have hm := hm m rfl
  have hm' := hm' m' rfl
  obtain ⟨k, l, hy, hk⟩ := startsStmt_cases hm hs
  refine stmtC_of (k := k) (l := l ++ .eq :: yield m') (by rcases hk with rfl | rfl <;> simp [stmtFirst]) (by simp [yieldL, PTree.yield, hy]) ?_
  intro n fuel rest hr hmf hb hf
  refine runs_intro (by simp [yieldL, PTree.yield, hy]) ?_
  intro ev cur st
  simp at hb hf
  have hlen := congrArg List.length hy
  simp at hlen
  refine exprStmt_dispatch hk ?_
  rw [List.append_assoc, ← List.cons_append, ← hy] at *
  have hst : stop [m'] (la rest) := stop_stmt hr (by
    intro h; simpa [endsCallable, endsInExpr, endsCallableL] using hmf.1 h)
  have hfa := stmtFollow_facts _ hr
  simp only [exprStmt, wpF_bind, wpF_start, List.cons_append]
  refine (hm.run n fuel (.eq :: (yield m' ++ rest)) (by simp) (stop_of_zero (by simp)) (by simp; omega) (by simp; omega)).runs.use ?_
  intro _ i1 e1 h1
  simp [accept]
  refine (hm'.run n fuel rest hfa.2.2.2.2.2.2.1 hst (by simp; omega) (by simp; omega)).runs.use ?_
  intro _ i2 e2 h2
  simp
  exact RPost.mk [_] rfl (by simp [toTree, toTreeL, h1, h2])

theorem c_localNames (ts) (h : Compl .nameTail ts) :
    Compl .stmt [.node .localAssignStmt [.tok .localKw, .node .multiName (nameT :: ts)]] := by
  refine stmtC_of (k := .localKw) (by simp [stmtFirst]) (by ynorm; rfl) ?_
  intro n fuel rest hr hmf hb hf
  refine runs_intro (by ynorm) ?_
  intro ev cur st
  simp at hb hf
  have hfa := stmtFollow_facts _ hr
  have hne : lookahead rest 0 ≠ .eq := hfa.2.2.2.2.2.2.2
  simp only [List.append_assoc, List.cons_append, List.nil_append]
  simp [stmtCore, localStmt, localAssignStmt]
  refine (multiNameR_runs ts h fuel STMT_RECOVERY false rest (by simp; omega) hfa.2.2.2.2.2.2.1).use ?_
  intro _ i1 e1 h1
  simp [accept, hne]
  exact RPost.mk [_] rfl (by simp [toTree, toTreeL, h1])

theorem c_localAssign (ts m) (h : Compl .nameTail ts) (hm : Compl .multival [m]) :
    Compl .stmt [.node .localAssignStmt [.tok .localKw, .node .multiName (nameT :: ts), .tok .eq, m]] := by
  have hm := hm m rfl
  refine stmtC_of (k := .localKw) (by simp [stmtFirst]) (by ynorm; rfl) ?_
  intro n fuel rest hr hmf hb hf
  refine runs_intro (by ynorm) ?_
  intro ev cur st
  simp at hb hf
  have hfa := stmtFollow_facts _ hr
  have hst : stop [m] (la rest) := stop_stmt hr (by
    intro h; simpa [endsCallable, endsInExpr, endsCallableL] using hmf.1 h)
  simp only [List.append_assoc, List.cons_append, List.nil_append]
  simp [stmtCore, localStmt, localAssignStmt]
  refine (multiNameR_runs ts h fuel STMT_RECOVERY false (.eq :: (yield m ++ rest)) (by simp; omega) (by simp)).use ?_
  intro _ i1 e1 h1
  simp [accept]
  refine (hm.run n fuel rest hfa.2.2.2.2.2.2.1 hst (by simp; omega) (by simp; omega)).runs.use ?_
  intro _ i2 e2 h2
  simp
  exact RPost.mk [_] rfl (by simp [toTree, toTreeL, h1, h2])

theorem c_localFunction (p b) (hp : Compl .params [p]) (hb' : Compl .block [b]) :
    Compl .stmt [.node .localFunctionDefStmt
        [.tok .localKw, .tok .functionKw, nameT, p, b, .tok .endKw]] := by
  obtain ⟨ss, rfl, hss⟩ := hb' _ rfl
  obtain ⟨⟨l, hl⟩, hp⟩ := hp p rfl
  refine stmtC_of (k := .localKw) (by simp [stmtFirst]) (by ynorm; rfl) ?_
  intro n fuel rest _ _ hb hf
  refine runs_intro (by ynorm) ?_
  intro ev cur st
  simp at hb hf
  simp only [List.append_assoc, List.cons_append, List.nil_append]
  simp [stmtCore, localStmt, localFunctionDefStmt, expect]
  refine (nameR_runs _ _).use ?_
  intro _ i1 e1 h1
  refine (hp fuel _ (by simp; omega)).runs.use ?_
  intro _ i2 e2 h2
  refine (hss.block n (.endKw :: rest) (by simp [blockEnds]) (by simp; omega)).use ?_
  intro _ i3 e3 h3
  simp
  exact RPost.mk [_] rfl (by simp [toTree, toTreeL, h1, h2, h3])

theorem c_repeat (b e) (hb' : Compl .block [b]) (he : ExprC e) :
    Compl .stmt [.node .repeatUntilStmt [.tok .repeatKw, b, .tok .untilKw, e]] := by
  obtain ⟨ss, rfl, hss⟩ := hb' _ rfl
  refine stmtC_of (k := .repeatKw) (by simp [stmtFirst]) (by ynorm; rfl) ?_
  intro n fuel rest hr hmf hb hf
  refine runs_intro (by ynorm) ?_
  intro ev cur st
  simp at hb hf
  have hst : stop [e] (la rest) := stop_stmt hr (by
    intro h; simpa [endsCallable, endsInExpr, endsCallableL] using hmf.1 h)
  simp only [List.append_assoc, List.cons_append, List.nil_append]
  simp [stmtCore, repeatUntilStmt]
  refine (hss.block n (.untilKw :: (yield e ++ rest)) (by simp [blockEnds]) (by simp; omega)).use ?_
  intro _ i1 e1 h1
  refine (expect_runs (k := .untilKw) (by simp) _).use ?_
  intro _ i2 e2 h2
  refine (he.run1 n rest (by simp; omega) hst).use ?_
  intro _ i3 e3 h3
  simp
  exact RPost.mk [_] rfl (by simp [toTree, toTreeL, h1, h2, h3])

theorem c_while (e b) (he : ExprC e) (hb' : Compl .block [b]) :
    Compl .stmt [.node .whileStmt [.tok .whileKw, e, .tok .doKw, b, .tok .endKw]] := by
  obtain ⟨ss, rfl, hss⟩ := hb' _ rfl
  refine stmtC_of (k := .whileKw) (by simp [stmtFirst]) (by ynorm; rfl) ?_
  intro n fuel rest hr hmf hb hf
  refine runs_intro (by ynorm) ?_
  intro ev cur st
  simp at hb hf
  simp only [List.append_assoc, List.cons_append, List.nil_append]
  simp [stmtCore, whileStmt]
  refine (he.run1 n (.doKw :: (yieldL ss ++ .endKw :: rest)) (by simp; omega) (stop_of_zero (by simp))).use ?_
  intro _ i1 e1 h1
  refine (expect_runs (k := .doKw) (by simp) _).use ?_
  intro _ i2 e2 h2
  refine (hss.block n (.endKw :: rest) (by simp [blockEnds]) (by simp; omega)).use ?_
  intro _ i3 e3 h3
  refine (expect_runs (k := .endKw) (by simp) _).use ?_
  intro _ i4 e4 h4
  simp
  exact RPost.mk [_] rfl (by simp [toTree, toTreeL, h1, h2, h3, h4])

theorem c_doStmt (b) (hb' : Compl .block [b]) :
    Compl .stmt [.node .doStmt [.tok .doKw, b, .tok .endKw]] := by
  obtain ⟨ss, rfl, hss⟩ := hb' _ rfl
  refine stmtC_of (k := .doKw) (by simp [stmtFirst]) (by ynorm; rfl) ?_
  intro n fuel rest hr hmf hb hf
  refine runs_intro (by ynorm) ?_
  intro ev cur st
  simp at hb hf
  simp only [List.append_assoc, List.cons_append, List.nil_append]
  simp [stmtCore, doStmt]
  refine (hss.block n (.endKw :: rest) (by simp [blockEnds]) (by simp; omega)).use ?_
  intro _ i3 e3 h3
  refine (expect_runs (k := .endKw) (by simp) _).use ?_
  intro _ i4 e4 h4
  simp
  exact RPost.mk [_] rfl (by simp [toTree, toTreeL, h3, h4])

theorem c_break : Compl .stmt [.node .breakStmt [.tok .breakKw]] := by
  refine stmtC_of (k := .breakKw) (l := []) (by simp [stmtFirst]) (by ynorm) ?_
  intro n fuel rest hr hm hb hf
  refine runs_intro (by ynorm) ?_
  intro ev cur st
  simp only [List.nil_append]
  simp [stmtCore, breakStmt]
  exact RPost.mk [_] rfl (by simp [toTree, toTreeL])

theorem c_goto : Compl .stmt [.node .gotoStmt [.tok .gotoKw, nameRefT]] := by
  refine stmtC_of (k := .gotoKw) (l := [.ident]) (by simp [stmtFirst]) (by ynorm) ?_
  intro n fuel rest hr hm hb hf
  refine runs_intro (by ynorm) ?_
  intro ev cur st
  simp [stmtCore, gotoStmt, nameRef, expect]
  exact RPost.mk [_] rfl (by simp [toTree, toTreeL])

theorem c_label : Compl .stmt [.node .labelStmt
      [.node .labelDelim [.tok .doubleColon], nameT, .node .labelDelim [.tok .doubleColon]]] := by
  refine stmtC_of (k := .doubleColon) (l := [.ident, .doubleColon]) (by simp [stmtFirst]) (by ynorm) ?_
  intro n fuel rest hr hm hb hf
  refine runs_intro (by ynorm) ?_
  intro ev cur st
  simp [stmtCore, labelStmt, labelDelim, expect]
  refine (nameR_runs _ _).use ?_
  intro _ i1 e1 h1
  simp
  exact RPost.mk [_] rfl (by simp [toTree, toTreeL, h1])

theorem ElseC.la {es rest} (h : ElseC es) (hr : lookahead rest 0 = .endKw) :
    lookahead (yieldL es ++ rest) 0 ∈ blockEnds := by
  rcases h with rfl | ⟨l, hl, -⟩ | ⟨l, hl, -⟩
  · simp [yieldL, hr, blockEnds]
  · simp [hl, blockEnds]
  · simp [hl, blockEnds]

theorem c_ifStmt (e b es) (he : ExprC e) (hb' : Compl .block [b]) (hes : ElseC es) :
    Compl .stmt [.node .ifStmt (.tok .ifKw :: e :: .tok .thenKw :: b :: (es ++ [.tok .endKw]))] := by
  obtain ⟨ss, rfl, hss⟩ := hb' _ rfl
  refine stmtC_of (k := .ifKw) (by simp [stmtFirst]) (by ynorm; rfl) ?_
  intro n fuel rest hr hmf hb hf
  refine runs_intro (by ynorm) ?_
  intro ev cur st
  simp at hb hf
  simp only [List.append_assoc, List.cons_append, List.nil_append]
  simp [stmtCore, ifStmt]
  refine (he.run1 n (.thenKw :: (yieldL ss ++ (yieldL es ++ .endKw :: rest))) (by simp; omega) (stop_of_zero (by simp))).use ?_
  intro _ i1 e1 h1
  refine (expect_runs (k := .thenKw) (by simp) _).use ?_
  intro _ i2 e2 h2
  refine (hss.block n (yieldL es ++ .endKw :: rest) (hes.la (by simp)) (by simp; omega)).use ?_
  intro _ i3 e3 h3
  rcases hes with rfl | ⟨l, hl, hrun⟩ | ⟨l, hl, hrun⟩
  · simp [yieldL, expect]
    exact RPost.mk [_] rfl (by simp [toTree, toTreeL, h1, h2, h3])
  · have hla : lookahead (yieldL es ++ .endKw :: rest) 0 = .elseKw := by simp [hl]
    simp [hla]
    refine (hrun n (.endKw :: rest) (by simp) (by simp; omega)).use ?_
    intro _ i4 e4 h4
    refine (expect_runs (k := .endKw) (by simp) _).use ?_
    intro _ i5 e5 h5
    simp
    exact RPost.mk [_] rfl (by simp [toTree, toTreeL, h1, h2, h3, h4, h5])
  · have hla : lookahead (yieldL es ++ .endKw :: rest) 0 = .elseifKw := by simp [hl]
    simp [hla]
    refine (hrun n fuel (.endKw :: rest) (by simp) (by simp; omega) (by simp; omega)).use ?_
    intro _ i4 e4 h4
    refine (expect_runs (k := .endKw) (by simp) _).use ?_
    intro _ i5 e5 h5
    simp
    exact RPost.mk [_] rfl (by simp [toTree, toTreeL, h1, h2, h3, h4, h5])

theorem c_elseBranch (b) (hb' : Compl .block [b]) : ElseC [.node .elseBranch [.tok .elseKw, b]] := by
  obtain ⟨ss, rfl, hss⟩ := hb' _ rfl
  refine Or.inr (Or.inl ⟨_, by ynorm; rfl, fun n rest hr hb => ?_⟩)
  refine runs_intro rfl ?_
  intro ev cur st
  simp [yieldL, PTree.yield] at hb
  ynorm
  simp [elseBranch]
  refine (hss.block n rest (by rw [hr]; simp [blockEnds]) (by simp; omega)).use ?_
  intro _ i3 e3 h3
  simp
  exact RPost.mk [_] rfl (by simp [toTree, toTreeL, h3])

theorem c_elseIf (e b es) (he : ExprC e) (hb' : Compl .block [b]) (hes : ElseC es) :
    ElseC [.node .elseIfBranch (.tok .elseifKw :: e :: .tok .thenKw :: b :: es)] := by
  obtain ⟨ss, rfl, hss⟩ := hb' _ rfl
  refine Or.inr (Or.inr ⟨_, by ynorm; rfl, fun n f rest hr hb hf => ?_⟩)
  refine runs_intro rfl ?_
  intro ev cur st
  simp [yieldL, PTree.yield] at hb hf
  obtain ⟨f', rfl⟩ : ∃ f', f = f' + 1 := ⟨f - 1, by omega⟩
  ynorm
  simp [elseifBranch]
  refine (he.run1 n (.thenKw :: (yieldL ss ++ (yieldL es ++ rest))) (by simp; omega) (stop_of_zero (by simp))).use ?_
  intro _ i1 e1 h1
  refine (expect_runs (k := .thenKw) (by simp) _).use ?_
  intro _ i2 e2 h2
  refine (hss.block n (yieldL es ++ rest) (hes.la hr) (by simp; omega)).use ?_
  intro _ i3 e3 h3
  rcases hes with rfl | ⟨l, hl, hrun⟩ | ⟨l, hl, hrun⟩
  · have hr' : lookahead rest 0 = .endKw := hr
    simp [yieldL, hr']
    exact RPost.mk [_] rfl (by simp [toTree, toTreeL, h1, h2, h3])
  · have hla : lookahead (yieldL es ++ rest) 0 = .elseKw := by simp [hl]
    simp [hla]
    refine (hrun n rest hr (by simp; omega)).use ?_
    intro _ i4 e4 h4
    simp
    exact RPost.mk [_] rfl (by simp [toTree, toTreeL, h1, h2, h3, h4])
  · have hla : lookahead (yieldL es ++ rest) 0 = .elseifKw := by simp [hl]
    simp [hla]
    refine (hrun n f' rest hr (by simp; omega) (by simp; omega)).use ?_
    intro _ i4 e4 h4
    simp
    exact RPost.mk [_] rfl (by simp [toTree, toTreeL, h1, h2, h3, h4])

/-! ### blocks -/

theorem c_stmtsNil : StmtsC [] := by
  refine ⟨by simp [yieldL], fun n fuel0 f es rest _ he _ _ _ hf => ?_⟩
  obtain ⟨f', rfl⟩ : ∃ f', f = f' + 1 := ⟨f - 1, by omega⟩
  refine runs_intro rfl ?_
  intro ev cur st
  have he' : es.contains (lookahead rest 0) = true := he
  simp [yieldL, blockLoop, he']
  exact RPost.mk [] rfl (by simp [toTreeL])

theorem blockEnds_facts : ∀ k ∈ blockEnds, k ∉ SyntaxKind.lParen :: exprFirst ∧ k ∈ stmtFollow ∧ k ≠ .semicolon := by decide
theorem stmtFirst_facts : ∀ k ∈ stmtFirst, k ∈ stmtFollow ∧ k ≠ .semicolon ∧ k ≠ .eof := by decide

theorem c_stmtsCons (s ts) (hs : Compl .stmt [s]) (hts : StmtsC ts)
    (hm : ∀ k, (yieldL ts).head? = some k → mayFollow s k) : StmtsC (s :: ts) := by
  have hs := hs s rfl
  obtain ⟨k, hk, l, hy⟩ := hs.first
  refine ⟨fun k' h => by simp [yieldL, hy] at h; exact h ▸ hk, fun n fuel0 f es rest hes he hr hb hf0 hf => ?_⟩
  obtain ⟨f', rfl⟩ : ∃ f', f = f' + 1 := ⟨f - 1, by omega⟩
  refine runs_intro rfl ?_
  intro ev cur st
  have hlen := congrArg List.length hy
  simp [yieldL] at hb hf0 hf hlen
  ynorm
  have hla : lookahead (yield s ++ (yieldL ts ++ rest)) 0 = k := by rw [hy]; simp
  have hnext : la (yieldL ts ++ rest) ∈ stmtFollow ∧ la (yieldL ts ++ rest) ≠ .semicolon ∧
      mayFollow s (la (yieldL ts ++ rest)) := by
    cases hyt : yieldL ts with
    | nil =>
      have := blockEnds_facts _ hr
      simp only [List.mem_cons, not_or] at this
      exact ⟨this.2.1, this.2.2, fun h => absurd h this.1.1, fun _ => this.1.2⟩
    | cons k' l' =>
      have := stmtFirst_facts _ (hts.first k' (by simp [hyt]))
      exact ⟨this.1, this.2.1, hm k' (by simp [hyt])⟩
  simp [blockLoop, hla, hes k hk, stmt]
  refine (hs.run n fuel0 (yieldL ts ++ rest) hnext.1 hnext.2.2 (by simp; omega) (by simp; omega)).use ?_
  intro _ i1 e1 h1
  have : lookahead (yieldL ts ++ rest) 0 ≠ .semicolon := hnext.2.1
  simp [accept, this]
  refine (hts.run n fuel0 f' es rest hes he hr (by simp; omega) (by simp; omega) (by simp; omega)).use ?_
  intro _ i2 e2 h2
  exact RPost.mk (i1 ++ i2) (by simp) (by simp [toTree, toTreeL, h1, h2])

theorem c_stmtsSemi (s ts) (hs : Compl .stmt [s]) (hts : StmtsC ts) : StmtsC (s :: .tok .semicolon :: ts) := by
  have hs := hs s rfl
  obtain ⟨k, hk, l, hy⟩ := hs.first
  refine ⟨fun k' h => by simp [yieldL, hy] at h; exact h ▸ hk, fun n fuel0 f es rest hes he hr hb hf0 hf => ?_⟩
  obtain ⟨f', rfl⟩ : ∃ f', f = f' + 1 := ⟨f - 1, by omega⟩
  refine runs_intro rfl ?_
  intro ev cur st
  have hlen := congrArg List.length hy
  simp [yieldL, PTree.yield] at hb hf0 hf hlen
  ynorm
  have hla : lookahead (yield s ++ .semicolon :: (yieldL ts ++ rest)) 0 = k := by rw [hy]; simp
  simp [blockLoop, hla, hes k hk, stmt]
  refine (hs.run n fuel0 (.semicolon :: (yieldL ts ++ rest)) (by simp [stmtFollow]) (by simp [mayFollow, exprFirst, literalKinds]) (by simp; omega) (by simp; omega)).use ?_
  intro _ i1 e1 h1
  simp [accept]
  refine (hts.run n fuel0 f' es rest hes he hr (by simp; omega) (by simp; omega) (by simp; omega)).use ?_
  intro _ i2 e2 h2
  exact RPost.mk (i1 ++ .tok .semicolon :: i2) (by simp) (by simp [toTree, toTreeL, h1, h2])

end Verif
