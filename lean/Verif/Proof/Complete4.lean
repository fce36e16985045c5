import Verif.Proof.Complete3

set_option linter.unusedSimpArgs false
set_option linter.unusedVariables false
namespace Verif
open Item PTree Lua P Grammar

/-- normal form of the token list of a tree -/
macro "ynorm" : tactic => `(tactic| (simp only [PTree.yield, yieldL]; simp only [List.singleton_append,
  List.append_assoc, List.nil_append, List.cons_append, List.append_nil, yieldL_append, yieldL, PTree.yield]))

theorem nameR_runs (rec rest) : Runs (nameR rec) (.ident :: rest) [nameT] rest := by
  refine runs_intro (by simp [PTree.yield, yieldL]) ?_
  intro ev cur st
  simp [nameR, nameUnchecked]
  exact RPost.mk [.node ev .name [] [.tok .ident]] rfl (by simp [toTree, toTreeL])

theorem nameRefR_runs (rec rest) : Runs (nameRefR rec) (.ident :: rest) [nameRefT] rest := by
  refine runs_intro (by simp [PTree.yield, yieldL]) ?_
  intro ev cur st
  simp [nameRefR, nameRefUnchecked]
  exact RPost.mk [.node ev .nameRef [] [.tok .ident]] rfl (by simp [toTree, toTreeL])

theorem c_tailNil : Compl .exprTail [] := by
  refine ⟨Or.inl rfl, fun n f rest hc _ _ hf => ?_⟩
  obtain ⟨f', rfl⟩ : ∃ f', f = f' + 1 := ⟨f - 1, by omega⟩
  refine runs_intro rfl ?_
  intro ev cur st
  simp only [yieldL, List.nil_append, exprMultiLoop, wpF_bind, wpF_atK, wpF_ite, wpF_pure]
  refine ⟨fun h => absurd (by simpa using h) hc, fun _ => RPost.mk [] rfl (by simp [toTreeL])⟩

theorem stop_tail {e ts k} (h : ts = [] ∨ ∃ l, yieldL ts = SyntaxKind.comma :: l)
    (hs : stop (e :: ts) k) : stop [e] (la (yieldL ts ++ [k])) := by
  rcases h with rfl | ⟨l, h⟩
  · simpa [yieldL] using hs
  · rw [h]; exact stop_of_zero (by simp)

theorem la_append {l : List SyntaxKind} {rest} : la (l ++ rest) = la (l ++ [la rest]) := by
  cases l <;> simp

theorem c_tailCons (e ts) (he : ExprC e) (hts : Compl .exprTail ts) :
    Compl .exprTail (.tok .comma :: e :: ts) := by
  refine ⟨Or.inr ⟨yield e ++ yieldL ts, by simp [yieldL, PTree.yield]⟩, fun n f rest hc hst hb hf => ?_⟩
  obtain ⟨f', rfl⟩ : ∃ f', f = f' + 1 := ⟨f - 1, by omega⟩
  refine runs_intro rfl ?_
  intro ev cur st
  simp [yieldL, PTree.yield] at hb hf
  ynorm
  simp only [exprMultiLoop, wpF_bind, wpF_atK, wpF_ite, wpF_pure, wpF_bump]
  refine ⟨fun _ => ⟨by simp, ?_⟩, fun h => by simp at h⟩
  have hst' := hst (by simp)
  have hst2 : stop (e :: ts) (la rest) := by simpa [stop, endsCallableL] using hst'
  refine (he.run1 n (yieldL ts ++ rest) (by simp; omega) (by
    rw [la_append]; exact stop_tail hts.1 hst2)).use ?_
  intro _ i1 e1 h1
  refine (hts.2 n f' rest hc ?_ (by simp; omega) (by simp; omega)).use ?_
  · intro hne
    cases ts with
    | nil => exact absurd rfl hne
    | cons x xs => simpa [stop, endsCallableL] using hst2
  · intro _ i2 e2 h2
    exact RPost.mk (.tok .comma :: (i1 ++ i2)) (by simp) (by simp [toTree, toTreeL, h1, h2])

theorem c_multival (e ts) (he : ExprC e) (hts : Compl .exprTail ts) :
    Compl .multival [.node .multivalExpr (e :: ts)] := by
  rintro m ⟨rfl⟩
  obtain ⟨k, hk, l, hy⟩ := he.first
  refine ⟨⟨k, hk, l ++ yieldL ts, by simp [PTree.yield, yieldL, hy]⟩, fun n fuel rest hc hst hb hf => ?_⟩
  refine runsN_intro rfl ?_
  intro ev cur st
  simp [yieldL, PTree.yield] at hb hf
  ynorm
  have hst2 : stop (e :: ts) (la rest) := by
    simpa [stop, endsCallableL, endsCallable, endsInExpr] using hst
  simp only [expr, wpF_bind, wpF_start]
  refine (he.run1 n (yieldL ts ++ rest) (by simp; omega) (by
    rw [la_append]; exact stop_tail hts.1 hst2)).use ?_
  intro _ i1 e1 h1
  have : 0 < (yield e).length := by rw [hy]; simp
  refine (hts.2 n fuel rest hc ?_ (by simp; omega) (by simp; omega)).use ?_
  · intro hne
    cases ts with
    | nil => exact absurd rfl hne
    | cons x xs => simpa [stop, endsCallableL] using hst2
  · intro _ i2 e2 h2
    simp
    exact RPostN.mk (by simp [toTree, toTreeL, h1, h2])

/-! ### tables, index, call arguments -/

theorem c_index' (e) (he : ExprC e) : Compl .index [.node .index [.tok .lBracket, e, .tok .rBracket]] := by
  rintro i ⟨rfl⟩
  refine ⟨⟨_, by ynorm; rfl⟩, fun n rest hb => ?_⟩
  refine runsN_intro rfl ?_
  intro ev cur st
  simp [yieldL, PTree.yield] at hb
  ynorm
  simp only [index, wpF_bind, wpF_start, wpF_bump]
  refine ⟨by simp, ?_⟩
  refine (he.run1 n (.rBracket :: rest) (by simp; omega) (stop_of_zero (by simp))).use ?_
  intro _ i1 e1 h1
  refine (expect_runs (k := .rBracket) (by simp) rest).use ?_
  intro _ i2 e2 h2
  simp
  exact RPostN.mk (by simp [toTree, toTreeL, h1, h2])

theorem c_itemsNil : Compl .tableItems [] := by
  intro n f0 f rest hr _ _ hf
  obtain ⟨f', rfl⟩ : ∃ f', f = f' + 1 := ⟨f - 1, by omega⟩
  refine runs_intro rfl ?_
  intro ev cur st
  simp only [yieldL, List.nil_append, tableLoop, wpF_bind, wpF_atTs, wpF_ite, wpF_pure, TABLE_END,
    TokenSet.contains_new]
  refine ⟨fun h => ?_, fun _ => RPost.mk [] rfl (by simp [toTreeL])⟩
  simp at h; simp [la] at hr; exact absurd hr h.2.2

theorem tableFirst_facts : ∀ k ∈ SyntaxKind.lBracket :: exprFirst,
    k ≠ .eof ∧ k ≠ .endKw ∧ k ≠ .rBrace := by decide

theorem c_itemsLast (c) (hc : Compl .tableContent [c]) : Compl .tableItems [c] := by
  intro n f0 f rest hr hb hf0 hf
  obtain ⟨⟨k, hk, l, hy⟩, hrun⟩ := hc
  have hk' := tableFirst_facts k hk
  have hnil := c_itemsNil n f0 (f - 1) rest hr (by simp [yieldL] at hb ⊢; omega)
    (by simp [yieldL] at hf0 ⊢; omega) (by
      have := congrArg List.length hy; simp at this; simp [yieldL] at hf this ⊢; omega)
  obtain ⟨f', rfl⟩ : ∃ f', f = f' + 1 := ⟨f - 1, by omega⟩
  obtain ⟨g, rfl⟩ : ∃ g, f0 = g + 1 := ⟨f0 - 1, by omega⟩
  refine runs_intro rfl ?_
  intro ev cur st
  simp only [tableLoop, wpF_bind, wpF_atTs, wpF_ite, wpF_pure, TABLE_END, TokenSet.contains_new]
  refine ⟨fun _ => ?_, fun h => ?_⟩
  · refine (hrun n rest (by simp [la] at hr; simp [hr]) hb).use ?_
    intro _ i1 e1 h1
    simp only [tableInnerLoop, wpF_bind, wpF_atTs, wpF_ite, wpF_pure, TABLE_END, TokenSet.contains_new]
    refine ⟨fun h => ?_, fun _ => ?_⟩
    · simp at h; simp [la] at hr; exact absurd hr h.2.2
    · simp at hnil
      refine hnil.use ?_
      intro _ i2 e2 h2
      exact RPost.mk (i1 ++ i2) (by simp) (by simp [h1, h2])
  · rw [hy] at h; simp at h; exact absurd h (by simp [hk'])

theorem c_itemsCons (c sep ts) (hc : Compl .tableContent [c]) (hsep : sep ∈ [SyntaxKind.comma, .semicolon])
    (hts : Compl .tableItems ts) : Compl .tableItems (c :: .node .tableSep [.tok sep] :: ts) := by
  intro n f0 f rest hr hb hf0 hf
  obtain ⟨⟨k, hk, l, hy⟩, hrun⟩ := hc
  have hk' := tableFirst_facts k hk
  obtain ⟨f', rfl⟩ : ∃ f', f = f' + 1 := ⟨f - 1, by omega⟩
  obtain ⟨g, rfl⟩ : ∃ g, f0 = g + 1 := ⟨f0 - 1, by omega⟩
  simp [yieldL, PTree.yield] at hy
  refine runs_intro rfl ?_
  intro ev cur st
  simp [yieldL, PTree.yield] at hb hf0 hf
  ynorm
  simp only [tableLoop, wpF_bind, wpF_atTs, wpF_ite, wpF_pure, TABLE_END, TokenSet.contains_new]
  refine ⟨fun _ => ?_, fun h => ?_⟩
  · have hrun' := hrun n (sep :: (yieldL ts ++ rest)) (by simp at hsep; simp; grind)
      (by simp [yieldL]; omega)
    simp only [yieldL, List.append_nil] at hrun'
    refine hrun'.use ?_
    intro _ i1 e1 h1
    have hn : sep ≠ .eof ∧ sep ≠ .endKw ∧ sep ≠ .rBrace := by
      simp at hsep; rcases hsep with rfl | rfl <;> simp
    simp only [tableInnerLoop, wpF_bind, wpF_atTs, wpF_ite, wpF_pure, TABLE_END, TABLE_SEP,
      TokenSet.contains_new, tableSep, bumpTs, wpF_start, lookahead_cons, wpF_panic, wpF_bumpAny,
      wpF_complete]
    refine ⟨fun _ => ⟨fun _ => ⟨fun h => ?_, fun _ => ⟨hn.1, by simp, ?_⟩⟩, fun h => ?_⟩, fun h => ?_⟩
    · simp at h hsep; grind
    · refine (hts n (g+1) f' rest hr (by simp; omega) (by simp; omega) (by simp; omega)).use ?_
      intro _ i2 e2 h2
      exact RPost.mk (i1 ++ .node e1 .tableSep [] [.tok sep] :: i2) (by simp)
        (by simp [toTreeL, toTree, h1, h2])
    · simp at h hsep; grind
    · simp [hn] at h
  · rw [hy] at h; simp at h; exact absurd h (by simp [hk'])

theorem exprFirst_table_facts : ∀ k ∈ exprFirst, k ≠ .lBracket := by decide

theorem c_positional (e) (he : ExprC e) :
    Compl .tableContent [.node .tableContent [.node .positionalValue [e]]] := by
  obtain ⟨k, hk, l, hy⟩ := he.first
  refine ⟨⟨k, by simp [hk], l, by simp [yieldL, PTree.yield, hy]⟩, fun n rest hr hb => ?_⟩
  refine runs_intro rfl ?_
  intro ev cur st
  simp [yieldL, PTree.yield] at hb
  ynorm
  have hrl : la rest ∈ [SyntaxKind.comma, .semicolon, .rBrace] := hr
  have hst : stop [e] (la rest) := by
    refine stop_of_zero ?_
    simp at hrl ⊢; grind
  have hrun := he.run1 n rest (by simp; omega) hst
  have hne : la rest ≠ .eq := by intro h; rw [h] at hrl; simp at hrl
  simp only [tableContent, wpF_bind, wpF_start, wpF_current, wpF_ite, wpF_nth, wpF_atTs,
    contains_EXPR_FIRST]
  have hla : lookahead (yield e ++ rest) 0 = k := by rw [hy]; simp
  have fin : ∀ ev0, wpF (exprSingle (recN n)) ⟨yield e ++ rest, ev0 + 1 + 1, [],
      ⟨ev0 + 1, false, [], []⟩ :: ⟨ev0, false, [], cur⟩ :: st⟩ fun _ s' =>
      wpF (complete (ev0 + 1) .positionalValue) s' fun a s' => wpF (complete ev0 .tableContent) s'
        fun _ s' => RPost rest cur st [.node .tableContent [.node .positionalValue [e]]] s' := by
    intro ev0
    refine hrun.use ?_
    intro _ i1 e1 h1
    simp
    exact RPost.mk [.node ev0 .tableContent [] [.node (ev0 + 1) .positionalValue [] i1]] rfl
      (by simp [toTreeL, toTree, h1])
  refine ⟨fun h => ⟨fun h2 => ?_, fun _ => fin _⟩, fun h => ⟨fun h2 => ?_, fun h2 => ⟨fun _ => fin _, fun h3 => ?_⟩⟩⟩
  · exfalso
    rw [hla] at h
    exact he.second rest hne (by rw [hy]; simpa using h) (by simpa using h2)
  · rw [hla] at h2; exact absurd (by simpa using h2) (exprFirst_table_facts k hk)
  · rw [hla] at h3; simp [hk] at h3

theorem c_namedField (e) (he : ExprC e) : Compl .tableContent [.node .tableContent
    [.node .keyValue [.node .tableKey [nameT], .tok .eq, e]]] := by
  refine ⟨⟨.ident, by simp [exprFirst], _, by ynorm; rfl⟩, fun n rest hr hb => ?_⟩
  refine runs_intro rfl ?_
  intro ev cur st
  simp [yieldL, PTree.yield] at hb
  ynorm
  have hrl : la rest ∈ [SyntaxKind.comma, .semicolon, .rBrace] := hr
  have hst : stop [e] (la rest) := by
    refine stop_of_zero ?_
    simp at hrl ⊢; grind
  simp [tableContent, nameUnchecked]
  refine (he.run1 n rest (by simp; omega) hst).use ?_
  intro _ i1 e1 h1
  simp
  exact RPost.mk [.node ev .tableContent [] [.node (ev+1) .keyValue []
        (.node (ev+2) .tableKey [] [.node (ev+3) .name [] [.tok .ident]] :: .tok .eq :: i1)]] rfl
    (by simp [toTreeL, toTree, h1])

theorem c_indexedField (i e) (hi : Compl .index [i]) (he : ExprC e) :
    Compl .tableContent [.node .tableContent
        [.node .keyValue [.node .tableKey [i], .tok .eq, e]]] := by
  obtain ⟨⟨l, hy⟩, hi⟩ := hi i rfl
  refine ⟨⟨.lBracket, by simp, l ++ .eq :: yield e, by simp [PTree.yield, yieldL, hy]⟩, fun n rest hr hb => ?_⟩
  refine runs_intro rfl ?_
  intro ev cur st
  simp [yieldL, PTree.yield] at hb
  ynorm
  have hrl : la rest ∈ [SyntaxKind.comma, .semicolon, .rBrace] := hr
  have hst : stop [e] (la rest) := by
    refine stop_of_zero ?_
    simp at hrl ⊢; grind
  have hla : lookahead (yield i ++ .eq :: (yield e ++ rest)) 0 = .lBracket := by rw [hy]; simp
  simp only [tableContent, wpF_bind, wpF_start, wpF_current, wpF_ite, wpF_nth]
  refine ⟨fun h => by rw [hla] at h; simp at h, fun h => ⟨fun h2 => ?_, fun h2 => by rw [hla] at h2; simp at h2⟩⟩
  refine (hi n (.eq :: (yield e ++ rest)) (by simp; omega)).runs.use ?_
  intro _ i1 e1 h1
  simp only [wpF_complete]
  refine ⟨by simp, ?_⟩
  refine (expect_runs (k := .eq) (by simp) _).use ?_
  intro _ i2 e2 h2
  refine (he.run1 n rest (by simp; omega) hst).use ?_
  intro _ i3 e3 h3
  simp
  exact RPost.mk [.node ev .tableContent [] [.node (ev+1) .keyValue []
        (.node (ev+2) .tableKey [] i1 :: (i2 ++ i3))]] rfl
    (by simp [toTreeL, toTree, h1, h2, h3])

theorem callArgs_wrap {n fuel toks rest inner} (k : SyntaxKind)
    (hk : k ∈ [SyntaxKind.lBrace, .lParen, .str]) (hla : lookahead toks 0 = k)
    (hy : toks = yield inner ++ rest)
    (h1 : k = .lParen → RunsN (argList (recN n) fuel) toks inner rest)
    (h2 : k = .lBrace → RunsN (tableExpr (recN n) fuel) toks inner rest)
    (h3 : k = .str → toks = .str :: rest ∧ inner = .tok .str) :
    RunsN (callArgs (recN n) fuel) toks (.node .callArgs [inner]) rest := by
  refine runsN_intro (by simp [yieldL, PTree.yield, hy]) ?_
  intro ev cur st
  simp only [callArgs, wpF_bind, wpF_start, wpF_current, wpF_ite, wpF_atTs, contains_CALL_FIRST,
    wpF_panic]
  rw [hla]
  refine ⟨fun h => ?_, fun _ => ⟨fun h => ?_, fun h => ⟨fun h' => ?_, fun h' => ⟨fun h'' => ?_, fun h'' => ?_⟩⟩⟩⟩
  · simp at h hk; grind
  · refine (h1 (by simpa using h)).runs.use ?_
    intro _ i1 e1 ht
    simp
    exact RPostN.mk (by simp [toTree, toTreeL, ht])
  · refine (h2 (by simpa using h')).runs.use ?_
    intro _ i1 e1 ht
    simp
    exact RPostN.mk (by simp [toTree, toTreeL, ht])
  · obtain ⟨rfl, rfl⟩ := h3 (by simpa using h'')
    simp
    exact RPostN.mk (by simp [toTree, toTreeL])
  · simp at h h' h'' hk; grind

theorem c_argsEmpty : Compl .callArgs [.node .callArgs [.node .argList [.tok .lParen, .tok .rParen]]] := by
  rintro a ⟨rfl⟩
  refine ⟨⟨.lParen, by simp, _, by ynorm; rfl⟩, fun n fuel rest hb hf => ?_⟩
  refine callArgs_wrap .lParen (by simp) (by ynorm; simp) (by simp [PTree.yield, yieldL]) (fun _ => ?_) (by simp) (by simp)
  ynorm
  refine runsN_intro (by ynorm) ?_
  intro ev cur st
  simp [argList, expect]
  exact RPostN.mk (by simp [toTree, toTreeL])

theorem c_args (m) (hm : Compl .multival [m]) :
    Compl .callArgs [.node .callArgs [.node .argList [.tok .lParen, m, .tok .rParen]]] := by
  rintro a ⟨rfl⟩
  have hm := hm m rfl
  obtain ⟨k, hk, l, hy⟩ := hm.first
  refine ⟨⟨.lParen, by simp, _, by ynorm; rfl⟩, fun n fuel rest hb hf => ?_⟩
  simp [yieldL, PTree.yield] at hb hf
  refine callArgs_wrap .lParen (by simp) (by ynorm; simp) (by simp [PTree.yield, yieldL]) (fun _ => ?_) (by simp) (by simp)
  ynorm
  refine runsN_intro (by ynorm) ?_
  intro ev cur st
  simp only [argList, wpF_bind, wpF_start, wpF_bump, wpF_ite, wpF_atK]
  refine ⟨by simp, fun _ => ?_, fun h => ?_⟩
  · refine (hm.run n fuel (.rParen :: rest) (by simp) (stop_of_zero (by simp)) (by simp; omega)
      (by simp; omega)).runs.use ?_
    intro _ i1 e1 h1
    refine (expect_runs (k := .rParen) (by simp) _).use ?_
    intro _ i2 e2 h2
    simp
    exact RPostN.mk (by simp [toTree, toTreeL, h1, h2])
  · rw [hy] at h; simp at h; subst h; simp [exprFirst, literalKinds] at hk

theorem c_argsTable (ts) (h : Compl .tableItems ts) : Compl .callArgs
    [.node .callArgs [.node .tableExpr (.tok .lBrace :: (ts ++ [.tok .rBrace]))]] := by
  rintro a ⟨rfl⟩
  refine ⟨⟨.lBrace, by simp, _, by ynorm; rfl⟩, fun n fuel rest hb hf => ?_⟩
  simp [yieldL, PTree.yield] at hb hf
  refine callArgs_wrap .lBrace (by simp) (by ynorm; simp) (by simp [PTree.yield, yieldL]) (by simp) (fun _ => ?_) (by simp)
  ynorm
  exact table_run ts h n fuel rest (by simp; omega) (by simp; omega)

theorem c_argsStr : Compl .callArgs [.node .callArgs [.tok .str]] := by
  rintro a ⟨rfl⟩
  refine ⟨⟨.str, by simp, _, by ynorm; rfl⟩, fun n fuel rest hb hf => ?_⟩
  refine callArgs_wrap .str (by simp) (by ynorm; simp) (by simp [PTree.yield, yieldL]) (by simp) (by simp) (fun _ => ?_)
  ynorm
  simp

end Verif
