import Verif.Proof.Complete2

set_option linter.unusedSimpArgs false
set_option linter.unusedVariables false
namespace Verif
open Item PTree Lua P Grammar

theorem atomFirst_facts : ∀ k ∈ [SyntaxKind.functionKw, .lBrace, .ident, .lParen],
    k ∉ unaryOps ∧ k ∉ literalKinds ∧ k ∈ exprFirst := by decide
theorem unaryOps_exprFirst : ∀ k ∈ unaryOps, k ∈ exprFirst := by decide
theorem infixOps_facts : ∀ op ∈ infixOps, op ≠ .lBracket ∧ op ≠ .dot ∧ op ≠ .lBrace ∧ op ≠ .lParen ∧
    op ≠ .str ∧ op ≠ .colon ∧ op ≠ .eq ∧ op ≠ .eof := by decide

theorem exprC_atom {t} (k : SyntaxKind) (hk : k ∈ [SyntaxKind.functionKw, .lBrace, .ident, .lParen])
    (l) (hy : yield t = k :: l) (hcal : endsCallable t = true) (hlit : kindOf t ≠ some .literal)
    (hp : rightPows t = []) (hl : leftOps t = [])
    (second : k = .ident → l = [])
    (run : ∀ n fuel rest, 2 * (yield t ++ rest).length ≤ n → (yield t ++ rest).length ≤ fuel →
      (k = .functionKw → RunsN (functionExpr (recN n) fuel) (yield t ++ rest) t rest) ∧
      (k = .lBrace → RunsN (tableExpr (recN n) fuel) (yield t ++ rest) t rest) ∧
      (k = .ident → RunsN nameRef (yield t ++ rest) t rest) ∧
      (k = .lParen → RunsN (parenExpr (recN n)) (yield t ++ rest) t rest)) : ExprC t := by
  have hpre := (atomFirst_facts k hk).1
  have hlt := (atomFirst_facts k hk).2.1
  refine exprC_of_post hp hl (Or.inr hcal) ⟨k, (atomFirst_facts k hk).2.2, l, hy⟩ ?_ ?_
  · intro rest hr hi
    rw [hy] at hi ⊢
    simp at hi
    rw [second hi]
    simpa using hr
  · intro n fuel rest hb hf ev cur st Q hq
    obtain ⟨r1, r2, r3, r4⟩ := run n fuel rest hb hf
    refine lhs_atom (by rw [hy]; simpa using hpre) (by simp [hy] at hf; omega) (t := t) ?_ hq
    have hd : (decide (kindOf t ≠ some .literal)) = true := by simpa using hlit
    rw [hd]
    rw [hy, List.cons_append] at *
    intro ev cur st
    rw [atom_dispatch hpre hlt]
    have fin : ∀ {p : Prog Nat}, RunsN p (k :: (l ++ rest)) t rest →
        wpF p ⟨k :: (l ++ rest), ev, cur, st⟩ fun a s' => Post (k :: (l ++ rest)) cur st
          (fun items toks' => (∃ p k bf af, some (a, true) = some (p, true) ∧
            items = [.node p k bf af]) ∧ toTreeL items = [t] ∧ toks' = rest) s' := by
      intro p h
      refine wpF_mono (h ev cur st) ?_
      rintro a s ⟨items, toks', ev', rfl, y, ⟨k, bf, af, rfl⟩, ht, rfl⟩
      exact ⟨_, _, _, rfl, y, ⟨_, _, _, _, rfl, rfl⟩, ht, rfl⟩
    exact ⟨fun h => fin (r1 h), fun h => fin (r2 h), fun h => fin (r3 h), fun h => fin (r4 h),
      fun h => absurd hk h⟩

theorem c_nameRef : ExprC nameRefT := by
  refine exprC_atom .ident (by simp) [] (by simp [PTree.yield, yieldL])
    (by simp [endsCallable, endsInExpr, callableKinds]) (by simp [kindOf])
    (by simp [rightPows]) (by simp [leftOps]) (by simp) ?_
  intro n fuel rest hb hf
  refine ⟨by simp, by simp, fun _ => ?_, by simp⟩
  exact nameRef_runs rest

theorem c_literal (k) (hk : k ∈ literalKinds) : ExprC (.node .literal [.tok k]) := by
  have hpre : k ∉ unaryOps := by revert hk; revert k; decide
  have hne : k ≠ .eof := by rintro rfl; simp [literalKinds] at hk
  refine exprC_of_post (by simp [rightPows]) (by simp [leftOps]) (Or.inl (by simp [kindOf]))
    ⟨k, by simp [exprFirst, hk], [], by simp [PTree.yield, yieldL]⟩ ?_ ?_
  · intro rest hr hi
    simp [PTree.yield, yieldL] at hi
    subst hi; simp [literalKinds] at hk
  · intro n fuel rest hb hf ev cur st Q hq
    refine lhs_atom (by simpa [PTree.yield, yieldL] using hpre) (rest := rest)
      (by simp [PTree.yield, yieldL] at hf; omega) (t := .node .literal [.tok k])
      (cc := false) ?_ (by simpa [kindOf] using hq)
    intro ev cur st
    have hz : ¬ prefixBindingPower k > 0 := by
      intro h'; exact hpre ((prefix_pos_iff _).1 h')
    have hc : LITERAL_FIRST.contains k = true := by simp [contains_LITERAL_FIRST, hk]
    simp [atomExpr, PTree.yield, yieldL, literal, hz, hc, hne]
    intro _
    refine Spec.done [.node ev .literal [] [.tok k]] rfl (by simp) ?_
    exact ⟨⟨_, _, _, rfl⟩, by simp [toTreeL, toTree], rfl⟩

theorem stop_of_zero {ts k} (h : k ∈ [SyntaxKind.eof, .rBracket, .rParen, .rBrace, .comma, .semicolon,
    .thenKw, .doKw, .endKw, .elseifKw, .elseKw, .untilKw, .eq]) : stop ts k := by
  have h2 : ∀ k ∈ [SyntaxKind.eof, .rBracket, .rParen, .rBrace, .comma, .semicolon,
    .thenKw, .doKw, .endKw, .elseifKw, .elseKw, .untilKw, .eq], (ibp k).1 = 0 ∧ k ≠ .lBracket ∧ k ≠ .dot ∧
    (k ≠ .lBrace ∧ k ≠ .lParen ∧ k ≠ .str ∧ k ≠ .colon) := by decide
  obtain ⟨a, b, c, d⟩ := h2 k h
  exact ⟨a, b, c, fun _ => d⟩

theorem c_paren (e) (h : ExprC e) : ExprC (.node .parenExpr [.tok .lParen, e, .tok .rParen]) := by
  refine exprC_atom .lParen (by simp) (yield e ++ [.rParen]) (by simp [PTree.yield, yieldL])
    (by simp [endsCallable, endsInExpr, callableKinds]) (by simp [kindOf])
    (by simp [rightPows]) (by simp [leftOps]) (by simp) ?_
  intro n fuel rest hb hf
  refine ⟨by simp, by simp, by simp, fun _ => ?_⟩
  refine runsN_intro rfl ?_
  intro ev cur st
  simp [PTree.yield, yieldL] at hb hf
  simp only [parenExpr, wpF_bind, wpF_start]
  have := expect_runs (k := .lParen) (by simp) (yield e ++ .rParen :: rest)
  simp only [PTree.yield, yieldL]
  simp only [List.singleton_append, List.append_assoc, List.nil_append, List.cons_append,
    List.append_nil]
  refine this.use ?_
  intro _ i1 e1 h1
  refine (h.run1 n (.rParen :: rest) (by simp; omega) (stop_of_zero (by simp))).use ?_
  intro _ i2 e2 h2
  refine (expect_runs (k := .rParen) (by simp) rest).use ?_
  intro _ i3 e3 h3
  simp
  exact RPostN.mk (by simp [toTree, toTreeL, h1, h2, h3])

theorem c_function (p b) (hp : Compl .params [p]) (hb : Compl .block [b]) :
    ExprC (.node .functionExpr [.tok .functionKw, p, b, .tok .endKw]) := by
  obtain ⟨ss, rfl, hs⟩ := hb b rfl
  obtain ⟨-, hp⟩ := hp p rfl
  refine exprC_atom .functionKw (by simp) (yield p ++ (yieldL ss ++ [.endKw]))
    (by simp [PTree.yield, yieldL])
    (by simp [endsCallable, endsInExpr, callableKinds]) (by simp [kindOf])
    (by simp [rightPows]) (by simp [leftOps]) (by simp) ?_
  intro n fuel rest hb hf
  refine ⟨fun _ => ?_, by simp, by simp, by simp⟩
  refine runsN_intro rfl ?_
  intro ev cur st
  simp [PTree.yield, yieldL] at hb hf
  simp only [PTree.yield, yieldL]
  simp only [List.singleton_append, List.append_assoc, List.nil_append, List.cons_append,
    List.append_nil]
  simp only [functionExpr, wpF_bind, wpF_start, wpF_bump]
  refine ⟨by simp, ?_⟩
  refine (hp fuel (yieldL ss ++ .endKw :: rest) (by simp; omega)).runs.use ?_
  intro _ i1 e1 h1
  refine (hs.block n (.endKw :: rest) (by simp [blockEnds]) (by simp; omega)).use ?_
  intro _ i2 e2 h2
  refine (expect_runs (k := .endKw) (by simp) rest).use ?_
  intro _ i3 e3 h3
  simp
  exact RPostN.mk (by simp [toTree, toTreeL, h1, h2, h3])

theorem table_run (ts) (h : Compl .tableItems ts) (n fuel rest)
    (hb : 2 * (.lBrace :: (yieldL ts ++ .rBrace :: rest)).length ≤ n)
    (hf : (.lBrace :: (yieldL ts ++ .rBrace :: rest)).length ≤ fuel) :
    RunsN (tableExpr (recN n) fuel) (.lBrace :: (yieldL ts ++ .rBrace :: rest))
      (.node .tableExpr (.tok .lBrace :: (ts ++ [.tok .rBrace]))) rest := by
  refine runsN_intro (by simp [PTree.yield, yieldL]) ?_
  intro ev cur st
  simp at hb hf
  simp only [tableExpr, wpF_bind, wpF_start, wpF_bump]
  refine ⟨by simp, ?_⟩
  refine (h n fuel fuel (.rBrace :: rest) (by simp) (by simp; omega) (by simp; omega) (by simp; omega)).use ?_
  intro _ i1 e1 h1
  refine (expect_runs (k := .rBrace) (by simp) rest).use ?_
  intro _ i2 e2 h2
  simp
  exact RPostN.mk (by simp [toTree, toTreeL, h1, h2])

theorem c_table (ts) (h : Compl .tableItems ts) :
    ExprC (.node .tableExpr (.tok .lBrace :: (ts ++ [.tok .rBrace]))) := by
  refine exprC_atom .lBrace (by simp) (yieldL ts ++ [.rBrace])
    (by simp [PTree.yield, yieldL])
    (by simp [endsCallable, endsInExpr, callableKinds]) (by simp [kindOf])
    (by simp [rightPows]) (by simp [leftOps]) (by simp) ?_
  intro n fuel rest hb hf
  refine ⟨by simp, fun _ => ?_, by simp, by simp⟩
  have := table_run ts h n fuel rest (by simp [PTree.yield, yieldL] at hb; simp; omega)
    (by simp [PTree.yield, yieldL] at hf; simp; omega)
  simpa [PTree.yield, yieldL] using this

/-- postfix forms -/
theorem exprC_postfix {f t} (ya : List SyntaxKind) (hf : ExprC f) (hix : indexable f)
    (hy : yield t = yield f ++ ya) (hya : ya ≠ []) (hyeq : la ya ≠ .eq)
    (hcal : endsCallable t = true) (hlit : kindOf t ≠ some .literal)
    (hp : rightPows t = []) (hl : leftOps t = [])
    (run : ∀ n fuel rest p k bf af ev cur st f' Q, 2 * (yield t ++ rest).length ≤ n →
      (yield t ++ rest).length ≤ fuel → (ya ++ rest).length < f' + 1 →
      toTree (.node p k bf af) = f →
      (∀ p k bf af ev', toTree (.node p k bf af) = t →
        wpF (postfixExpr (recN n) fuel f' p true) ⟨rest, ev', .node p k bf af :: cur, st⟩ Q) →
      wpF (postfixExpr (recN n) fuel (f' + 1) p (decide (kindOf f ≠ some .literal)))
        ⟨ya ++ rest, ev, .node p k bf af :: cur, st⟩ Q) : ExprC t := by
  obtain ⟨k, hk, l, hyf⟩ := hf.first
  refine exprC_of_post hp hl (Or.inr hcal) ⟨k, hk, l ++ ya, by rw [hy, hyf]; rfl⟩ ?_ ?_
  · intro rest hr hi
    rw [hy, List.append_assoc]
    refine hf.second (ya ++ rest) ?_ ?_
    · cases ya with
      | nil => exact absurd rfl hya
      | cons a as => simpa using hyeq
    · rw [hy, hyf] at hi; rw [hyf]; simpa using hi
  · intro n fuel rest hb hfu ev cur st Q hq
    have hd : (decide (kindOf t ≠ some .literal)) = true := by simpa using hlit
    rw [hd] at hq
    have hb' := hb; have hfu' := hfu
    rw [hy, List.append_assoc] at hb hfu ⊢
    refine hf.post hix n fuel (ya ++ rest) hb hfu ev cur st Q ?_
    intro p k bf af ev' f' ht hlt
    obtain ⟨f'', rfl⟩ : ∃ f'', f' = f'' + 1 := ⟨f' - 1, by omega⟩
    refine run n fuel rest p k bf af ev' cur st f'' _ hb' hfu' hlt ht ?_
    intro p k bf af ev' ht
    refine hq p k bf af ev' f'' ht ?_
    have : ya.length ≠ 0 := by simpa using hya
    simp at hlt; omega

theorem notlit_of_callable {f} (h : callable f) : (decide (kindOf f ≠ some .literal)) = true := by
  simpa using h.2

theorem c_call (f a) (hf : ExprC f) (hc : callable f) (ha : Compl .callArgs [a]) :
    ExprC (.node .callExpr [f, a]) := by
  obtain ⟨⟨k, hk, l, hy⟩, ha⟩ := ha a rfl
  refine exprC_postfix (yield a) hf hc.1 (by simp [PTree.yield, yieldL]) (by simp [hy]) ?_
    (by simp [endsCallable, endsInExpr, callableKinds]) (by simp [kindOf])
    (by simp [rightPows]) (by simp [leftOps]) ?_
  · rw [hy]; simp; rintro rfl; simp at hk
  · intro n fuel rest p k' bf af ev cur st f' Q hb hfu hlt ht hq
    rw [notlit_of_callable hc]
    simp [PTree.yield, yieldL] at hb hfu
    simp only [postfixExpr, wpF_bind, wpF_current, wpF_ite, wpF_atTs, contains_CALL_FIRST, wpF_pure]
    refine ⟨fun _ => ?_, fun h => absurd ?_ h⟩
    · simp only [callExpr, wpF_bind, wpF_precede_head]
      refine (ha n fuel rest (by simp; omega) (by simp; omega)).runs.use ?_
      intro _ i1 e1 h1
      simp only [wpF_complete]
      refine ⟨by simp, ?_⟩
      refine hq _ _ _ _ _ ?_
      simp [toTree, toTreeL, h1, ← ht]
    · rw [hy]; simpa using hk

theorem c_index (f i) (hf : ExprC f) (hc : indexable f) (ha : Compl .index [i]) :
    ExprC (.node .indexExpr [f, i]) := by
  obtain ⟨⟨l, hy⟩, ha⟩ := ha i rfl
  refine exprC_postfix (yield i) hf hc (by simp [PTree.yield, yieldL]) (by simp [hy]) (by simp [hy])
    (by simp [endsCallable, endsInExpr, callableKinds]) (by simp [kindOf])
    (by simp [rightPows]) (by simp [leftOps]) ?_
  · intro n fuel rest p k' bf af ev cur st f' Q hb hfu hlt ht hq
    simp [PTree.yield, yieldL] at hb hfu
    simp only [postfixExpr, wpF_bind, wpF_current, wpF_ite, wpF_atTs, contains_CALL_FIRST, wpF_pure]
    refine ⟨fun h => ?_, fun _ => ⟨fun h => ?_, fun _ => ⟨fun _ => ?_, fun h => ?_⟩⟩⟩
    · rw [hy] at h; simp at h
    · rw [hy] at h; simp at h
    · simp only [indexExpr, wpF_bind, wpF_precede_head]
      refine (ha n rest (by simp; omega)).runs.use ?_
      intro _ i1 e1 h1
      simp only [wpF_complete]
      refine ⟨by simp, ?_⟩
      refine hq _ _ _ _ _ ?_
      simp [toTree, toTreeL, h1, ← ht]
    · rw [hy] at h; simp at h

theorem c_dot (f) (hf : ExprC f) (hc : indexable f) :
    ExprC (.node .dotExpr [f, .tok .dot, .tok .ident]) := by
  refine exprC_postfix [.dot, .ident] hf hc (by simp [PTree.yield, yieldL]) (by simp) (by simp)
    (by simp [endsCallable, endsInExpr, callableKinds]) (by simp [kindOf])
    (by simp [rightPows]) (by simp [leftOps]) ?_
  · intro n fuel rest p k' bf af ev cur st f' Q hb hfu hlt ht hq
    simp only [postfixExpr, wpF_bind, wpF_current, wpF_ite, wpF_atTs, contains_CALL_FIRST, wpF_pure]
    simp only [List.cons_append, List.nil_append]
    refine ⟨fun h => by simp at h, fun _ => ⟨fun h => by simp at h, fun _ => ⟨fun h => by simp at h, fun _ =>
      ⟨fun _ => ?_, fun h => by simp at h⟩⟩⟩⟩
    simp only [dotExpr, wpF_bind, wpF_precede_head, wpF_bump]
    refine ⟨by simp, ?_⟩
    refine (expect_runs (k := .ident) (by simp) rest).use ?_
    intro _ i1 e1 h1
    simp only [wpF_complete]
    refine ⟨by simp, ?_⟩
    refine hq _ _ _ _ _ ?_
    simp [toTree, toTreeL, h1, ← ht]

theorem c_method (f a) (hf : ExprC f) (hc : callable f) (ha : Compl .callArgs [a]) :
    ExprC (.node .methodCallExpr [f, .tok .colon, nameRefT, a]) := by
  obtain ⟨⟨k, hk, l, hy⟩, ha⟩ := ha a rfl
  refine exprC_postfix (.colon :: .ident :: yield a) hf hc.1 (by simp [PTree.yield, yieldL]) (by simp)
    (by simp) (by simp [endsCallable, endsInExpr, callableKinds]) (by simp [kindOf])
    (by simp [rightPows]) (by simp [leftOps]) ?_
  · intro n fuel rest p k' bf af ev cur st f' Q hb hfu hlt ht hq
    rw [notlit_of_callable hc]
    simp [PTree.yield, yieldL] at hb hfu
    simp only [postfixExpr, wpF_bind, wpF_current, wpF_ite, wpF_atTs, contains_CALL_FIRST, wpF_pure]
    simp only [List.cons_append]
    refine ⟨fun h => by simp at h, fun _ => ⟨fun _ => ?_, fun h => by simp at h⟩⟩
    simp only [methodCallExpr, wpF_bind, wpF_precede_head, wpF_bump]
    refine ⟨by simp, ?_⟩
    refine (nameRef_runs (yield a ++ rest)).runs.use ?_
    intro _ i1 e1 h1
    simp only [wpF_ite, wpF_atTs, contains_CALL_FIRST, wpF_bind]
    refine ⟨fun _ => ?_, fun h => absurd ?_ h⟩
    · refine (ha n fuel rest (by simp; omega) (by simp; omega)).runs.use ?_
      intro _ i2 e2 h2
      simp only [wpF_complete]
      refine ⟨by simp, ?_⟩
      refine hq _ _ _ _ _ ?_
      simp [toTree, toTreeL, h1, h2, ← ht]
    · rw [hy]; simpa using hk

theorem c_prefix (op e) (hop : op ∈ unaryOps) (he : ExprC e)
    (hl : ∀ q ∈ leftOps e, unaryLevel < level q) : ExprC (.node .prefixExpr [.tok op, e]) := by
  have hy : yield (.node .prefixExpr [.tok op, e]) = op :: yield e := by simp [PTree.yield, yieldL]
  have hpos := (prefix_pos_iff op).2 hop
  have hne : op ≠ .eof := by rintro rfl; simp [unaryOps] at hop
  refine ⟨?_, by simp [leftOps], ⟨op, ?_, yield e, hy⟩, ?_, ?_, ?_⟩
  · simp only [rightPows, List.mem_cons, forall_eq_or_imp]
    exact ⟨hpos, he.pos⟩
  · exact unaryOps_exprFirst op hop
  · intro rest hr hi
    rw [hy] at hi; simp at hi; subst hi; simp [unaryOps] at hop
  · refine loop_of_lhs ?_ (by simp [hy])
    intro n fuel rest hb hf hfo ev cur st Q hq
    rw [hy] at *
    simp only [List.cons_append, lhs, wpF_bind, wpF_current, wpF_ite, lookahead_cons, wpF_start,
      wpF_bumpAny]
    refine ⟨fun _ => ⟨hne, ?_⟩, fun h => absurd hpos h⟩
    simp only [follow, rightPows, List.mem_cons, forall_eq_or_imp] at hfo
    obtain ⟨⟨f1, f2⟩, f3, f4, f5⟩ := hfo
    refine (he.run n (prefixBindingPower op) rest (by simp at hb ⊢; omega)
      (fun q hq => prefix_le_conv q op hop (hl q hq)) ⟨f2, f3, f4, ?_⟩ f1).use ?_
    · simpa [endsCallable, endsInExpr, endsCallableL] using f5
    · intro _ i1 e1 h1
      simp
      exact hq _ _ _ _ _ (by simp [toTree, toTreeL, h1])
  · intro h; exact absurd rfl h.2

theorem c_infix (op l r) (hb : isBinary op) (hl : ExprC l) (hr : ExprC r)
    (h1 : ∀ p ∈ rightLevels l, level op < p ∨ (level op = p ∧ rightAssoc op = false))
    (h2 : ∀ p ∈ leftOps r, level op < level p ∨ (level op = level p ∧ rightAssoc op = true))
    (hk : ∀ p ∈ rightPows l, (ibp op).1 < p) :
    ExprC (.node .infixExpr [l, .tok op, r]) := by
  have hy : yield (.node .infixExpr [l, .tok op, r]) = yield l ++ op :: yield r := by
    simp [PTree.yield, yieldL]
  have hmem := mem_infixOps_of_level hb
  have hpos := ibp_pos_of_mem hmem
  have hop : op ≠ .lBracket ∧ op ≠ .dot ∧ op ≠ .lBrace ∧ op ≠ .lParen ∧ op ≠ .str ∧ op ≠ .colon ∧
      op ≠ .eq ∧ op ≠ .eof := infixOps_facts op hmem
  obtain ⟨k, hkf, ll, hyl⟩ := hl.first
  refine ⟨?_, ?_, ⟨k, hkf, ll ++ op :: yield r, by rw [hy, hyl]; rfl⟩, ?_, ?_, ?_⟩
  · simp only [rightPows, List.mem_cons, forall_eq_or_imp]
    exact ⟨hpos.2, hr.pos⟩
  · simp only [leftOps, List.mem_cons, forall_eq_or_imp]
    exact ⟨hpos.1, hl.lpos⟩
  · intro rest hre hi
    rw [hy, List.append_assoc]
    refine hl.second _ (by simpa using hop.2.2.2.2.2.2.1) ?_
    rw [hy, hyl] at hi; rw [hyl]; simpa using hi
  · intro n fuel m rest hb1 hf hlo hfo ev cur st Q hq
    simp only [leftOps, List.mem_cons, forall_eq_or_imp] at hlo
    simp only [follow, rightPows, List.mem_cons, forall_eq_or_imp] at hfo
    obtain ⟨⟨f1, f2⟩, f3, f4, f5⟩ := hfo
    rw [hy, List.append_assoc] at *
    refine hl.loop n fuel m _ hb1 hf hlo.2 ⟨by simpa using hk, by simpa using hop.1,
      by simpa using hop.2.1, fun _ => by simpa using ⟨hop.2.2.1, hop.2.2.2.1, hop.2.2.2.2.1, hop.2.2.2.2.2.1⟩⟩
      ev cur st Q ?_
    intro p k bf af ev' f' ht hlt
    obtain ⟨f'', rfl⟩ : ∃ f'', f' = f'' + 1 := ⟨f' - 1, by omega⟩
    simp only [List.cons_append, exprBpLoop, wpF_bind, wpF_current, wpF_ite, lookahead_cons,
      wpF_bumpAny, wpF_precede_tok]
    refine ⟨fun h => ?_, fun _ => ⟨hop.2.2.2.2.2.2.2, ?_⟩⟩
    · have := hlo.1; simp only [ibp] at this; omega
    · refine (hr.run n (ibp op).2 rest (by simp at hb1 ⊢; omega)
        (fun q hq => infix_le_conv q op hb (h2 q hq)) ⟨f2, f3, f4, ?_⟩ f1).use ?_
      · simpa [endsCallable, endsInExpr, endsCallableL] using f5
      · intro _ i1 e1 hi1
        simp only [wpF_complete]
        refine ⟨by simp, ?_⟩
        refine hq _ _ _ _ _ f'' ?_ (by simp at hlt; omega)
        simp [toTree, toTreeL, hi1, ← ht]
  · intro h; exact absurd rfl h.1

/-- levels to binding powers on the right edge -/
theorem rightLevels_pows {l} (h : D .expr [l]) (op : SyntaxKind)
    (h1 : ∀ p ∈ rightLevels l, level op < p ∨ (level op = p ∧ rightAssoc op = false)) :
    ∀ p ∈ rightPows l, (ibp op).1 < p := by
  have key : ∀ nt ts, D nt ts → nt = .expr → ∀ l, ts = [l] →
      (∀ p ∈ rightLevels l, level op < p ∨ (level op = p ∧ rightAssoc op = false)) →
      ∀ p ∈ rightPows l, (ibp op).1 < p := by
    intro nt ts hd
    induction hd with
    | «prefix» op' e hop _ _ ih =>
      rintro - l ⟨rfl⟩ h1
      simp only [rightPows, rightLevels, List.mem_cons, forall_eq_or_imp] at h1 ⊢
      refine ⟨?_, ih rfl _ rfl h1.2⟩
      rcases h1.1 with h | ⟨h, h'⟩
      · exact prefix_lt_conv op op' hop h
      · exfalso; revert h; cases op <;> decide
    | «infix» op' l r hb _ _ _ _ ihl ihr =>
      rintro - l ⟨rfl⟩ h1
      simp only [rightPows, rightLevels, List.mem_cons, forall_eq_or_imp] at h1 ⊢
      exact ⟨infix_lt_conv op op' hb h1.1, ihr rfl _ rfl h1.2⟩
    | _ =>
      intro hnt
      first
        | (simp at hnt; done)
        | (rintro l ⟨rfl⟩ -; simp [rightPows])
  exact key _ _ h rfl l rfl h1

end Verif
