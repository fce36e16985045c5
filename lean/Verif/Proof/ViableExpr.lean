import Verif.Proof.Viable

/-
What the parser has read before its first error can be completed: expressions.
-/
set_option linter.unusedSimpArgs false
set_option linter.unusedVariables false
namespace Verif
open Item PTree Lua
open P Grammar

/-- one expression, with operators on its left edge that bind at least as `m` -/
def ExprV (m : Nat) (ts : List PTree) : Prop := ∃ t, ts = [t] ∧ D .expr [t] ∧ ∀ q ∈ leftOps t, m ≤ (ibp q).1

/-- one expression -/
def ExprX (ts : List PTree) : Prop := ∃ t, ts = [t] ∧ D .expr [t]

/-- one block -/
def BlockC (ts : List PTree) : Prop := ∃ t, ts = [t] ∧ D .block [t]

theorem ExprV.c {m ts} (h : ExprV m ts) : ExprX ts := by
  obtain ⟨t, h1, h2, -⟩ := h
  exact ⟨t, h1, h2⟩

/-- an expression that is always there -/
abbrev nilT : PTree := .node .literal [.tok .nilKw]
/-- a block that is always there -/
abbrev emptyT : PTree := .node .block []
theorem nil_d : D .expr [nilT] := Deriv.literal _ (by simp [literalKinds])
theorem empty_d : D .block [emptyT] := Deriv.block _ .stmtsNil
theorem nil_v (m) : ExprV m [nilT] := ⟨_, rfl, nil_d, by simp [leftOps]⟩

/-- result of `expr_bp` -/
structure VE (m : Nat) (toks : List SyntaxKind) (items : List Item) : Prop where
  v : U (ExprV m) toks items
  first : la toks ∈ exprFirst → pre items ≠ []

theorem VE.c {m toks items} (h : VE m toks items) : U ExprX toks items := h.v.mono fun _ h => h.c

/-- the recursive functions do so -/
structure RecV (r : Rec) (b : Nat) : Prop where
  ok : RecOK r b
  expr : ∀ toks m, NE toks → 0 < m → 2 * toks.length + 1 ≤ b →
    Spec (r.exprBp m) toks fun a items _ => VE m toks items
  block : ∀ toks, NE toks → 2 * toks.length + 2 ≤ b → Spec r.block toks fun _ items _ => U BlockC toks items

theorem pre_ne_of_progress {toks toks' items} (hc : clean items) (y : toks = yld items ++ toks')
    (h : toks'.length < toks.length) : pre items ≠ [] := by
  rw [pre_of_clean hc]
  intro e
  rw [e] at y
  simp at y
  subst y
  omega

theorem single_v {r b} (hr : RecV r b) (toks) (hne : NE toks) (hb : 2 * toks.length + 1 ≤ b) :
    Spec (exprSingle r) toks fun a items toks' => PE 1 toks a items toks' ∧ VE 1 toks items :=
  (expr_single_spec hr.ok toks hne hb).both (hr.expr toks 1 hne (by omega) hb)

theorem block_v {r b} (hr : RecV r b) (toks) (hne : NE toks) (hb : 2 * toks.length + 2 ≤ b) :
    Spec r.block toks fun _ items toks' => PB toks items toks' ∧ U BlockC toks items :=
  (hr.ok.block toks hne hb).both (hr.block toks hne hb)

theorem exprMultiLoop_v {r b} (hr : RecV r b) : ∀ n toks, NE toks → toks.length < n →
    2 * toks.length ≤ b →
    Spec (exprMultiLoop r n) toks fun _ items toks' => U (D .exprTail) toks items := by
  intro n
  induction n with
  | zero => intro toks _ h; omega
  | succ n ih =>
    intro toks hne hlen hb ev cur st
    simp only [exprMultiLoop, wpF_bind, wpF_atK, wpF_ite, wpF_pure]
    refine ⟨fun h => ?_, fun h => ?_⟩
    · obtain ⟨ts, rfl⟩ := lookahead_eq (by simpa using h) (by simp)
      simp at hne hlen hb
      simp
      refine (single_v hr ts hne (by omega)).use ?_
      rintro _ i1 t1 e1 y1 ne1 l1 ⟨p1, v1⟩
      refine (ih t1 (ne1 hne) (by omega) (by omega)).use ?_
      rintro _ i2 t2 e2 y2 ne2 l2 v2
      refine Spec.done (.tok .comma :: (i1 ++ i2)) (by simp) (by simp [y1, y2]) ?_
      refine .tok (.app y1 (v1.c.mono ?_) fun hc => v2.mono ?_)
      · rintro _ ⟨t, rfl, d⟩
        exact ⟨[], Deriv.tailCons _ _ d .tailNil⟩
      · intro ts d
        obtain ⟨t, h1, h2⟩ := p1.gp.2 hc
        rw [h1]
        exact Deriv.tailCons _ _ h2 d
    · exact Spec.done [] rfl (by simp) (.ok (by simp))

/-- one expression list -/
def MultiC (ts : List PTree) : Prop := ∃ m, ts = [m] ∧ D .multival [m]

theorem expr_v {r b} (hr : RecV r b) (fuel toks) (hne : NE toks) (hf : toks.length < fuel)
    (hb : 2 * toks.length + 1 ≤ b) :
    Spec (expr r fuel) toks fun a items toks' => (NP .multivalExpr (MultivalR toks') a items ∧
      (la toks ∈ exprFirst → toks'.length < toks.length)) ∧ U MultiC toks items ∧
      (la toks ∈ exprFirst → pre items ≠ []) := by
  refine (expr_spec hr.ok fuel toks hne hf hb).both ?_
  intro ev cur st
  simp only [expr, wpF_bind, wpF_start]
  refine (single_v hr toks hne hb).use ?_
  rintro _ i1 t1 e1 y1 ne1 l1 ⟨p1, v1⟩
  refine (exprMultiLoop_v hr fuel t1 (ne1 hne) (by omega) (by omega)).use ?_
  rintro _ i2 t2 e2 y2 ne2 l2 v2
  simp
  refine Spec.done [.node ev .multivalExpr [] (i1 ++ i2)] (by simp) (by simp [y1, y2]) ⟨?_, ?_⟩
  · refine .node0 (.app y1 (v1.c.mono ?_) fun hc => v2.mono ?_)
    · rintro _ ⟨t, rfl, d⟩
      exact ⟨[], _, rfl, Deriv.multival _ _ d .tailNil⟩
    · intro ts d
      obtain ⟨t, h1, h2⟩ := p1.gp.2 hc
      rw [h1]
      exact ⟨_, rfl, Deriv.multival _ _ h2 d⟩
  · intro h
    simpa using pre_ne_append i2 (v1.first h)

theorem index_v {r b} (hr : RecV r b) (toks) (hne : NE toks) (hb : 2 * toks.length ≤ b)
    (hat : la toks = .lBracket) :
    Spec (index r) toks fun a items toks' => (NP .index (D .index) a items ∧
      toks'.length < toks.length) ∧ U (fun ts => ∃ i, ts = [i] ∧ D .index [i]) toks items := by
  refine (index_spec hr.ok toks hne hb hat).both ?_
  obtain ⟨ts, rfl⟩ := lookahead_eq hat (by simp)
  intro ev cur st
  simp at hne hb
  simp only [index, wpF_bind, wpF_start, wpF_bump]
  refine ⟨by simp, ?_⟩
  refine (single_v hr ts hne (by omega)).use ?_
  rintro _ i1 t1 e1 y1 ne1 l1 ⟨p1, v1⟩
  refine (expect_v (by simp) t1).use ?_
  rintro _ i2 t2 e2 y2 ne2 l2 ⟨c2, -, v2⟩
  simp
  refine Spec.done [.node ev .index [] (.tok .lBracket :: (i1 ++ i2))] (by simp) (by simp [y1, y2])
    (.node0 (.tok (.app y1 (v1.c.mono ?_) fun hc => v2.mono ?_)))
  · rintro _ ⟨t, rfl, d⟩
    exact ⟨[.tok .rBracket], _, rfl, Deriv.index _ d⟩
  · rintro _ rfl
    obtain ⟨t, h1, h2⟩ := p1.gp.2 hc
    rw [h1]
    exact ⟨_, rfl, Deriv.index _ h2⟩

theorem tableContent_v {r b} (hr : RecV r b) (toks) (hne : NE toks)
    (hb : 2 * toks.length + 1 ≤ b) :
    Spec (tableContent r) toks fun a items toks' => U (fun ts => ∃ c, ts = [c] ∧ D .tableContent [c]) toks items := by
  intro ev cur st
  simp only [tableContent, wpF_bind, wpF_start, wpF_current, wpF_ite]
  have pos : ∀ {i1 : List Item} {p q : Nat}, U ExprX toks i1 → U (fun ts => ∃ c, ts = [c] ∧ D .tableContent [c]) toks
      [.node p .tableContent [] [.node q .positionalValue [] i1]] := by
    intro i1 p q v
    refine .node0 (.node0 (v.mono ?_))
    rintro _ ⟨t, rfl, d⟩
    exact ⟨_, rfl, Deriv.positional _ d⟩
  refine ⟨fun h => ?_, fun h => ⟨fun h2 => ?_, fun h2 => ?_⟩⟩
  · obtain ⟨ts, rfl⟩ := lookahead_eq (by simpa using h) (by simp)
    simp only [wpF_nth, wpF_bind, wpF_start, lookahead_cons1, nameUnchecked, wpF_bump, wpF_complete]
    refine ⟨fun h3 => ?_, fun h3 => ?_⟩
    · obtain ⟨ts, rfl⟩ := lookahead_eq (by simpa using h3) (by simp)
      simp only [wpF_bump, wpF_bind]
      simp at hne hb ⊢
      refine (single_v hr ts hne (by omega)).use ?_
      rintro _ i1 t1 e1 y1 ne1 l1 ⟨p1, v1⟩
      simp
      refine Spec.done [.node ev .tableContent [] [.node (ev+1) .keyValue []
        (.node (ev+2) .tableKey [] [.node (ev+3) .name [] [.tok .ident]] :: .tok .eq :: i1)]]
        (by simp) (by simp [y1]) (.node0 (.node0 ?_))
      refine U.app (i1 := [.node (ev+2) .tableKey [] [.node (ev+3) .name [] [.tok .ident]]])
        (T1 := .eq :: ts) (by simp) (.ok (by simp)) fun _ => .tok (v1.c.mono ?_)
      rintro _ ⟨t, rfl, d⟩
      exact ⟨_, rfl, Deriv.namedField _ d⟩
    · refine (single_v hr _ hne hb).use ?_
      rintro _ i1 t1 e1 y1 ne1 l1 ⟨p1, v1⟩
      simp
      exact Spec.done [.node ev .tableContent [] [.node (ev+1) .positionalValue [] i1]]
        (by simp) (by simp [y1]) (pos v1.c)
  · refine (index_v hr toks hne (by omega) (by simpa using h2)).use ?_
    rintro a1 i1 t1 e1 y1 ne1 l1 ⟨⟨⟨bf, af, rfl, g1, c1⟩, l1⟩, v1⟩
    simp only [wpF_complete]
    refine ⟨by simp, ?_⟩
    refine (expect_v (by simp) t1).use ?_
    rintro _ i2 t2 e2 y2 ne2 l2 ⟨c2, -, v2⟩
    refine (single_v hr t2 (ne2 (ne1 hne)) (by omega)).use ?_
    rintro _ i3 t3 e3 y3 ne3 l3 ⟨p3, v3⟩
    simp
    refine Spec.done [.node ev .tableContent [] [.node (ev+1) .keyValue []
        (.node (ev+2) .tableKey [] [.node a1 .index bf af] :: (i2 ++ i3))]]
        (by first | rfl | simp) (by simp [y1, y2, y3]) (.node0 (.node0 ?_))
    refine U.app (i1 := [.node (ev+2) .tableKey [] [.node a1 .index bf af]]) (by simpa using y1) (.node0 (v1.mono ?_))
      fun hc1 => .app y2 (v2.mono ?_) fun hc2 => v3.c.mono ?_
    · rintro _ ⟨i, rfl, d⟩
      exact ⟨[.tok .eq, nilT], _, rfl, Deriv.indexedField _ _ d nil_d⟩
    · rintro _ rfl
      have d1 := c1 (by simpa using hc1)
      exact ⟨[nilT], _, rfl, by simpa [toTreeL, toTree] using Deriv.indexedField _ _ d1 nil_d⟩
    · rintro _ ⟨t, rfl, d⟩
      have d1 := c1 (by simpa using hc1)
      refine ⟨_, rfl, ?_⟩
      rw [c2 hc2]
      simpa [toTreeL, toTree] using Deriv.indexedField _ _ d1 d
  · simp only [wpF_bind, wpF_atTs, wpF_ite, wpF_start, contains_EXPR_FIRST]
    refine ⟨fun h3 => ?_, fun h3 => ?_⟩
    · refine (single_v hr _ hne hb).use ?_
      rintro _ i1 t1 e1 y1 ne1 l1 ⟨p1, v1⟩
      simp
      exact Spec.done [.node ev .tableContent [] [.node (ev+1) .positionalValue [] i1]]
        (by simp) (by simp [y1]) (pos v1.c)
    · simp
      exact Spec.done [.node ev .tableContent [] [.err (.message "Expected an expression")]]
        (by simp) (by simp) (.bad (by simp) _ ⟨_, rfl, Deriv.positional _ nil_d⟩)

theorem tableInnerLoop_v (fuel0) : ∀ n toks, NE toks → toks.length < n → toks.length < fuel0 →
    Spec (tableInnerLoop fuel0 n) toks fun _ items toks' => ¬ clean items → pre items = [] := by
  intro n
  induction n with
  | zero => intro toks _ h; omega
  | succ n ih =>
    intro toks hne hlen hf ev cur st
    simp only [tableInnerLoop, wpF_bind, wpF_atTs, wpF_ite, wpF_pure, TABLE_END, TABLE_SEP,
      TABLE_RECOVERY, TokenSet.contains_new, TokenSet.contains_union]
    refine ⟨fun h => ⟨fun h2 => ?_, fun h2 => ⟨fun h3 => ?_, fun h3 => ?_⟩⟩, fun h => ?_⟩
    · have h2' : la toks = .comma ∨ la toks = .semicolon := by simpa using h2
      obtain ⟨k, ts, rfl, hk⟩ : ∃ k ts, toks = k :: ts ∧ (k = .comma ∨ k = .semicolon) := by
        rcases h2' with h | h <;> obtain ⟨ts, rfl⟩ := lookahead_eq h (by simp)
        · exact ⟨_, _, rfl, by simp⟩
        · exact ⟨_, _, rfl, by simp⟩
      have hk' : k ≠ .eof := by rintro rfl; simp at hk
      simp [tableSep, bumpTs, TABLE_SEP, TokenSet.contains_new, hk, hk']
      exact Spec.done [.node ev .tableSep [] [.tok k]] rfl (by simp) (by simp)
    · exact Spec.done [] rfl (by simp) (by simp)
    · refine ((errUntil_spec fuel0 _ TABLE_RECOVERY toks hne hf).both
        (errUntil_pre fuel0 _ TABLE_RECOVERY toks hne hf)).use ?_
      rintro _ i1 t1 e1 y1 ne1 l1 ⟨⟨g1, c1, p1, -⟩, hp1⟩
      have hlt : t1.length < toks.length := by
        apply p1
        · simp only [TABLE_RECOVERY, TABLE_SEP, TokenSet.contains_new, TokenSet.contains_union]
          simpa using h3
        · simp at h; grind
        · simp at h; grind
      refine (ih t1 (ne1 hne) (by omega) (by omega)).use ?_
      rintro _ i2 t2 e2 y2 ne2 l2 -
      exact Spec.done (i1 ++ i2) (by simp) (by simp [y1, y2]) (fun _ => by rw [pre_dirty _ c1, hp1])
    · exact Spec.done [] rfl (by simp) (by simp)

theorem tableLoop_v {r b} (hr : RecV r b) (fuel0) : ∀ n toks, NE toks → toks.length < n →
    toks.length < fuel0 → 2 * toks.length + 1 ≤ b →
    Spec (tableLoop r fuel0 n) toks fun _ items toks' => U (D .tableItems) toks items := by
  intro n
  induction n with
  | zero => intro toks _ h; omega
  | succ n ih =>
    intro toks hne hlen hf hb ev cur st
    simp only [tableLoop, wpF_bind, wpF_atTs, wpF_ite, wpF_pure, TABLE_END, TokenSet.contains_new]
    refine ⟨fun h => ?_, fun h => ?_⟩
    · refine ((tableContent_spec hr.ok toks hne hb).both (tableContent_v hr toks hne hb)).use ?_
      rintro _ i1 t1 e1 y1 ne1 l1 ⟨⟨⟨bf, af, hi1, g1, c1⟩, f1, p1⟩, v1⟩
      refine ((tableInnerLoop_spec fuel0 fuel0 t1 (ne1 hne) (by omega) (by omega)).both
        (tableInnerLoop_v fuel0 fuel0 t1 (ne1 hne) (by omega) (by omega))).use ?_
      rintro _ i2 t2 e2 y2 ne2 l2 ⟨⟨⟨g2, c2⟩, p2⟩, v2⟩
      have hlt : t2.length < toks.length := by
        rcases p1 with p1 | ⟨rfl, p1⟩
        · omega
        · refine p2 ?_
          simp at h p1 ⊢; grind
      refine ((tableLoop_spec hr.ok fuel0 n t2 (ne2 (ne1 hne)) (by omega) (by omega) (by omega)).both
        (ih t2 (ne2 (ne1 hne)) (by omega) (by omega) (by omega))).use ?_
      rintro _ i3 t3 e3 y3 ne3 l3 ⟨⟨-, n3⟩, v3⟩
      refine Spec.done (i1 ++ (i2 ++ i3)) (by simp) (by simp [y1, y2, y3])
        (.app y1 (v1.mono ?_) fun hc1 => .app y2 ?_ fun hc2 => ?_)
      · rintro _ ⟨c, rfl, d⟩
        exact ⟨[], Deriv.itemsLast _ d⟩
      · intro hc
        refine Vi.bad (v2 hc) [] ⟨[], ?_⟩
        have d1 := c1 hc1
        rw [hi1] at d1 ⊢
        simpa [toTreeL] using Deriv.itemsLast _ (by simpa [toTreeL] using d1)
      · have d1 := c1 hc1
        rw [hi1] at d1 ⊢
        rcases c2 hc2 with ⟨h1, rfl, h3⟩ | ⟨k, hk, h1⟩
        · have hn : i3 = [] := by
            rcases h3 with h3 | h3
            · exact n3 h3
            · exact absurd h3 (f1 hc1)
          exact .ok (by simp [hn])
        · rw [h1]
          refine v3.mono fun ts d => ?_
          simp [toTreeL] at d1 ⊢
          exact Deriv.itemsCons _ _ _ d1 hk d
    · exact Spec.done [] rfl (by simp) (.ok (by simp))

/-- one expression that is not an operator applied to something on its left -/
def AtomC (ts : List PTree) : Prop := ∃ t, ts = [t] ∧ D .expr [t] ∧ leftOps t = []

theorem tableExpr_v {r b} (hr : RecV r b) (fuel toks) (hne : NE toks) (hf : toks.length ≤ fuel)
    (hb : 2 * toks.length ≤ b) (hat : la toks = .lBrace) :
    Spec (tableExpr r fuel) toks fun a items toks' =>
      (NP .tableExpr (fun ts => ∃ tl, D .tableItems tl ∧
        ts = [.node .tableExpr (.tok .lBrace :: (tl ++ [.tok .rBrace]))]) a items ∧
      toks'.length < toks.length) ∧ U (fun ts => ∃ tl, D .tableItems tl ∧
        ts = [.node .tableExpr (.tok .lBrace :: (tl ++ [.tok .rBrace]))]) toks items ∧ pre items ≠ [] := by
  refine (tableExpr_spec hr.ok fuel toks hne hf hb hat).both ?_
  obtain ⟨ts, rfl⟩ := lookahead_eq hat (by simp)
  intro ev cur st
  simp at hne hb hf
  simp only [tableExpr, wpF_bind, wpF_start, wpF_bump]
  refine ⟨by simp, ?_⟩
  refine ((tableLoop_spec hr.ok fuel fuel ts hne (by omega) (by omega) (by omega)).both
    (tableLoop_v hr fuel fuel ts hne (by omega) (by omega) (by omega))).use ?_
  rintro _ i1 t1 e1 y1 ne1 l1 ⟨⟨⟨g1, c1⟩, -⟩, v1⟩
  refine (expect_v (by simp) t1).use ?_
  rintro _ i2 t2 e2 y2 ne2 l2 ⟨c2, -, v2⟩
  simp
  refine Spec.done [.node ev .tableExpr [] (.tok .lBrace :: (i1 ++ i2))] (by simp) (by simp [y1, y2])
    ⟨.node0 (.tok (.app y1 (v1.mono ?_) fun hc => v2.mono ?_)), by simp⟩
  · intro ts d
    exact ⟨[.tok .rBrace], ts, d, rfl⟩
  · rintro _ rfl
    exact ⟨_, c1 hc, rfl⟩

theorem functionExpr_v {r b} (hr : RecV r b) (fuel toks) (hne : NE toks)
    (hf : toks.length ≤ fuel) (hb : 2 * toks.length ≤ b) (hat : la toks = .functionKw) :
    Spec (functionExpr r fuel) toks fun a items toks' => U AtomC toks items ∧ pre items ≠ [] := by
  obtain ⟨ts, rfl⟩ := lookahead_eq hat (by simp)
  intro ev cur st
  simp at hne hb hf
  simp only [functionExpr, wpF_bind, wpF_start, wpF_bump]
  refine ⟨by simp, ?_⟩
  refine ((paramList_spec fuel ts hne (by omega)).both (paramList_v fuel ts hne (by omega))).use ?_
  rintro a1 i1 t1 e1 y1 ne1 l1 ⟨⟨bf1, af1, hi1, g1, c1⟩, v1⟩
  refine (block_v hr t1 (ne1 hne) (by omega)).use ?_
  rintro _ i2 t2 e2 y2 ne2 l2 ⟨p2, v2⟩
  refine (expect_v (by simp) t2).use ?_
  rintro _ i3 t3 e3 y3 ne3 l3 ⟨c3, -, v3⟩
  simp
  refine Spec.done [.node ev .functionExpr [] (.tok .functionKw :: (i1 ++ (i2 ++ i3)))] (by simp)
    (by simp [y1, y2, y3])
    ⟨.node0 (.tok (.app y1 (v1.mono ?_) fun hc1 => .app y2 (v2.mono ?_) fun hc2 => v3.mono ?_)), by simp⟩
  · rintro _ ⟨p, rfl, d⟩
    exact ⟨[emptyT, .tok .endKw], _, rfl, Deriv.function _ _ d empty_d, by simp [leftOps]⟩
  · rintro _ ⟨t, rfl, d⟩
    have d1 := c1 hc1
    rw [hi1] at d1 ⊢
    exact ⟨[.tok .endKw], _, rfl, Deriv.function _ _ (by simpa [toTreeL] using d1) d, by simp [leftOps]⟩
  · rintro _ rfl
    have d1 := c1 hc1
    obtain ⟨b', hb', d2⟩ := p2.good.2 hc2
    rw [hi1] at d1 ⊢
    rw [hb']
    exact ⟨_, rfl, Deriv.function _ _ (by simpa [toTreeL] using d1) d2, by simp [leftOps]⟩

theorem argList_v {r b} (hr : RecV r b) (fuel toks) (hne : NE toks) (hf : toks.length ≤ fuel)
    (hb : 2 * toks.length ≤ b) (hat : la toks = .lParen) :
    Spec (argList r fuel) toks fun a items toks' => U (fun ts => D .callArgs [.node .callArgs ts]) toks items := by
  obtain ⟨ts, rfl⟩ := lookahead_eq hat (by simp)
  intro ev cur st
  simp at hne hb hf
  simp only [argList, wpF_bind, wpF_start, wpF_bump, wpF_ite, wpF_atK]
  refine ⟨by simp, fun h => ?_, fun h => ?_⟩
  · refine (expr_v hr fuel ts hne (by omega) (by omega)).use ?_
    rintro a1 i1 t1 e1 y1 ne1 l1 ⟨⟨⟨bf1, af1, hi1, g1, c1⟩, -⟩, v1, -⟩
    refine (expect_v (by simp) t1).use ?_
    rintro _ i3 t3 e3 y3 ne3 l3 ⟨c3, -, v3⟩
    simp
    refine Spec.done [.node ev .argList [] (.tok .lParen :: (i1 ++ i3))] (by simp)
      (by simp [y1, y3]) (.node0 (.tok (.app y1 (v1.mono ?_) fun hc => v3.mono ?_)))
    · rintro _ ⟨m, rfl, d⟩
      exact ⟨[.tok .rParen], Deriv.args _ d⟩
    · rintro _ rfl
      obtain ⟨m, hm, dm, _⟩ := c1 hc
      rw [hm]
      exact Deriv.args _ dm
  · refine (expect_v (by simp) ts).use ?_
    rintro _ i3 t3 e3 y3 ne3 l3 ⟨c3, -, v3⟩
    simp
    refine Spec.done [.node ev .argList [] (.tok .lParen :: i3)] (by simp)
      (by simp [y3]) (.node0 (.tok (v3.mono ?_)))
    rintro _ rfl
    exact Deriv.argsEmpty

theorem callArgs_v {r b} (hr : RecV r b) (fuel toks) (hne : NE toks) (hf : toks.length ≤ fuel)
    (hb : 2 * toks.length ≤ b) (hat : la toks ∈ [SyntaxKind.lBrace, .lParen, .str]) :
    Spec (callArgs r fuel) toks fun a items toks' => (NP .callArgs (D .callArgs) a items ∧ toks'.length < toks.length) ∧
      U (fun ts => ∃ a, ts = [a] ∧ D .callArgs [a]) toks items := by
  refine (callArgs_spec hr.ok fuel toks hne hf hb hat).both ?_
  intro ev cur st
  simp only [callArgs, wpF_bind, wpF_start, wpF_ite, wpF_atTs, contains_CALL_FIRST, wpF_panic]
  refine ⟨by simp [hat], fun _ => ?_⟩
  simp only [wpF_bind, wpF_start, wpF_ite, wpF_current, wpF_panic]
  refine ⟨fun h => ?_, fun h => ⟨fun h2 => ?_, fun h2 => ⟨fun h3 => ?_, fun h3 => ?_⟩⟩⟩
  · refine (argList_v hr fuel toks hne hf hb (by simpa using h)).use ?_
    rintro a1 i1 t1 e1 y1 ne1 l1 v1
    simp
    exact Spec.done [.node ev .callArgs [] i1] (by simp) (by simp [y1])
      (.node0 (v1.mono fun ts d => ⟨_, rfl, d⟩))
  · refine (tableExpr_v hr fuel toks hne hf hb (by simpa using h2)).use ?_
    rintro a1 i1 t1 e1 y1 ne1 l1 ⟨-, v1, -⟩
    simp
    refine Spec.done [.node ev .callArgs [] i1] (by simp) (by simp [y1]) (.node0 (v1.mono ?_))
    rintro _ ⟨tl, d, rfl⟩
    exact ⟨_, rfl, Deriv.argsTable _ d⟩
  · obtain ⟨ts, rfl⟩ := lookahead_eq (by simpa using h3) (by simp)
    simp
    exact Spec.done [.node ev .callArgs [] [.tok .str]] (by simp) (by simp) (.ok (by simp))
  · simp at h h2 h3 hat; grind

/-! ### postfix operators -/

/-- wrapping: what was read can be completed to an expression, and something was read -/
def WV (T : List SyntaxKind) (i : Item) : Prop := U AtomC T [i] ∧ pre [i] ≠ []

theorem Vi.congr {S : List PTree → Prop} {T i i'} (h : Vi S T i) (e : pre i' = pre i) : Vi S T i' := by
  obtain ⟨ts, u, h1, h2⟩ := h
  exact ⟨ts, u, h1, by rwa [e]⟩

theorem WV.wrap {T toks : List SyntaxKind} {p k bf af q k' rest}
    (y : T = yld [.node p k bf af] ++ toks) (h0 : WV T (.node p k bf af))
    (h1 : clean [.node p k bf af] → U (fun ts => AtomC [.node k' (toTree (.node p k bf af) :: ts)]) toks rest) :
    WV T (.node q k' [.node p k bf af] rest) := by
  refine ⟨?_, ?_⟩
  · by_cases hc : clean [.node p k bf af]
    · refine .node (.app y (.ok hc) fun _ => (h1 hc).mono fun ts h => ?_)
      simpa [toTreeL] using h
    · exact fun _ => (h0.1 hc).congr (by rw [pre_node, pre_dirty _ hc])
  · rw [pre_node]
    exact pre_ne_append rest h0.2

theorem callExpr_v {r b} (hr : RecV r b) (fuel toks p k bf af) (hne : NE toks)
    (hf : toks.length ≤ fuel) (hb : 2 * toks.length ≤ b)
    (hat : la toks ∈ [SyntaxKind.lBrace, .lParen, .str])
    (hpf : clean [.node p k bf af] → PF true (toTree (.node p k bf af)))
    (hv : WV (yld [.node p k bf af] ++ toks) (.node p k bf af)) :
    SpecL (callExpr r fuel p) (.node p k bf af) toks fun i1 toks' => WV (yld [.node p k bf af] ++ toks) i1 := by
  intro ev cur st
  simp only [callExpr, wpF_bind, wpF_precede_head]
  refine (callArgs_v hr fuel toks hne hf hb hat).use ?_
  rintro a1 i1 t1 e1 y1 ne1 l1 ⟨-, v1⟩
  simp only [wpF_complete]
  refine ⟨by simp, _, _, _, _, _, rfl, by simp [y1], hv.wrap rfl fun hc => ?_⟩
  simp only [List.append_nil, List.reverse_reverse]
  refine v1.mono ?_
  rintro _ ⟨a, rfl, d⟩
  exact ⟨_, rfl, Deriv.call _ _ (hpf hc).1 (hpf hc).callable d, by simp [leftOps]⟩

theorem indexExpr_v {r b} (hr : RecV r b) (toks p k bf af cc) (hne : NE toks)
    (hb : 2 * toks.length ≤ b) (hat : la toks = .lBracket)
    (hpf : clean [.node p k bf af] → PF cc (toTree (.node p k bf af)))
    (hv : WV (yld [.node p k bf af] ++ toks) (.node p k bf af)) :
    SpecL (indexExpr r p) (.node p k bf af) toks fun i1 toks' => WV (yld [.node p k bf af] ++ toks) i1 := by
  intro ev cur st
  simp only [indexExpr, wpF_bind, wpF_precede_head]
  refine (index_v hr toks hne hb hat).use ?_
  rintro a1 i1 t1 e1 y1 ne1 l1 ⟨-, v1⟩
  simp only [wpF_complete]
  refine ⟨by simp, _, _, _, _, _, rfl, by simp [y1], hv.wrap rfl fun hc => ?_⟩
  simp only [List.append_nil, List.reverse_reverse]
  refine v1.mono ?_
  rintro _ ⟨a, rfl, d⟩
  exact ⟨_, rfl, Deriv.indexE _ _ (hpf hc).1 (hpf hc).indexable d, by simp [leftOps]⟩

theorem dotExpr_v (toks p k bf af cc) (hat : la toks = .dot)
    (hpf : clean [.node p k bf af] → PF cc (toTree (.node p k bf af)))
    (hv : WV (yld [.node p k bf af] ++ toks) (.node p k bf af)) :
    SpecL (dotExpr p) (.node p k bf af) toks fun i1 toks' => WV (yld [.node p k bf af] ++ toks) i1 := by
  obtain ⟨ts, rfl⟩ := lookahead_eq hat (by simp)
  intro ev cur st
  simp only [dotExpr, wpF_bind, wpF_precede_head, wpF_bump]
  refine ⟨by simp, ?_⟩
  refine (expect_v (by simp) ts).use ?_
  rintro _ i1 t1 e1 y1 ne1 l1 ⟨c1, -, v1⟩
  simp only [wpF_complete]
  refine ⟨by simp, _, _, _, _, _, rfl, by simp [y1], hv.wrap rfl fun hc => ?_⟩
  simp only [List.reverse_append, List.reverse_cons, List.reverse_nil, List.nil_append, List.reverse_reverse, List.singleton_append]
  refine .tok (v1.mono ?_)
  rintro _ rfl
  exact ⟨_, rfl, Deriv.dot _ (hpf hc).1 (hpf hc).indexable, by simp [leftOps]⟩

theorem methodCallExpr_v {r b} (hr : RecV r b) (fuel toks p k bf af) (hne : NE toks)
    (hf : toks.length ≤ fuel) (hb : 2 * toks.length ≤ b) (hat : la toks = .colon)
    (hpf : clean [.node p k bf af] → PF true (toTree (.node p k bf af)))
    (hv : WV (yld [.node p k bf af] ++ toks) (.node p k bf af)) :
    SpecL (methodCallExpr r fuel p) (.node p k bf af) toks fun i1 toks' => WV (yld [.node p k bf af] ++ toks) i1 := by
  obtain ⟨ts, rfl⟩ := lookahead_eq hat (by simp)
  intro ev cur st
  simp at hne hf hb
  simp only [methodCallExpr, wpF_bind, wpF_precede_head, wpF_bump]
  refine ⟨by simp, ?_⟩
  refine (nameRef_v ts).use ?_
  rintro a1 i1 t1 e1 y1 ne1 l1 ⟨c1, -, v1⟩
  simp only [wpF_ite, wpF_atTs, contains_CALL_FIRST, wpF_error, wpF_bind]
  have noArgs : ∀ hc : clean [.node p k bf af], AtomC [.node .methodCallExpr (toTree (.node p k bf af) :: .tok .colon ::
      ([nameRefT] ++ [.node .callArgs [.node .argList [.tok .lParen, .tok .rParen]]]))] := fun hc =>
    ⟨_, rfl, Deriv.method _ _ (hpf hc).1 (hpf hc).callable .argsEmpty, by simp [leftOps]⟩
  refine ⟨fun h => ?_, fun h => ?_⟩
  · refine (callArgs_v hr fuel t1 (ne1 hne) (by omega) (by omega) (by simpa using h)).use ?_
    rintro a2 i2 t2 e2 y2 ne2 l2 ⟨-, v2⟩
    simp only [wpF_complete]
    refine ⟨by simp, _, _, _, _, _, rfl, by simp [y1, y2], hv.wrap rfl fun hc => ?_⟩
    simp only [List.reverse_append, List.reverse_cons, List.reverse_nil, List.nil_append, List.reverse_reverse, List.singleton_append,
      List.append_assoc, List.cons_append]
    refine .tok (.app y1 (v1.mono ?_) fun hc1 => v2.mono ?_)
    · rintro _ rfl
      exact ⟨_, noArgs hc⟩
    · rintro _ ⟨a, rfl, d⟩
      rw [c1 hc1]
      exact ⟨_, rfl, Deriv.method _ _ (hpf hc).1 (hpf hc).callable d, by simp [leftOps]⟩
  · simp only [wpF_complete]
    refine ⟨by simp, _, _, _, _, _, rfl, by simp [y1], hv.wrap rfl fun hc => ?_⟩
    simp only [List.reverse_append, List.reverse_cons, List.reverse_nil, List.nil_append, List.reverse_reverse, List.singleton_append,
      List.append_assoc, List.cons_append]
    refine .tok (.app y1 (v1.mono ?_) fun hc1 => .bad (by simp) [.node .callArgs [.node .argList [.tok .lParen, .tok .rParen]]] ?_)
    · rintro _ rfl
      exact ⟨_, noArgs hc⟩
    · rw [c1 hc1]
      exact noArgs hc

theorem postfixExpr_v {r b} (hr : RecV r b) (fuel0) : ∀ n toks p k bf af cc, NE toks →
    toks.length < n → toks.length ≤ fuel0 → 2 * toks.length ≤ b →
    goodL [.node p k bf af] →
    (clean [.node p k bf af] → PF cc (toTree (.node p k bf af))) →
    WV (yld [.node p k bf af] ++ toks) (.node p k bf af) →
    SpecL (postfixExpr r fuel0 n p cc) (.node p k bf af) toks fun i1 toks' => WV (yld [.node p k bf af] ++ toks) i1 := by
  intro n
  induction n with
  | zero => intro toks p k bf af cc _ h; omega
  | succ n ih =>
    intro toks p k bf af cc hne hlen hf hb hg hpf hv ev cur st
    have hrec : ∀ k1 bf1 af1 a1 t1 e1, NE t1 → t1.length < toks.length →
        yld [.node p k bf af] ++ toks = yld [.node a1 k1 bf1 af1] ++ t1 →
        WR (.node p k bf af) (.node a1 k1 bf1 af1) → WV (yld [.node p k bf af] ++ toks) (.node a1 k1 bf1 af1) →
        wpF (postfixExpr r fuel0 n a1 true) ⟨t1, e1, .node a1 k1 bf1 af1 :: cur, st⟩ fun a s' =>
          ∃ k' bf' af' toks' ev', s' = ⟨toks', ev', .node a k' bf' af' :: cur, st⟩ ∧
          yld [.node p k bf af] ++ toks = yld [.node a k' bf' af'] ++ toks' ∧
          WV (yld [.node p k bf af] ++ toks) (.node a k' bf' af') := by
      intro k1 bf1 af1 a1 t1 e1 hne1 hl1 hy hw hv1
      refine wpF_mono (ih t1 a1 k1 bf1 af1 true hne1 (by omega) (by omega) (by omega) (hw.1 hg)
        (fun hc => (hw.2 hc).2) (by rw [← hy]; exact hv1) e1 cur st) ?_
      rintro a s ⟨k', bf', af', t', e', hs, hy', hv'⟩
      exact ⟨k', bf', af', t', e', hs, hy.trans hy', by rw [hy]; exact hv'⟩
    have ne' : ∀ t1 i1, yld [.node p k bf af] ++ toks = yld [i1] ++ t1 →
        goodL [i1] → t1.length ≤ toks.length → NE t1 := by
      intro t1 i1 hy _ hl
      have : t1 <:+ yld [.node p k bf af] ++ toks := ⟨_, hy.symm⟩
      have h2 : toks <:+ yld [.node p k bf af] ++ toks := ⟨_, rfl⟩
      have := List.suffix_of_suffix_length_le this h2 hl
      intro hm
      exact hne (this.subset hm)
    simp only [postfixExpr, wpF_bind, wpF_current, wpF_ite, wpF_atTs, contains_CALL_FIRST, wpF_pure]
    refine ⟨fun h => ?_, fun h => ⟨fun h2 => ?_, fun h2 => ⟨fun h3 => ?_, fun h3 => ⟨fun h4 => ?_, fun h4 => ?_⟩⟩⟩⟩
    · simp at h
      obtain ⟨rfl, h⟩ := h
      refine wpF_mono ((callExpr_spec hr.ok fuel0 toks p k bf af hne (by omega) hb (by simpa using h) hpf).both
        (callExpr_v hr fuel0 toks p k bf af hne (by omega) hb (by simpa using h) hpf hv) ev cur st) ?_
      rintro a s ⟨k', bf', af', t', e', rfl, hy', ⟨hw, hl⟩, hv'⟩
      exact hrec _ _ _ _ _ _ (ne' _ _ hy' (hw.1 hg) (by omega)) hl hy' hw hv'
    · simp at h2
      obtain ⟨h2, rfl⟩ := h2
      refine wpF_mono ((methodCallExpr_spec hr.ok fuel0 toks p k bf af hne (by omega) hb (by simpa using h2) hpf).both
        (methodCallExpr_v hr fuel0 toks p k bf af hne (by omega) hb (by simpa using h2) hpf hv) ev cur st) ?_
      rintro a s ⟨k', bf', af', t', e', rfl, hy', ⟨hw, hl⟩, hv'⟩
      exact hrec _ _ _ _ _ _ (ne' _ _ hy' (hw.1 hg) (by omega)) hl hy' hw hv'
    · refine wpF_mono ((indexExpr_spec hr.ok toks p k bf af cc hne hb (by simpa using h3) hpf).both
        (indexExpr_v hr toks p k bf af cc hne hb (by simpa using h3) hpf hv) ev cur st) ?_
      rintro a s ⟨k', bf', af', t', e', rfl, hy', ⟨hw, hl⟩, hv'⟩
      exact hrec _ _ _ _ _ _ (ne' _ _ hy' (hw.1 hg) (by omega)) hl hy' hw hv'
    · refine wpF_mono ((dotExpr_spec toks p k bf af cc (by simpa using h4) hpf).both
        (dotExpr_v toks p k bf af cc (by simpa using h4) hpf hv) ev cur st) ?_
      rintro a s ⟨k', bf', af', t', e', rfl, hy', ⟨hw, hl⟩, hv'⟩
      exact hrec _ _ _ _ _ _ (ne' _ _ hy' (hw.1 hg) (by omega)) hl hy' hw hv'
    · exact ⟨_, _, _, _, _, rfl, rfl, hv⟩

/-! ### operands and operators -/

theorem parenExpr_v {r b} (hr : RecV r b) (toks) (hne : NE toks) (hb : 2 * toks.length ≤ b)
    (hat : la toks = .lParen) :
    Spec (parenExpr r) toks fun a items toks' => U AtomC toks items ∧ pre items ≠ [] := by
  intro ev cur st
  simp only [parenExpr, wpF_bind, wpF_start]
  refine ((expect_spec (by simp) toks).both (expect_v (by simp) toks)).use ?_
  rintro _ i1 t1 e1 y1 ne1 l1 ⟨⟨g1, -, p1⟩, c1, q1, v1⟩
  have p1 := p1 hat
  have q1 := q1 hat
  subst q1
  refine (single_v hr t1 (ne1 hne) (by omega)).use ?_
  rintro _ i2 t2 e2 y2 ne2 l2 ⟨p2, v2⟩
  refine (expect_v (by simp) t2).use ?_
  rintro _ i3 t3 e3 y3 ne3 l3 ⟨c3, -, v3⟩
  simp
  have y1' : toks = .lParen :: t1 := by simpa using y1
  subst y1'
  refine Spec.done [.node ev .parenExpr [] (.tok .lParen :: (i2 ++ i3))] (by simp) (by simp [y2, y3])
    ⟨.node0 (.tok (.app y2 (v2.c.mono ?_) fun hc => v3.mono ?_)), by simp⟩
  · rintro _ ⟨t, rfl, d⟩
    exact ⟨[.tok .rParen], _, rfl, Deriv.paren _ d, by simp [leftOps]⟩
  · rintro _ rfl
    obtain ⟨t, h1, h2⟩ := p2.gp.2 hc
    rw [h1]
    exact ⟨_, rfl, Deriv.paren _ h2, by simp [leftOps]⟩

theorem atomExpr_v {r b} (hr : RecV r b) (fuel toks) (hne : NE toks) (hf : toks.length ≤ fuel)
    (hb : 2 * toks.length ≤ b) (hp : ¬ 0 < prefixBindingPower (la toks)) :
    Spec (atomExpr r fuel) toks fun a items toks' => U AtomC toks items ∧ (a ≠ none → pre items ≠ []) ∧
      (la toks ∈ exprFirst → pre items ≠ []) := by
  intro ev cur st
  simp only [atomExpr, wpF_bind, wpF_current, wpF_ite, wpF_atTs, contains_LITERAL_FIRST]
  refine ⟨fun h => absurd h hp, fun _ => ⟨fun h => ?_, fun h => ?_⟩⟩
  · refine (literal_spec toks (by simpa using h)).use ?_
    rintro a i1 t1 e1 y1 ne1 l1 ⟨p, rfl, ⟨bf, af, rfl, g, c⟩, hl⟩
    have hc : clean [.node p .literal bf af] := by
      rw [goodL_node] at g
      obtain ⟨l, -, e⟩ := g.1.1 rfl
      simp only [clean, toTreeL, toTree, errorsL, PTree.errors, e, List.append_nil]
    have hn := pre_ne_of_progress hc y1 hl
    simp
    exact Spec.done _ rfl y1 ⟨.ok hc, hn, fun _ => hn⟩
  · refine ⟨fun h2 => ?_, fun h2 => ⟨fun h3 => ?_, fun h3 => ⟨fun h4 => ?_, fun h4 => ⟨fun h5 => ?_, fun h5 => ?_⟩⟩⟩⟩
    · refine (functionExpr_v hr fuel toks hne hf hb (by simpa using h2)).use ?_
      rintro a i1 t1 e1 y1 ne1 l1 ⟨v, hn⟩
      simp
      exact Spec.done i1 rfl y1 ⟨v, hn, fun _ => hn⟩
    · refine (tableExpr_v hr fuel toks hne hf hb (by simpa using h3)).use ?_
      rintro a i1 t1 e1 y1 ne1 l1 ⟨-, v, hn⟩
      simp
      refine Spec.done i1 rfl y1 ⟨v.mono ?_, hn, fun _ => hn⟩
      rintro _ ⟨tl, d, rfl⟩
      exact ⟨_, rfl, Deriv.table _ d, by simp [leftOps]⟩
    · refine ((nameRef_spec toks).both (nameRef_v toks)).use ?_
      rintro a i1 t1 e1 y1 ne1 l1 ⟨⟨-, hl⟩, -, hc, -⟩
      have hc := hc (by simpa using h4)
      have hn := pre_ne_of_progress hc y1 (hl (by simpa using h4))
      simp
      exact Spec.done i1 rfl y1 ⟨.ok hc, hn, fun _ => hn⟩
    · refine (parenExpr_v hr toks hne hb (by simpa using h5)).use ?_
      rintro a i1 t1 e1 y1 ne1 l1 ⟨v, hn⟩
      simp
      exact Spec.done i1 rfl y1 ⟨v, hn, fun _ => hn⟩
    · refine (errRecover_pre _ _ toks hne).use ?_
      rintro a i1 t1 e1 y1 ne1 l1 hp1
      simp
      refine Spec.done i1 rfl y1 ⟨.bad hp1 _ ⟨nilT, rfl, nil_d, by simp [leftOps]⟩, ?_⟩
      intro hx
      rw [prefix_pos_iff] at hp
      simp [exprFirst] at hx
      simp [unaryOps] at hp
      simp at h h2 h3 h4 h5
      grind

theorem lhs_v {r b} (hr : RecV r b) (fuel toks) (hne : NE toks) (hf : toks.length ≤ fuel)
    (hb : 2 * toks.length ≤ b) :
    Spec (lhs r fuel) toks fun a items toks' => U AtomC toks items ∧ (a ≠ none → pre items ≠ []) ∧
      (la toks ∈ exprFirst → pre items ≠ []) := by
  intro ev cur st
  simp only [lhs, wpF_bind, wpF_current, wpF_ite, wpF_start]
  refine ⟨fun h => ?_, fun h => ?_⟩
  · have hop := (prefix_pos_iff _).1 h
    obtain ⟨op, ts, rfl⟩ : ∃ op ts, toks = op :: ts := by
      cases toks with
      | nil => simp [unaryOps] at hop
      | cons op ts => exact ⟨op, ts, rfl⟩
    simp at hne hf hb hop h
    simp only [wpF_bumpAny]
    refine ⟨hne.1, ?_⟩
    simp only [lookahead_cons]
    refine (hr.expr ts _ hne.2 h (by omega)).use ?_
    rintro _ i1 t1 e1 y1 ne1 l1 v1
    simp
    refine Spec.done [.node ev .prefixExpr [] (.tok op :: i1)] (by simp) (by simp [y1])
      ⟨.node0 (.tok (v1.v.mono ?_)), by simp, by simp⟩
    rintro _ ⟨t, rfl, d, hl⟩
    exact ⟨_, rfl, Deriv.prefix _ _ hop d (fun q hq => prefix_le q op hop (hl q hq)), by simp [leftOps]⟩
  · refine ((atomExpr_spec hr.ok fuel toks hne hf hb h).both (atomExpr_v hr fuel toks hne hf hb h)).use ?_
    rintro a i1 t1 e1 y1 ne1 l1 ⟨p1, v1, n1, f1⟩
    cases a with
    | none =>
      simp
      exact Spec.done i1 rfl y1 ⟨v1, f1⟩
    | some a =>
      obtain ⟨p, cc⟩ := a
      obtain ⟨⟨k, bf, af, rfl⟩, hl, hpf⟩ := p1.some p cc rfl
      simp
      refine wpF_mono (postfixExpr_v hr fuel fuel t1 p k bf af cc (ne1 hne) (by omega) (by omega)
        (by omega) p1.good ?_ ⟨by rw [← y1]; exact v1, n1 (by simp)⟩ _ _ _) ?_
      · intro hc
        obtain ⟨t, h1, h2⟩ := hpf hc
        simp [toTreeL] at h1
        rw [h1]; exact h2
      · rintro a s ⟨k', bf', af', t', e', rfl, hy', hv⟩
        rw [← y1] at hv
        have hn := hv.2
        exact Spec.done [.node a k' bf' af'] rfl (by rw [y1, ← hy']) ⟨hv.1, by simpa using hn, by simpa using fun _ => hn⟩

/-- the same for the operand collected so far in the Pratt loop -/
def WM (m : Nat) (T : List SyntaxKind) (i : Item) : Prop := U (ExprV m) T [i] ∧ pre [i] ≠ []

theorem exprBpLoop_v {r b} (hr : RecV r b) (m) (hm : 0 < m) : ∀ n toks p k bf af, NE toks →
    toks.length < n → 2 * toks.length ≤ b → LoopInv m (.node p k bf af) (la toks) →
    WM m (yld [.node p k bf af] ++ toks) (.node p k bf af) →
    SpecL (exprBpLoop r m n p) (.node p k bf af) toks fun i1 toks' => WM m (yld [.node p k bf af] ++ toks) i1 := by
  intro n
  induction n with
  | zero => intro toks p k bf af _ h; omega
  | succ n ih =>
    intro toks p k bf af hne hlen hb hinv hv ev cur st
    simp only [exprBpLoop, wpF_bind, wpF_current, wpF_ite, wpF_pure]
    refine ⟨fun h => ?_, fun h => ?_⟩
    · exact ⟨_, _, _, _, _, rfl, rfl, hv⟩
    · have hop : lookahead toks 0 ∈ infixOps := mem_infixOps_of_ibp1 (by
        simp only [ibp]; omega)
      obtain ⟨op, ts, rfl⟩ : ∃ op ts, toks = op :: ts := by
        cases toks with
        | nil => simp [infixOps] at hop
        | cons op ts => exact ⟨op, ts, rfl⟩
      simp at hne hlen hb hop h
      simp only [wpF_bumpAny]
      refine ⟨hne.1, ?_⟩
      simp only [wpF_precede_tok, lookahead_cons]
      refine ((hr.ok.expr ts _ hne.2 (ibp_pos_of_mem hop).2 (by omega)).both
        (hr.expr ts _ hne.2 (ibp_pos_of_mem hop).2 (by omega))).use ?_
      rintro _ i1 t1 e1 y1 ne1 l1 ⟨p1, v1⟩
      simp only [wpF_complete]
      refine ⟨by simp, ?_⟩
      have hbin := isBinary_of_mem hop
      have hinv' : LoopInv m (.node (ev + 1) .infixExpr [.node p k bf af, .tok op]
          (i1.reverse ++ []).reverse) (la t1) := by
        refine ⟨?_, ?_⟩
        · have := hinv.1
          rw [goodL_node]
          simp [p1.good, hne.1]
          simpa using this
        · intro hc
          simp at hc
          obtain ⟨t, h1, h2, h3, h4, h5⟩ := p1.expr hc.2
          obtain ⟨d1, d2, d3⟩ := hinv.2 (by simp [hc])
          have e : toTree (.node (ev + 1) .infixExpr [.node p k bf af, .tok op]
            (i1.reverse ++ []).reverse) =
            .node .infixExpr [toTree (.node p k bf af), .tok op, t] := by
            simp [toTree, toTreeL, h1]
          rw [e]
          refine ⟨?_, ?_, ?_⟩
          · exact Deriv.infix _ _ _ hbin d1 h2 (rightPows_levels op hbin _ (by simpa [la] using d3.1))
              (fun q hq => infix_le q op hbin (h3 q hq))
          · simp only [leftOps, List.mem_cons, forall_eq_or_imp]
            exact ⟨by simp only [ibp]; omega, d2⟩
          · refine ⟨?_, h4.2.1, h4.2.2.1, ?_⟩
            · simp only [rightPows, List.mem_cons, forall_eq_or_imp]
              exact ⟨h5, h4.1⟩
            · simpa [endsCallable, endsInExpr, endsCallableL] using h4.2.2.2
      have hv' : WM m (yld [.node p k bf af] ++ op :: ts) (.node (ev + 1) .infixExpr [.node p k bf af, .tok op]
          (i1.reverse ++ []).reverse) := by
        refine ⟨?_, ?_⟩
        · by_cases hc : clean [.node p k bf af]
          · refine .node (U.app (i1 := [.node p k bf af]) rfl (.ok hc) fun _ => .tok ?_)
            simp only [List.append_nil, List.reverse_reverse, List.nil_append]
            refine v1.v.mono ?_
            rintro _ ⟨t, rfl, d, hl⟩
            obtain ⟨d1, d2, d3⟩ := hinv.2 hc
            refine ⟨_, rfl, ?_, ?_⟩
            · exact Deriv.infix _ _ _ hbin d1 d (rightPows_levels op hbin _ (by simpa [la] using d3.1))
                (fun q hq => infix_le q op hbin (hl q hq))
            · simp only [toTreeL, List.cons_append, List.nil_append, leftOps, List.mem_cons, forall_eq_or_imp]
              exact ⟨by simp only [ibp]; omega, d2⟩
          · refine fun _ => (hv.1 hc).congr ?_
            rw [pre_node]
            exact pre_dirty (a := [.node p k bf af]) _ hc
        · rw [pre_node]
          exact pre_ne_append (a := [.node p k bf af]) _ hv.2
      have hy : yld [.node p k bf af] ++ op :: ts = yld [.node (ev + 1) .infixExpr [.node p k bf af, .tok op]
          (i1.reverse ++ []).reverse] ++ t1 := by simp [y1]
      refine wpF_mono (ih t1 _ _ _ _ (ne1 hne.2) (by omega) (by omega) hinv' (by rw [← hy]; exact hv') _ _ _) ?_
      rintro a s ⟨k', bf', af', t', e', rfl, hy', hi⟩
      refine ⟨_, _, _, _, _, rfl, ?_, by rw [hy]; exact hi⟩
      rw [← hy']
      simp [y1]

theorem exprBp_v {r b} (hr : RecV r b) (m) (hm : 0 < m) (fuel toks) (hne : NE toks)
    (hf : toks.length ≤ fuel) (hb : 2 * toks.length ≤ b) :
    Spec (exprBp r fuel m) toks fun a items _ => VE m toks items := by
  intro ev cur st
  simp only [exprBp, wpF_bind]
  refine ((lhs_spec hr.ok fuel toks hne hf hb).both (lhs_v hr fuel toks hne hf hb)).use ?_
  rintro a i1 t1 e1 y1 ne1 l1 ⟨p1, v1, n1, f1⟩
  have hv1 : U (ExprV m) toks i1 := by
    refine v1.mono ?_
    rintro _ ⟨t, rfl, d, h⟩
    exact ⟨t, rfl, d, by simp [h]⟩
  cases a with
  | none =>
    simp
    exact Spec.done i1 rfl y1 ⟨hv1, f1⟩
  | some p =>
    obtain ⟨⟨k, bf, af, rfl⟩, hl⟩ := p1.some p rfl
    simp
    refine wpF_mono (exprBpLoop_v hr m hm fuel t1 p k bf af (ne1 hne) (by omega) (by omega) ?_
      ⟨by rw [← y1]; exact hv1, n1 (by simp)⟩ _ _ _) ?_
    · refine ⟨p1.good, fun hc => ?_⟩
      obtain ⟨t, h1, h2, h3, h4⟩ := p1.expr hc
      simp [toTreeL] at h1
      rw [h1]
      exact ⟨h2, by simp [h3], h4⟩
    · rintro a s ⟨k', bf', af', t', e', rfl, hy', hi⟩
      rw [← y1] at hi
      exact Spec.done [.node a k' bf' af'] rfl (by rw [y1, ← hy']) ⟨hi.1, fun _ => hi.2⟩

end Verif
