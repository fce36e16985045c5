import Verif.Proof.ViableExpr

/-
What the parser has read before its first error can be completed: statements, blocks and files.
-/
set_option linter.unusedSimpArgs false
set_option linter.unusedVariables false
namespace Verif
open Item PTree Lua
open P Grammar

/-- one statement -/
def StmtX (ts : List PTree) : Prop := ∃ s, ts = [s] ∧ D .stmt [s]

theorem elseBranch_v {r b} (hr : RecV r b) (toks) (hne : NE toks)
    (hb : 2 * toks.length ≤ b) (hat : la toks = .elseKw) :
    Spec (elseBranch r) toks fun a items toks' => NP .elseBranch (D .elseOpt) a items ∧ U (D .elseOpt) toks items := by
  refine (elseBranch_spec hr.ok toks hne hb hat).both ?_
  obtain ⟨ts, rfl⟩ := lookahead_eq hat (by simp)
  intro ev cur st
  simp at hne hb
  simp only [elseBranch, wpF_bind, wpF_start, wpF_bump]
  refine ⟨by simp, ?_⟩
  refine (block_v hr ts hne (by omega)).use ?_
  rintro _ i2 t2 e2 y2 ne2 l2 ⟨p2, v2⟩
  simp
  refine Spec.done [.node ev .elseBranch [] (.tok .elseKw :: i2)] (by simp)
    (by simp [y2]) (.node0 (.tok (v2.mono ?_)))
  rintro _ ⟨b, rfl, d⟩
  exact Deriv.elseBranch _ d

/-- the part common to `if` and `elseif`: a condition, `then` and a block -/
theorem cond_v {k : SyntaxKind} {S : List PTree → Prop} {ts t1 t2 t3 i1 i2 i3 rest} {m a1 : _}
    (y1 : ts = yld i1 ++ t1) (y2 : t1 = yld i2 ++ t2) (y3 : t2 = yld i3 ++ t3)
    (p1 : PE m ts a1 i1 t1) (v1 : VE m ts i1) (c2 : clean i2 → toTreeL i2 = [.tok .thenKw]) (v2 : U (· = [.tok .thenKw]) t1 i2)
    (p3 : PB t2 i3 t3) (v3 : U BlockC t2 i3)
    (h0 : ∀ e b, D .expr [e] → D .block [b] → ∃ r, S (.tok k :: e :: .tok .thenKw :: b :: r))
    (h1 : ∀ e b, D .expr [e] → D .block [b] → U (fun ts => S (.tok k :: e :: .tok .thenKw :: b :: ts)) t3 rest) :
    U S (k :: ts) (.tok k :: (i1 ++ (i2 ++ (i3 ++ rest)))) := by
  refine .tok (.app y1 (v1.c.mono ?_) fun hc1 => .app y2 (v2.mono ?_) fun hc2 => .app y3 (v3.mono ?_) fun hc3 => ?_)
  · rintro _ ⟨t, rfl, d⟩
    obtain ⟨r, h⟩ := h0 _ _ d empty_d
    exact ⟨_, h⟩
  · rintro _ rfl
    obtain ⟨t, q1, q2⟩ := p1.gp.2 hc1
    obtain ⟨r, h⟩ := h0 _ _ q2 empty_d
    exact ⟨_, by simpa [q1] using h⟩
  · rintro _ ⟨b, rfl, d⟩
    obtain ⟨t, q1, q2⟩ := p1.gp.2 hc1
    obtain ⟨r, h⟩ := h0 _ _ q2 d
    exact ⟨_, by simpa [q1, c2 hc2] using h⟩
  · obtain ⟨t, q1, q2⟩ := p1.gp.2 hc1
    obtain ⟨b', q3, q4⟩ := p3.good.2 hc3
    refine (h1 _ _ q2 q4).mono fun ts h => ?_
    simpa [q1, c2 hc2, q3] using h

theorem elseifBranch_v {r b} (hr : RecV r b) : ∀ n toks, NE toks → toks.length ≤ n →
    2 * toks.length ≤ b → la toks = .elseifKw →
    Spec (elseifBranch r n) toks fun a items toks' => U (D .elseOpt) toks items := by
  intro n
  induction n with
  | zero => intro toks hne hlen hb hat; obtain ⟨ts, rfl⟩ := lookahead_eq hat (by simp); simp at hlen
  | succ n ih =>
    intro toks hne hlen hb hat
    obtain ⟨ts, rfl⟩ := lookahead_eq hat (by simp)
    intro ev cur st
    simp at hne hb hlen
    simp only [elseifBranch, wpF_bind, wpF_start, wpF_bump]
    refine ⟨by simp, ?_⟩
    refine (single_v hr ts hne (by omega)).use ?_
    rintro _ i1 t1 e1 y1 ne1 l1 ⟨p1, v1⟩
    refine (expect_v (by simp) t1).use ?_
    rintro _ i2 t2 e2 y2 ne2 l2 ⟨c2, -, v2⟩
    have hne2 := ne2 (ne1 hne)
    refine (block_v hr t2 hne2 (by omega)).use ?_
    rintro _ i3 t3 e3 y3 ne3 l3 ⟨p3, v3⟩
    have fin : ∀ i4 t4 e4, t3 = yld i4 ++ t4 → U (D .elseOpt) t3 i4 →
        wpF (complete ev .elseIfBranch) ⟨t4, e4, i4.reverse ++ (i3.reverse ++ (i2.reverse ++
          (i1.reverse ++ [Item.tok .elseifKw]))), ⟨ev, false, [], cur⟩ :: st⟩ fun a s' =>
        Post (.elseifKw :: ts) cur st
          (fun items toks' => U (D .elseOpt) (.elseifKw :: ts) items) s' := by
      intro i4 t4 e4 y4 v4
      simp
      refine Spec.done [.node ev .elseIfBranch [] (.tok .elseifKw :: (i1 ++ (i2 ++ (i3 ++ i4))))]
        (by simp) (by simp [y1, y2, y3, y4]) (.node0 (cond_v y1 y2 y3 p1 v1 c2 v2 p3 v3 ?_ ?_))
      · intro e b he hb
        exact ⟨[], Deriv.elseIf _ _ _ he hb .elseNone⟩
      · intro e b he hb
        exact v4.mono fun ts d => Deriv.elseIf _ _ _ he hb d
    simp only [wpF_bind, wpF_current, wpF_ite]
    refine ⟨fun h => ?_, fun h => ⟨fun h2 => ?_, fun h2 => ?_⟩⟩
    · refine (ih t3 (ne3 hne2) (by omega) (by omega) (by simpa using h)).use ?_
      rintro a4 i4 t4 e4 y4 ne4 l4 v4
      exact fin i4 t4 e4 y4 v4
    · refine (elseBranch_v hr t3 (ne3 hne2) (by omega) (by simpa using h2)).use ?_
      rintro a4 i4 t4 e4 y4 ne4 l4 ⟨-, v4⟩
      exact fin i4 t4 e4 y4 v4
    · exact fin [] t3 e3 (by simp) (.ok (by simp))

theorem ifStmt_v {r b} (hr : RecV r b) (fuel toks) (hne : NE toks)
    (hf : toks.length ≤ fuel) (hb : 2 * toks.length ≤ b) (hat : la toks = .ifKw) :
    Spec (ifStmt r fuel) toks fun _ items _ => U StmtX toks items := by
  obtain ⟨ts, rfl⟩ := lookahead_eq hat (by simp)
  intro ev cur st
  simp at hne hb hf
  simp only [ifStmt, wpF_bind, wpF_start, wpF_bump]
  refine ⟨by simp, ?_⟩
  refine (single_v hr ts hne (by omega)).use ?_
  rintro _ i1 t1 e1 y1 ne1 l1 ⟨p1, v1⟩
  refine (expect_v (by simp) t1).use ?_
  rintro _ i2 t2 e2 y2 ne2 l2 ⟨c2, -, v2⟩
  have hne2 := ne2 (ne1 hne)
  refine (block_v hr t2 hne2 (by omega)).use ?_
  rintro _ i3 t3 e3 y3 ne3 l3 ⟨p3, v3⟩
  have fin : ∀ i4 t4 e4, t3 = yld i4 ++ t4 → GP (D .elseOpt) i4 → U (D .elseOpt) t3 i4 →
      wpF (expect .endKw) ⟨t4, e4, i4.reverse ++ (i3.reverse ++ (i2.reverse ++
          (i1.reverse ++ [Item.tok .ifKw]))), ⟨ev, false, [], cur⟩ :: st⟩
      fun _ s' => wpF (complete ev .ifStmt) s' fun _ s' =>
        Post (.ifKw :: ts) cur st (fun items _ => U StmtX (.ifKw :: ts) items) s' := by
    intro i4 t4 e4 y4 ⟨g4, c4⟩ v4
    refine (expect_v (by simp) t4).use ?_
    rintro _ i5 t5 e5 y5 ne5 l5 ⟨c5, -, v5⟩
    simp
    refine Spec.done [.node ev .ifStmt [] (.tok .ifKw :: (i1 ++ (i2 ++ (i3 ++ (i4 ++ i5)))))]
      (by simp) (by simp [y1, y2, y3, y4, y5]) (.node0 (cond_v y1 y2 y3 p1 v1 c2 v2 p3 v3 ?_ ?_))
    · intro e b he hb
      exact ⟨[.tok .endKw], _, rfl, Deriv.ifStmt _ _ [] he hb .elseNone⟩
    · intro e b he hb
      refine .app y4 (v4.mono fun ts d => ⟨[.tok .endKw], _, rfl, Deriv.ifStmt _ _ _ he hb d⟩) fun hc4 => v5.mono ?_
      rintro _ rfl
      exact ⟨_, rfl, Deriv.ifStmt _ _ _ he hb (c4 hc4)⟩
  simp only [wpF_bind, wpF_current, wpF_ite]
  refine ⟨fun h => ?_, fun h => ⟨fun h2 => ?_, fun h2 => ?_⟩⟩
  · refine ((elseifBranch_spec hr.ok fuel t3 (ne3 hne2) (by omega) (by omega) (by simpa using h)).both
      (elseifBranch_v hr fuel t3 (ne3 hne2) (by omega) (by omega) (by simpa using h))).use ?_
    rintro a4 i4 t4 e4 y4 ne4 l4 ⟨⟨bf, af, hi4, g4⟩, v4⟩
    exact fin i4 t4 e4 y4 g4 v4
  · refine (elseBranch_v hr t3 (ne3 hne2) (by omega) (by simpa using h2)).use ?_
    rintro a4 i4 t4 e4 y4 ne4 l4 ⟨⟨bf, af, hi4, g4⟩, v4⟩
    exact fin i4 t4 e4 y4 g4 v4
  · exact fin [] t3 e3 (by simp) ⟨by simp, fun _ => by simpa [toTreeL] using Deriv.elseNone⟩ (.ok (by simp))

theorem gotoStmt_v (toks) (hne : NE toks) (hat : la toks = .gotoKw) :
    Spec gotoStmt toks fun _ items _ => U StmtX toks items := by
  obtain ⟨ts, rfl⟩ := lookahead_eq hat (by simp)
  intro ev cur st
  simp at hne
  simp only [gotoStmt, wpF_bind, wpF_start, wpF_bump]
  refine ⟨by simp, ?_⟩
  refine (nameRef_v ts).use ?_
  rintro _ i1 t1 e1 y1 ne1 l1 ⟨c1, -, v1⟩
  simp
  refine Spec.done [.node ev .gotoStmt [] (.tok .gotoKw :: i1)] (by simp) (by simp [y1])
    (.node0 (.tok (v1.mono ?_)))
  rintro _ rfl
  exact ⟨_, rfl, Deriv.goto⟩

theorem labelDelim_v (toks) (hne : NE toks) :
    Spec labelDelim toks fun _ items toks' => (clean items → toTreeL items = [.node .labelDelim [.tok .doubleColon]]) ∧
      U (· = [.node .labelDelim [.tok .doubleColon]]) toks items := by
  intro ev cur st
  simp only [labelDelim, wpF_bind, wpF_start]
  refine (expect_v (by simp) toks).use ?_
  rintro _ i1 t1 e1 y1 ne1 l1 ⟨c1, -, v1⟩
  simp
  refine Spec.done [.node ev .labelDelim [] i1] (by simp) (by simp [y1]) ⟨?_, .node0 (v1.mono ?_)⟩
  · intro hc
    simp [toTreeL, toTree, c1 (by simpa using hc)]
  · rintro _ rfl
    rfl

theorem labelStmt_v (toks) (hne : NE toks) (hat : la toks = .doubleColon) :
    Spec labelStmt toks fun _ items _ => U StmtX toks items := by
  intro ev cur st
  simp only [labelStmt, wpF_bind, wpF_start, wpF_atK, wpF_ite, wpF_panic]
  refine ⟨by simp [hat], fun _ => ?_⟩
  refine (labelDelim_v toks hne).use ?_
  rintro _ i1 t1 e1 y1 ne1 l1 ⟨c1, v1⟩
  refine (nameR_v _ t1 (ne1 hne)).use ?_
  rintro _ i2 t2 e2 y2 ne2 l2 ⟨c2, -, -, v2⟩
  refine (labelDelim_v t2 (ne2 (ne1 hne))).use ?_
  rintro _ i3 t3 e3 y3 ne3 l3 ⟨c3, v3⟩
  simp
  refine Spec.done [.node ev .labelStmt [] (i1 ++ (i2 ++ i3))] (by simp) (by simp [y1, y2, y3])
    (.node0 (.app y1 (v1.mono ?_) fun hc1 => .app y2 (v2.mono ?_) fun hc2 => v3.mono ?_))
  · rintro _ rfl
    exact ⟨[nameT, _], _, rfl, Deriv.label⟩
  · rintro _ rfl
    rw [c1 hc1]
    exact ⟨[_], _, rfl, Deriv.label⟩
  · rintro _ rfl
    rw [c1 hc1, c2 hc2]
    exact ⟨_, rfl, Deriv.label⟩

theorem whileStmt_v {r b} (hr : RecV r b) (toks) (hne : NE toks)
    (hb : 2 * toks.length ≤ b) (hat : la toks = .whileKw) :
    Spec (whileStmt r) toks fun _ items _ => U StmtX toks items := by
  obtain ⟨ts, rfl⟩ := lookahead_eq hat (by simp)
  intro ev cur st
  simp at hne hb
  simp only [whileStmt, wpF_bind, wpF_start, wpF_bump]
  refine ⟨by simp, ?_⟩
  refine (single_v hr ts hne (by omega)).use ?_
  rintro _ i1 t1 e1 y1 ne1 l1 ⟨p1, v1⟩
  refine (expect_v (by simp) t1).use ?_
  rintro _ i2 t2 e2 y2 ne2 l2 ⟨c2, -, v2⟩
  have hne2 := ne2 (ne1 hne)
  refine (block_v hr t2 hne2 (by omega)).use ?_
  rintro _ i3 t3 e3 y3 ne3 l3 ⟨p3, v3⟩
  refine (expect_v (by simp) t3).use ?_
  rintro _ i5 t5 e5 y5 ne5 l5 ⟨c5, -, v5⟩
  simp
  refine Spec.done [.node ev .whileStmt [] (.tok .whileKw :: (i1 ++ (i2 ++ (i3 ++ i5))))]
    (by simp) (by simp [y1, y2, y3, y5])
    (.node0 (.tok (.app y1 (v1.c.mono ?_) fun hc1 => .app y2 (v2.mono ?_) fun hc2 => .app y3 (v3.mono ?_) fun hc3 =>
      v5.mono ?_)))
  · rintro _ ⟨t, rfl, d⟩
    exact ⟨[.tok .doKw, emptyT, .tok .endKw], _, rfl, Deriv.while _ _ d empty_d⟩
  · rintro _ rfl
    obtain ⟨t, h1, h2⟩ := p1.gp.2 hc1
    rw [h1]
    exact ⟨[emptyT, .tok .endKw], _, rfl, Deriv.while _ _ h2 empty_d⟩
  · rintro _ ⟨b, rfl, d⟩
    obtain ⟨t, h1, h2⟩ := p1.gp.2 hc1
    rw [h1, c2 hc2]
    exact ⟨[.tok .endKw], _, rfl, Deriv.while _ _ h2 d⟩
  · rintro _ rfl
    obtain ⟨t, h1, h2⟩ := p1.gp.2 hc1
    obtain ⟨b', hb', d3⟩ := p3.good.2 hc3
    rw [h1, c2 hc2, hb']
    exact ⟨_, rfl, Deriv.while _ _ h2 d3⟩

/-- names without `...` -/
theorem multiNameR_plain {toks' ts} (h : MultiNameR false toks' ts) :
    ∃ tl, ts = [.node .multiName (nameT :: tl)] ∧ D .nameTail tl := by
  rcases h with ⟨h, _⟩ | ⟨tl, h3, h4 | ⟨h, _⟩⟩
  · simp at h
  · exact ⟨tl, h3, h4.1⟩
  · simp at h

theorem genericFor_v {r b} (hr : RecV r b) (fuel toks) (hne : NE toks) (hf : toks.length < fuel)
    (hb : 2 * toks.length + 1 ≤ b) (hat : la toks = .ident) :
    Spec (genericFor r fuel) toks fun _ items toks' =>
      U (fun ts => D .forContent [.node .forContent ts]) toks items := by
  intro ev cur st
  simp only [genericFor, wpF_bind, wpF_start, wpF_atK, wpF_ite, wpF_panic]
  refine ⟨by simp [hat], fun _ => ?_⟩
  refine ((multiNameR_spec fuel _ false toks hne hf).both (multiNameR_v fuel _ false toks hne hf)).use ?_
  rintro _ i1 t1 e1 y1 ne1 l1 ⟨⟨⟨g1, c1⟩, -⟩, v1⟩
  refine (expect_v (by simp) t1).use ?_
  rintro _ i2 t2 e2 y2 ne2 l2 ⟨c2, -, v2⟩
  refine (single_v hr t2 (ne2 (ne1 hne)) (by omega)).use ?_
  rintro _ i3 t3 e3 y3 ne3 l3 ⟨p3, v3⟩
  simp
  refine Spec.done [.node ev .genericFor [] (i1 ++ (i2 ++ i3))] (by simp) (by simp [y1, y2, y3])
    (.node0 (.app y1 (v1.mono ?_) fun hc1 => .app y2 (v2.mono ?_) fun hc2 => v3.c.mono ?_))
  · rintro _ ⟨tl, rfl, d⟩
    exact ⟨[.tok .inKw, nilT], Deriv.genericFor _ _ d nil_d⟩
  · rintro _ rfl
    obtain ⟨tl, h1, h2⟩ := multiNameR_plain (c1 hc1)
    rw [h1]
    exact ⟨[nilT], Deriv.genericFor _ _ h2 nil_d⟩
  · rintro _ ⟨t, rfl, d⟩
    obtain ⟨tl, h1, h2⟩ := multiNameR_plain (c1 hc1)
    rw [h1, c2 hc2]
    exact Deriv.genericFor _ _ h2 d

theorem numericFor_v {r b} (hr : RecV r b) (fuel toks) (hne : NE toks) (hf : toks.length < fuel)
    (hb : 2 * toks.length ≤ b) (hat : la toks = .ident) (hat1 : lookahead toks 1 = .eq) :
    Spec (numericFor r fuel) toks fun _ items toks' =>
      U (fun ts => D .forContent [.node .forContent ts]) toks items := by
  obtain ⟨ts, rfl⟩ := lookahead_eq hat (by simp)
  obtain ⟨ts, rfl⟩ := lookahead_eq (toks := ts) (by simpa using hat1) (by simp)
  intro ev cur st
  simp at hne hf hb
  simp [numericFor, name]
  refine (expr_v hr fuel ts hne (by omega) (by omega)).use ?_
  rintro _ i1 t1 e1 y1 ne1 l1 ⟨-, v1, -⟩
  simp
  refine Spec.done [.node ev .numericFor [] (.node (ev+1) .name [] [.tok .ident] :: .tok .eq :: i1)]
    (by simp) (by simp [y1]) (.node0 ?_)
  refine U.app (i1 := [.node (ev+1) .name [] [.tok .ident]]) (T1 := .eq :: ts) (by simp) (.ok (by simp))
    fun _ => .tok (v1.mono ?_)
  rintro _ ⟨m, rfl, d⟩
  exact Deriv.numericFor _ d

theorem forContent_v {r b} (hr : RecV r b) (fuel toks) (hne : NE toks) (hf : toks.length < fuel)
    (hb : 2 * toks.length + 1 ≤ b) :
    Spec (forContent r fuel) toks fun _ items toks' => U (fun ts => ∃ c, ts = [c] ∧ D .forContent [c]) toks items := by
  intro ev cur st
  simp only [forContent, wpF_bind, wpF_start, wpF_atK, wpF_ite, wpF_nth, wpF_error]
  refine ⟨fun h => ⟨fun h2 => ?_, fun h2 => ?_⟩, fun h => ?_⟩
  · refine (numericFor_v hr fuel toks hne hf (by omega) (by simpa using h) (by simpa using h2)).use ?_
    rintro _ i1 t1 e1 y1 ne1 l1 v1
    simp
    exact Spec.done [.node ev .forContent [] i1] (by simp) (by simp [y1]) (.node0 (v1.mono fun ts d => ⟨_, rfl, d⟩))
  · refine (genericFor_v hr fuel toks hne hf hb (by simpa using h)).use ?_
    rintro _ i1 t1 e1 y1 ne1 l1 v1
    simp
    exact Spec.done [.node ev .forContent [] i1] (by simp) (by simp [y1]) (.node0 (v1.mono fun ts d => ⟨_, rfl, d⟩))
  · simp
    exact Spec.done [.node ev .forContent [] [.err _]] rfl (by simp)
      (.bad (by simp) _ ⟨_, rfl, Deriv.genericFor _ _ .nameTailNil nil_d⟩)

theorem forStmt_v {r b} (hr : RecV r b) (fuel toks) (hne : NE toks)
    (hf : toks.length ≤ fuel) (hb : 2 * toks.length ≤ b) (hat : la toks = .forKw) :
    Spec (forStmt r fuel) toks fun _ items _ => U StmtX toks items := by
  obtain ⟨ts, rfl⟩ := lookahead_eq hat (by simp)
  intro ev cur st
  simp at hne hb hf
  simp only [forStmt, wpF_bind, wpF_start, wpF_bump]
  refine ⟨by simp, ?_⟩
  refine ((forContent_spec hr.ok fuel ts hne (by omega) (by omega)).both
    (forContent_v hr fuel ts hne (by omega) (by omega))).use ?_
  rintro _ i1 t1 e1 y1 ne1 l1 ⟨⟨g1, c1⟩, v1⟩
  refine (expect_v (by simp) t1).use ?_
  rintro _ i2 t2 e2 y2 ne2 l2 ⟨c2, -, v2⟩
  have hne2 := ne2 (ne1 hne)
  refine (block_v hr t2 hne2 (by omega)).use ?_
  rintro _ i3 t3 e3 y3 ne3 l3 ⟨p3, v3⟩
  refine (expect_v (by simp) t3).use ?_
  rintro _ i5 t5 e5 y5 ne5 l5 ⟨c5, -, v5⟩
  simp
  refine Spec.done [.node ev .forStmt [] (.tok .forKw :: (i1 ++ (i2 ++ (i3 ++ i5))))]
    (by simp) (by simp [y1, y2, y3, y5])
    (.node0 (.tok (.app y1 (v1.mono ?_) fun hc1 => .app y2 (v2.mono ?_) fun hc2 => .app y3 (v3.mono ?_) fun hc3 =>
      v5.mono ?_)))
  · rintro _ ⟨t, rfl, d⟩
    exact ⟨[.tok .doKw, emptyT, .tok .endKw], _, rfl, Deriv.forStmt _ _ d empty_d⟩
  · rintro _ rfl
    obtain ⟨t, h1, h2⟩ := c1 hc1
    rw [h1]
    exact ⟨[emptyT, .tok .endKw], _, rfl, Deriv.forStmt _ _ h2 empty_d⟩
  · rintro _ ⟨b, rfl, d⟩
    obtain ⟨t, h1, h2⟩ := c1 hc1
    rw [h1, c2 hc2]
    exact ⟨[.tok .endKw], _, rfl, Deriv.forStmt _ _ h2 d⟩
  · rintro _ rfl
    obtain ⟨t, h1, h2⟩ := c1 hc1
    obtain ⟨b', hb', d3⟩ := p3.good.2 hc3
    rw [h1, c2 hc2, hb']
    exact ⟨_, rfl, Deriv.forStmt _ _ h2 d3⟩

theorem repeatUntilStmt_v {r b} (hr : RecV r b) (toks) (hne : NE toks)
    (hb : 2 * toks.length ≤ b) (hat : la toks = .repeatKw) :
    Spec (repeatUntilStmt r) toks fun _ items _ => U StmtX toks items := by
  obtain ⟨ts, rfl⟩ := lookahead_eq hat (by simp)
  intro ev cur st
  simp at hne hb
  simp only [repeatUntilStmt, wpF_bind, wpF_start, wpF_bump]
  refine ⟨by simp, ?_⟩
  refine (block_v hr ts hne (by omega)).use ?_
  rintro _ i1 t1 e1 y1 ne1 l1 ⟨p1, v1⟩
  refine (expect_v (by simp) t1).use ?_
  rintro _ i2 t2 e2 y2 ne2 l2 ⟨c2, -, v2⟩
  refine (single_v hr t2 (ne2 (ne1 hne)) (by omega)).use ?_
  rintro _ i3 t3 e3 y3 ne3 l3 ⟨p3, v3⟩
  simp
  refine Spec.done [.node ev .repeatUntilStmt [] (.tok .repeatKw :: (i1 ++ (i2 ++ i3)))]
    (by simp) (by simp [y1, y2, y3])
    (.node0 (.tok (.app y1 (v1.mono ?_) fun hc1 => .app y2 (v2.mono ?_) fun hc2 => v3.c.mono ?_)))
  · rintro _ ⟨b, rfl, d⟩
    exact ⟨[.tok .untilKw, nilT], _, rfl, Deriv.repeat _ _ d nil_d⟩
  · rintro _ rfl
    obtain ⟨b', hb', d1⟩ := p1.good.2 hc1
    rw [hb']
    exact ⟨[nilT], _, rfl, Deriv.repeat _ _ d1 nil_d⟩
  · rintro _ ⟨t, rfl, d⟩
    obtain ⟨b', hb', d1⟩ := p1.good.2 hc1
    rw [hb', c2 hc2]
    exact ⟨_, rfl, Deriv.repeat _ _ d1 d⟩

theorem breakStmt_v (toks) (hat : la toks = .breakKw) :
    Spec breakStmt toks fun _ items _ => U StmtX toks items := by
  obtain ⟨ts, rfl⟩ := lookahead_eq hat (by simp)
  intro ev cur st
  simp [breakStmt]
  exact Spec.done [.node ev .breakStmt [] [.tok .breakKw]] rfl (by simp) (.ok (by simp))

theorem paramList_both (fuel toks) (hne : NE toks) (hf : toks.length < fuel) :
    Spec (paramList fuel) toks fun a items toks' => (clean items → ∃ p, toTreeL items = [p] ∧ D .params [p]) ∧
      U (fun ts => ∃ p, ts = [p] ∧ D .params [p]) toks items := by
  refine ((paramList_spec fuel toks hne hf).both (paramList_v fuel toks hne hf)).mono ?_
  rintro a items toks' y ⟨⟨bf, af, hi, g, c⟩, v⟩
  refine ⟨fun hc => ?_, v⟩
  have := c hc
  subst hi
  exact ⟨toTree (.node a .paramList bf af), by simp only [toTreeL], by simpa [toTreeL] using this⟩

theorem localFunctionDefStmt_v {r b} (hr : RecV r b) (fuel toks) (hne : NE toks)
    (hf : toks.length ≤ fuel) (hb : 2 * toks.length ≤ b) (hat : la toks = .localKw) :
    Spec (localFunctionDefStmt r fuel) toks fun _ items _ => U StmtX toks items := by
  obtain ⟨ts, rfl⟩ := lookahead_eq hat (by simp)
  intro ev cur st
  simp at hne hb hf
  simp only [localFunctionDefStmt, wpF_bind, wpF_start, wpF_bump]
  refine ⟨by simp, ?_⟩
  refine (expect_v (by simp) ts).use ?_
  rintro _ i1 t1 e1 y1 ne1 l1 ⟨c1, -, v1⟩
  refine (nameR_v _ t1 (ne1 hne)).use ?_
  rintro _ i2 t2 e2 y2 ne2 l2 ⟨c2, -, -, v2⟩
  have hne2 := ne2 (ne1 hne)
  refine (paramList_both fuel t2 hne2 (by omega)).use ?_
  rintro a3 i3 t3 e3 y3 ne3 l3 ⟨c3, v3⟩
  refine (block_v hr t3 (ne3 hne2) (by omega)).use ?_
  rintro _ i4 t4 e4 y4 ne4 l4 ⟨p4, v4⟩
  refine (expect_v (by simp) t4).use ?_
  rintro _ i5 t5 e5 y5 ne5 l5 ⟨c5, -, v5⟩
  simp
  refine Spec.done [.node ev .localFunctionDefStmt [] (.tok .localKw :: (i1 ++ (i2 ++ (i3 ++ (i4 ++ i5)))))]
    (by simp) (by simp [y1, y2, y3, y4, y5])
    (.node0 (.tok (.app y1 (v1.mono ?_) fun hc1 => .app y2 (v2.mono ?_) fun hc2 => .app y3 (v3.mono ?_) fun hc3 =>
      .app y4 (v4.mono ?_) fun hc4 => v5.mono ?_)))
  · rintro _ rfl
    exact ⟨[nameT, _, emptyT, .tok .endKw], _, rfl, Deriv.localFunction _ _ .paramsEmpty empty_d⟩
  · rintro _ rfl
    rw [c1 hc1]
    exact ⟨[_, emptyT, .tok .endKw], _, rfl, Deriv.localFunction _ _ .paramsEmpty empty_d⟩
  · rintro _ ⟨p, rfl, d⟩
    rw [c1 hc1, c2 hc2]
    exact ⟨[emptyT, .tok .endKw], _, rfl, Deriv.localFunction _ _ d empty_d⟩
  · rintro _ ⟨b, rfl, d⟩
    obtain ⟨p, h1, h2⟩ := c3 hc3
    rw [c1 hc1, c2 hc2, h1]
    exact ⟨[.tok .endKw], _, rfl, Deriv.localFunction _ _ h2 d⟩
  · rintro _ rfl
    obtain ⟨p, h1, h2⟩ := c3 hc3
    obtain ⟨b', hb', d4⟩ := p4.good.2 hc4
    rw [c1 hc1, c2 hc2, h1, hb']
    exact ⟨_, rfl, Deriv.localFunction _ _ h2 d4⟩

theorem localAssignStmt_v {r b} (hr : RecV r b) (fuel toks) (hne : NE toks)
    (hf : toks.length ≤ fuel) (hb : 2 * toks.length ≤ b) (hat : la toks = .localKw) :
    Spec (localAssignStmt r fuel) toks fun _ items _ => U StmtX toks items := by
  obtain ⟨ts, rfl⟩ := lookahead_eq hat (by simp)
  intro ev cur st
  simp at hne hb hf
  simp only [localAssignStmt, wpF_bind, wpF_start, wpF_bump]
  refine ⟨by simp, ?_⟩
  refine ((multiNameR_spec fuel _ false ts hne (by omega)).both (multiNameR_v fuel _ false ts hne (by omega))).use ?_
  rintro _ i1 t1 e1 y1 ne1 l1 ⟨⟨⟨g1, c1⟩, -⟩, v1⟩
  simp only [wpF_accept]
  refine ⟨fun h => ⟨by simp, ?_⟩, fun h => ?_⟩
  · obtain ⟨t2, rfl⟩ := lookahead_eq (by simpa using h) (by simp)
    have hne2 : NE t2 := by have := ne1 hne; simp at this; exact this
    simp only [wpF_ite, wpF_bind, if_true, List.tail_cons, lookahead_cons]
    refine (expr_v hr fuel t2 hne2 (by lomega) (by lomega)).use ?_
    rintro _ i2 t3 e2 y2 ne2 l2 ⟨-, v2, -⟩
    simp
    refine Spec.done [.node ev .localAssignStmt [] (.tok .localKw :: (i1 ++ .tok .eq :: i2))]
      (by simp) (by simp [y1, y2]) (.node0 (.tok (.app y1 (v1.mono ?_) fun hc1 => .tok (v2.mono ?_))))
    · rintro _ ⟨tl, rfl, d⟩
      exact ⟨[], _, rfl, Deriv.localNames _ d⟩
    · rintro _ ⟨m, rfl, d⟩
      obtain ⟨tl, h1, h2⟩ := multiNameR_plain (c1 hc1)
      rw [h1]
      exact ⟨_, rfl, Deriv.localAssign _ _ h2 d⟩
  · simp
    refine Spec.done [.node ev .localAssignStmt [] (.tok .localKw :: i1)]
      (by simp) (by simp [y1]) (.node0 (.tok (v1.mono ?_)))
    rintro _ ⟨tl, rfl, d⟩
    exact ⟨_, rfl, Deriv.localNames _ d⟩

theorem localStmt_v {r b} (hr : RecV r b) (fuel toks) (hne : NE toks)
    (hf : toks.length ≤ fuel) (hb : 2 * toks.length ≤ b) (hat : la toks = .localKw) :
    Spec (localStmt r fuel) toks fun _ items _ => U StmtX toks items := by
  intro ev cur st
  simp only [localStmt, wpF_bind, wpF_nth, wpF_ite]
  exact ⟨fun _ => localFunctionDefStmt_v hr fuel toks hne hf hb hat ev cur st,
    fun _ => localAssignStmt_v hr fuel toks hne hf hb hat ev cur st⟩

theorem exprStmt_v {r b} (hr : RecV r b) (fuel toks) (hne : NE toks)
    (hf : toks.length < fuel) (hb : 2 * toks.length + 1 ≤ b)
    (hat : la toks = .ident ∨ la toks = .lParen) :
    Spec (exprStmt r fuel) toks fun _ items _ => U StmtX toks items := by
  have hx : la toks ∈ exprFirst := by rcases hat with h | h <;> simp [h, exprFirst]
  intro ev cur st
  simp only [exprStmt, wpF_bind, wpF_start]
  refine (expr_v hr fuel toks hne hf hb).use ?_
  rintro _ i1 t1 e1 y1 ne1 l1 ⟨⟨⟨bf1, af1, hi1, g1, c1⟩, p1⟩, v1, n1⟩
  have hlt := p1 hx
  have v1' : U (fun ts => ∃ m, ts = [m] ∧ D .multival [m] ∧ startsStmt m) toks i1 := by
    intro hc
    refine ((v1 hc).headed (n1 hx) y1).mono ?_
    rintro _ ⟨⟨m, rfl, d⟩, h⟩
    refine ⟨m, rfl, d, ?_⟩
    simp only [yieldL, List.append_nil] at h
    rcases hat with e | e
    · exact .inl (by rw [h, e])
    · exact .inr (by rw [h, e])
  have hst : ∀ m, toTreeL i1 = [m] → startsStmt m := by
    intro m hm
    rcases hat with h | h
    · exact Or.inl (yieldL_head_of y1 hlt hm h)
    · exact Or.inr (yieldL_head_of y1 hlt hm h)
  simp only [wpF_accept]
  refine ⟨fun h => ⟨by simp, ?_⟩, fun h => ?_⟩
  · obtain ⟨t2, rfl⟩ := lookahead_eq (by simpa using h) (by simp)
    have hne2 : NE t2 := by have := ne1 hne; simp at this; exact this
    simp only [wpF_ite, wpF_bind, if_true, List.tail_cons, lookahead_cons]
    refine (expr_v hr fuel t2 hne2 (by lomega) (by lomega)).use ?_
    rintro _ i2 t3 e2 y2 ne2 l2 ⟨-, v2, -⟩
    simp
    refine Spec.done [.node ev .assignStmt [] (i1 ++ .tok .eq :: i2)]
      (by simp) (by simp [y1, y2]) (.node0 (.app y1 (v1'.mono ?_) fun hc1 => .tok (v2.mono ?_)))
    · rintro _ ⟨m, rfl, d, hs⟩
      exact ⟨[.tok .eq, .node .multivalExpr [nilT]], _, rfl, Deriv.assign _ _ d hs (Deriv.multival _ [] nil_d .tailNil)⟩
    · rintro _ ⟨m, rfl, d⟩
      obtain ⟨m1, hm1, dm1, fm1, _⟩ := c1 hc1
      have := hst _ hm1
      rw [hm1]
      exact ⟨_, rfl, Deriv.assign _ _ dm1 this d⟩
  · simp
    refine Spec.done [.node ev .exprStmt [] i1]
      (by simp) (by simp [y1]) (.node0 (v1'.mono ?_))
    rintro _ ⟨m, rfl, d, hs⟩
    exact ⟨_, rfl, Deriv.exprStmt _ d hs⟩

theorem indexPathLoop_v : ∀ n toks, NE toks → toks.length < n →
    Spec (indexPathLoop n) toks fun _ items toks' => U (D .pathTail) toks items := by
  intro n
  induction n with
  | zero => intro toks _ h; omega
  | succ n ih =>
    intro toks hne hlen ev cur st
    simp only [indexPathLoop, wpF_bind, wpF_atK, wpF_ite, wpF_pure]
    refine ⟨fun h => ?_, fun h => ⟨fun h2 => ?_, fun h2 => ?_⟩⟩
    · exact Spec.done [] rfl (by simp) (.ok (by simp))
    · obtain ⟨ts, rfl⟩ := lookahead_eq (by simpa using h2) (by simp)
      simp at hne hlen
      simp only [wpF_bump, wpF_nth, wpF_ite, wpF_bind, wpF_pure]
      refine ⟨by simp, fun h3 => ?_, fun h3 => ?_⟩
      · exact Spec.done [.tok .dot] rfl (by simp) (.ok (by simp))
      · refine (nameRefR_v _ ts hne).use ?_
        rintro _ i1 t1 e1 y1 ne1 l1 ⟨c1, v1⟩
        refine (ih t1 (ne1 hne) (by omega)).use ?_
        rintro _ i2 t2 e2 y2 ne2 l2 v2
        refine Spec.done (.tok .dot :: (i1 ++ i2)) (by simp) (by simp [y1, y2])
          (.tok (.app y1 (v1.mono ?_) fun hc1 => v2.mono ?_))
        · rintro _ rfl
          exact ⟨[], Deriv.pathCons _ .pathNil⟩
        · intro ts d
          rw [c1 hc1]
          exact Deriv.pathCons _ d
    · exact Spec.done [] rfl (by simp) (.ok (by simp))

theorem indexPath_v (fuel toks) (hne : NE toks) (hf : toks.length < fuel) :
    Spec (indexPath fuel) toks fun a items toks' =>
      U (fun ts => ∃ tl, ts = [.node .indexPath (nameRefT :: tl)] ∧ D .pathTail tl) toks items := by
  intro ev cur st
  simp only [indexPath, wpF_bind, wpF_start]
  refine (nameRefR_v _ toks hne).use ?_
  rintro _ i1 t1 e1 y1 ne1 l1 ⟨c1, v1⟩
  refine (indexPathLoop_v fuel t1 (ne1 hne) (by omega)).use ?_
  rintro _ i2 t2 e2 y2 ne2 l2 v2
  simp
  refine Spec.done [.node ev .indexPath [] (i1 ++ i2)] (by simp) (by simp [y1, y2])
    (.node0 (.app y1 (v1.mono ?_) fun hc1 => v2.mono ?_))
  · rintro _ rfl
    exact ⟨[], [], rfl, .pathNil⟩
  · intro ts d
    rw [c1 hc1]
    exact ⟨ts, rfl, d⟩

/-- one name of a function -/
def FuncC (ts : List PTree) : Prop := ∃ n, ts = [n] ∧ D .funcName [n]

theorem functionDefContent_v (fuel toks) (hne : NE toks) (hf : toks.length < fuel) :
    Spec (functionDefContent fuel) toks fun _ items toks' => U FuncC toks items := by
  intro ev cur st
  simp only [functionDefContent, wpF_bind, wpF_start, wpF_atK, wpF_nth, wpF_ite]
  refine ⟨fun h => ?_, fun h => ?_⟩
  · refine (nameR_v _ toks hne).use ?_
    rintro _ i1 t1 e1 y1 ne1 l1 ⟨c1, -, -, v1⟩
    simp
    refine Spec.done [.node ev .functionDefContent [] i1] (by simp) (by simp [y1]) (.node0 (v1.mono ?_))
    rintro _ rfl
    exact ⟨_, rfl, Deriv.plainName⟩
  · refine ((indexPath_spec fuel toks hne hf).both (indexPath_v fuel toks hne hf)).use ?_
    rintro a1 i1 t1 e1 y1 ne1 l1 ⟨⟨bf, af, rfl, g1, c1⟩, v1⟩
    simp only [List.reverse_cons, List.reverse_nil, List.nil_append, List.singleton_append,
      wpF_precede_head]
    refine ⟨fun h2 => ?_, fun h2 => ?_⟩
    · obtain ⟨t2, rfl⟩ := lookahead_eq (by simpa using h2) (by simp)
      have hne2 : NE t2 := by have := ne1 hne; simp at this; exact this
      simp only [wpF_bump]
      refine ⟨by simp, ?_⟩
      refine (nameR_v _ t2 hne2).use ?_
      rintro _ i2 t3 e2 y2 ne2 l2 ⟨c2, q2, r2, v2⟩
      simp
      refine Spec.done [.node ev .functionDefContent [] [.node e1 .functionMethod
        [.node a1 .indexPath bf af] (.tok .colon :: i2)]] (by simp) (by simp at y1; simp [y1, y2]) ?_
      by_cases hc1 : clean [.node a1 .indexPath bf af]
      · obtain ⟨tl, h1, h3⟩ := c1 hc1
        rcases h3 with h3 | ⟨h3, ts', d, he⟩
        · refine .node0 (.node (.app y1 (.ok hc1) fun _ => .tok (v2.mono ?_)))
          rintro _ rfl
          rw [h1]
          exact ⟨_, rfl, Deriv.methodName _ h3⟩
        · -- after a dangling dot
          simp at h3
          intro hc
          have hp : pre i2 = [] := r2 (by rw [h3]; simp)
          obtain ⟨t4, rfl⟩ := lookahead_eq h3 (by simp)
          have hyl : yld [.node a1 .indexPath bf af] = .ident :: yieldL ts' ++ [.dot] := by
            simp only [yld, h1, he]
            simp [yieldL, PTree.yield]
          refine ⟨_, [.ident], ⟨_, rfl, Deriv.staticName _ d⟩, .inr ⟨.ident :: yieldL ts', t4, ?_, ?_, ?_⟩⟩
          · rw [pre_node, List.nil_append, pre_node, pre_clean _ hc1, pre_tok, hp, hyl]
            simp
          · rw [y1, hyl]
            simp
          · simp [yieldL, PTree.yield]
      · refine .node0 (.node (.app y1 (v1.mono ?_) fun hc => absurd hc hc1))
        rintro _ ⟨tl, rfl, d⟩
        exact ⟨[.tok .colon, nameT], _, rfl, Deriv.methodName _ d⟩
    · refine (nameR_v _ t1 (ne1 hne)).use ?_
      rintro _ i2 t3 e2 y2 ne2 l2 ⟨c2, -, -, v2⟩
      simp
      refine Spec.done [.node ev .functionDefContent [] [.node e1 .functionStatic
        [.node a1 .indexPath bf af] i2]] (by simp) (by simp at y1; simp [y1, y2]) ?_
      refine .node0 (.node (.app y1 (v1.mono ?_) fun hc1 => v2.mono ?_))
      · rintro _ ⟨tl, rfl, d⟩
        exact ⟨[nameT], _, rfl, Deriv.staticNoDot _ rfl d⟩
      · rintro _ rfl
        obtain ⟨tl, h1, h3⟩ := c1 hc1
        rw [h1]
        rcases h3 with h3 | ⟨h3, ts', d, rfl⟩
        · exact ⟨_, rfl, Deriv.staticNoDot _ rfl h3⟩
        · exact ⟨_, rfl, Deriv.staticName _ d⟩

theorem functionDefStmt_v {r b} (hr : RecV r b) (fuel toks) (hne : NE toks)
    (hf : toks.length < fuel) (hb : 2 * toks.length ≤ b) (hat : la toks = .functionKw) :
    Spec (functionDefStmt r fuel) toks fun _ items _ => U StmtX toks items := by
  intro ev cur st
  simp only [functionDefStmt, wpF_bind, wpF_start]
  refine ((expect_spec (by simp) toks).both (expect_v (by simp) toks)).use ?_
  rintro _ i1 t1 e1 y1 ne1 l1 ⟨⟨g1, -, p1⟩, c1, -, v1⟩
  have hlt := p1 hat
  refine ((functionDefContent_spec fuel t1 (ne1 hne) (by omega)).both
    (functionDefContent_v fuel t1 (ne1 hne) (by omega))).use ?_
  rintro _ i2 t2 e2 y2 ne2 l2 ⟨⟨g2, c2⟩, v2⟩
  have hne2 := ne2 (ne1 hne)
  refine (paramList_both fuel t2 hne2 (by omega)).use ?_
  rintro a3 i3 t3 e3 y3 ne3 l3 ⟨c3, v3⟩
  refine (block_v hr t3 (ne3 hne2) (by omega)).use ?_
  rintro _ i4 t4 e4 y4 ne4 l4 ⟨p4, v4⟩
  refine (expect_v (by simp) t4).use ?_
  rintro _ i5 t5 e5 y5 ne5 l5 ⟨c5, -, v5⟩
  simp
  refine Spec.done [.node ev .functionDefStmt [] (i1 ++ (i2 ++ (i3 ++ (i4 ++ i5))))]
    (by simp) (by simp [y1, y2, y3, y4, y5])
    (.node0 (.app y1 (v1.mono ?_) fun hc1 => .app y2 (v2.mono ?_) fun hc2 => .app y3 (v3.mono ?_) fun hc3 =>
      .app y4 (v4.mono ?_) fun hc4 => v5.mono ?_))
  · rintro _ rfl
    exact ⟨[_, _, emptyT, .tok .endKw], _, rfl, Deriv.function_ _ _ _ .plainName .paramsEmpty empty_d⟩
  · rintro _ ⟨n, rfl, d⟩
    rw [c1 hc1]
    exact ⟨[_, emptyT, .tok .endKw], _, rfl, Deriv.function_ _ _ _ d .paramsEmpty empty_d⟩
  · rintro _ ⟨p, rfl, d⟩
    obtain ⟨n, hn, d2⟩ := c2 hc2
    rw [c1 hc1, hn]
    exact ⟨[emptyT, .tok .endKw], _, rfl, Deriv.function_ _ _ _ d2 d empty_d⟩
  · rintro _ ⟨b, rfl, d⟩
    obtain ⟨n, hn, d2⟩ := c2 hc2
    obtain ⟨p, h1, h2⟩ := c3 hc3
    rw [c1 hc1, hn, h1]
    exact ⟨[.tok .endKw], _, rfl, Deriv.function_ _ _ _ d2 h2 d⟩
  · rintro _ rfl
    obtain ⟨n, hn, d2⟩ := c2 hc2
    obtain ⟨p, h1, h2⟩ := c3 hc3
    obtain ⟨b', hb', d4⟩ := p4.good.2 hc4
    rw [c1 hc1, hn, h1, hb']
    exact ⟨_, rfl, Deriv.function_ _ _ _ d2 h2 d4⟩

theorem doStmt_v {r b} (hr : RecV r b) (toks) (hne : NE toks)
    (hb : 2 * toks.length ≤ b) (hat : la toks = .doKw) :
    Spec (doStmt r) toks fun _ items _ => U StmtX toks items := by
  obtain ⟨ts, rfl⟩ := lookahead_eq hat (by simp)
  intro ev cur st
  simp at hne hb
  simp only [doStmt, wpF_bind, wpF_start, wpF_bump]
  refine ⟨by simp, ?_⟩
  refine (block_v hr ts hne (by omega)).use ?_
  rintro _ i3 t3 e3 y3 ne3 l3 ⟨p3, v3⟩
  refine (expect_v (by simp) t3).use ?_
  rintro _ i5 t5 e5 y5 ne5 l5 ⟨c5, -, v5⟩
  simp
  refine Spec.done [.node ev .doStmt [] (.tok .doKw :: (i3 ++ i5))]
    (by simp) (by simp [y3, y5]) (.node0 (.tok (.app y3 (v3.mono ?_) fun hc3 => v5.mono ?_)))
  · rintro _ ⟨b, rfl, d⟩
    exact ⟨[.tok .endKw], _, rfl, Deriv.doStmt _ d⟩
  · rintro _ rfl
    obtain ⟨b', hb', d3⟩ := p3.good.2 hc3
    rw [hb']
    exact ⟨_, rfl, Deriv.doStmt _ d3⟩

theorem returnStmt_v {r b} (hr : RecV r b) (fuel toks) (hne : NE toks)
    (hf : toks.length ≤ fuel) (hb : 2 * toks.length ≤ b) (hat : la toks = .returnKw) :
    Spec (returnStmt r fuel) toks fun _ items _ => U StmtX toks items := by
  obtain ⟨ts, rfl⟩ := lookahead_eq hat (by simp)
  intro ev cur st
  simp at hne hb hf
  simp only [returnStmt, wpF_bind, wpF_start, wpF_bump, wpF_atTs, wpF_ite, contains_EXPR_FIRST]
  refine ⟨by simp, fun h => ?_, fun h => ?_⟩
  · refine (expr_v hr fuel ts hne (by lomega) (by lomega)).use ?_
    rintro _ i2 t3 e2 y2 ne2 l2 ⟨-, v2, -⟩
    simp
    refine Spec.done [.node ev .returnStmt [] (.tok .returnKw :: i2)]
      (by simp) (by simp [y2]) (.node0 (.tok (v2.mono ?_)))
    rintro _ ⟨m, rfl, d⟩
    exact ⟨_, rfl, Deriv.return _ d⟩
  · simp
    exact Spec.done [.node ev .returnStmt [] [.tok .returnKw]]
      (by simp) (by simp) (.ok (by simp))

/-- a statement that cannot begin here: nothing was read -/
def StmtV (toks : List SyntaxKind) (items : List Item) : Prop := ¬ clean items → pre items = [] ∨ Vi StmtX toks items

theorem stmtCore_v {r b} (hr : RecV r b) (fuel toks) (hne : NE toks)
    (hf : toks.length < fuel) (hb : 2 * toks.length + 1 ≤ b) (hat : la toks ≠ .eof) :
    Spec (stmtCore r fuel) toks fun _ items _ => StmtV toks items := by
  have bad : ∀ (msg), Spec (errAndBump msg) toks fun _ items _ => StmtV toks items := by
    intro msg
    refine (errAndBump_pre msg toks hne).mono ?_
    intro a items toks' y h _
    exact .inl h
  have use : ∀ {α : Type} {p : Prog α}, Spec p toks (fun _ items _ => U StmtX toks items) →
      ∀ {ev cur st}, wpF p ⟨toks, ev, cur, st⟩ fun _ s' => Post toks cur st (fun items _ => StmtV toks items) s' :=
    fun {_ _} h {ev cur st} => (h.mono fun _ _ _ _ h hc => .inr (h hc)) ev cur st
  intro ev cur st
  simp only [stmtCore, wpF_bind, wpF_current, wpF_ite, wpF_pure, beq_iff_eq]
  refine ⟨fun h => use (ifStmt_v hr fuel toks hne (by omega) (by omega) h), fun _ => ?_⟩
  refine ⟨fun h => use (labelStmt_v toks hne h), fun _ => ?_⟩
  refine ⟨fun h => use (gotoStmt_v toks hne h), fun _ => ?_⟩
  refine ⟨fun h => use (localStmt_v hr fuel toks hne (by omega) (by omega) h), fun _ => ?_⟩
  refine ⟨fun h => use (repeatUntilStmt_v hr toks hne (by omega) h), fun _ => ?_⟩
  refine ⟨fun h => use (functionDefStmt_v hr fuel toks hne (by omega) (by omega) h), fun _ => ?_⟩
  refine ⟨fun h => use (returnStmt_v hr fuel toks hne (by omega) (by omega) h), fun _ => ?_⟩
  refine ⟨fun h => use (doStmt_v hr toks hne (by omega) h), fun _ => ?_⟩
  refine ⟨fun h => use (whileStmt_v hr toks hne (by omega) h), fun _ => ?_⟩
  refine ⟨fun h => use (forStmt_v hr fuel toks hne (by omega) (by omega) h), fun _ => ?_⟩
  refine ⟨fun h => use (breakStmt_v toks h), fun _ => ?_⟩
  refine ⟨fun h => use (exprStmt_v hr fuel toks hne (by omega) (by omega) (Or.inl h)), fun _ => ?_⟩
  refine ⟨fun h => use (exprStmt_v hr fuel toks hne (by omega) (by omega) (Or.inr h)), fun _ => ?_⟩
  refine ⟨fun h => bad _ ev cur st, fun _ => ?_⟩
  simp only [wpF_bind, wpF_atTs, wpF_ite, contains_LITERAL_FIRST]
  refine ⟨fun h => bad _ ev cur st, fun _ => ?_⟩
  refine ⟨fun h => ?_, fun h => bad _ ev cur st⟩
  obtain ⟨ts, rfl⟩ := lookahead_eq h (by simp)
  simp [unmatchedEnd]
  exact Spec.done [.errNode [.tok .endKw] (.message "Unmatched end token")] rfl (by simp) (fun _ => .inl (by simp))

/-- the statement with its optional semicolon may be followed by statements that begin with the next token -/
def StmtSemiV (toks' : List SyntaxKind) (ts : List PTree) : Prop :=
  ∀ tl, D .stmts tl → (tl = [] ∨ (yieldL tl).head? = some (la toks')) → D .stmts (ts ++ tl)

theorem stmt_v {r b} (hr : RecV r b) (fuel toks) (hne : NE toks)
    (hf : toks.length < fuel) (hb : 2 * toks.length + 1 ≤ b) (hat : la toks ≠ .eof) :
    Spec (stmt r fuel) toks fun _ items toks' => toks'.length < toks.length ∧
      (clean items → StmtSemiV toks' (toTreeL items)) ∧ StmtV toks items := by
  intro ev cur st
  simp only [stmt, wpF_bind]
  refine ((stmtCore_spec hr.ok fuel toks hne hf hb hat).both (stmtCore_v hr fuel toks hne hf hb hat)).use ?_
  rintro _ i1 t1 e1 y1 ne1 l1 ⟨⟨⟨g1, c1⟩, p1⟩, v1⟩
  simp only [wpF_accept, wpF_pure]
  refine ⟨fun h => ⟨by simp, ?_⟩, fun h => ?_⟩
  · obtain ⟨t2, rfl⟩ := lookahead_eq (by simpa using h) (by simp)
    simp only [List.tail_cons, lookahead_cons]
    refine Spec.done (i1 ++ [.tok .semicolon]) (by simp) (by simp [y1]) ⟨by lomega, ?_, ?_⟩
    · simp
      intro hc tl dl _
      obtain ⟨s, hs, ds, _⟩ := c1 hc
      simp [toTreeL, toTree, hs]
      exact Deriv.stmtsSemi _ _ ds dl
    · intro hc
      have hc1 : ¬ clean i1 := by simpa using hc
      rw [pre_dirty _ hc1]
      exact (v1 hc1).imp id fun h => h.congr (pre_dirty _ hc1)
  · refine Spec.done i1 (by simp) (by simp [y1]) ⟨by lomega, ?_, v1⟩
    intro hc tl dl hy
    obtain ⟨s, hs, ds, hm⟩ := c1 hc
    simp [hs]
    refine Deriv.stmtsCons _ _ ds dl ?_
    intro k hk
    rcases hy with rfl | hy
    · simp [yieldL] at hk
    · rw [hk] at hy
      simp only [Option.some.injEq] at hy
      rw [hy]
      exact hm

/-- what was read of a block can be completed; to nothing if nothing was read -/
def StmtsV (toks : List SyntaxKind) (items : List Item) : Prop :=
  ¬ clean items → Vi (fun ts => D .stmts ts ∧ (pre items = [] → ts = [])) toks items

theorem blockLoop_v {r b} (hr : RecV r b) (fuel0) (es : TokenSet) (hes : es.contains .eof = true) :
    ∀ n toks, NE toks → toks.length < n → toks.length < fuel0 → 2 * toks.length + 1 ≤ b →
    Spec (blockLoop r fuel0 es n) toks fun _ items toks' => StmtsV toks items := by
  intro n
  induction n with
  | zero => intro toks _ h; omega
  | succ n ih =>
    intro toks hne hlen hf hb ev cur st
    simp only [blockLoop, wpF_bind, wpF_atTs, wpF_ite, wpF_pure]
    refine ⟨fun h => ?_, fun h => ?_⟩
    · have hat : la toks ≠ .eof := by
        intro h'; simp [la] at h'; simp [h', hes] at h
      refine (stmt_v hr fuel0 toks hne hf hb hat).use ?_
      rintro _ i1 t1 e1 y1 ne1 l1 ⟨p1, c1, v1⟩
      refine (ih t1 (ne1 hne) (by omega) (by omega) (by omega)).use ?_
      rintro _ i2 t2 e2 y2 ne2 l2 v2
      refine Spec.done (i1 ++ i2) (by simp) (by simp [y1, y2]) ?_
      by_cases hc1 : clean i1
      · have hn1 := pre_ne_of_progress hc1 y1 p1
        refine (U.app (S := fun ts => D .stmts ts ∧ (pre (i1 ++ i2) = [] → ts = [])) y1 (.ok hc1) fun _ hc2 => ?_)
        have hv := v2 hc2
        have hne' : ¬ pre (i1 ++ i2) = [] := pre_ne_append i2 hn1
        by_cases hp : pre i2 = []
        · obtain ⟨ts, u, ⟨d, e⟩, -⟩ := hv
          obtain rfl := e hp
          exact Vi.bad hp [] ⟨c1 hc1 [] d (.inl rfl), fun h => absurd h hne'⟩
        · refine (hv.headed hp y2).mono ?_
          rintro ts ⟨⟨d, -⟩, hh⟩
          exact ⟨c1 hc1 ts d (.inr hh), fun h => absurd h hne'⟩
      · intro _
        rw [pre_dirty _ hc1]
        by_cases hp : pre i1 = []
        · exact Vi.bad (by rw [pre_dirty _ hc1, hp]) [] ⟨.stmtsNil, fun _ => rfl⟩
        · refine (((v1 hc1).resolve_left hp).congr (pre_dirty _ hc1)).mono ?_
          rintro _ ⟨s, rfl, d⟩
          exact ⟨Deriv.stmtsCons _ _ d .stmtsNil (by simp [yieldL]), fun h => absurd h hp⟩
    · exact Spec.done [] rfl (by simp) (fun h => absurd clean_nil h)

theorem blockRaw_v {r b} (hr : RecV r b) (fuel) (es : TokenSet) (hes : es.contains .eof = true)
    (toks) (hne : NE toks) (hf : toks.length < fuel) (hb : 2 * toks.length + 1 ≤ b) :
    Spec (blockRaw r fuel es) toks fun _ items toks' => U BlockC toks items := by
  intro ev cur st
  simp only [blockRaw, wpF_bind, wpF_start]
  refine (blockLoop_v hr fuel es hes fuel toks hne hf hf hb).use ?_
  rintro _ i1 t1 e1 y1 ne1 l1 v1
  simp
  refine Spec.done [.node ev .block [] i1] (by simp) (by simp [y1]) (.node0 fun hc => (v1 hc).mono ?_)
  rintro ts ⟨d, -⟩
  exact ⟨_, rfl, Deriv.block _ d⟩

theorem recN_v : ∀ n, RecV (recN n) n := by
  intro n
  induction n with
  | zero => exact ⟨recN_ok 0, fun _ _ _ _ h => by omega, fun _ _ h => by omega⟩
  | succ n ih =>
    refine ⟨recN_ok (n + 1), fun toks m hne hm hb => ?_, fun toks hne hb => ?_⟩
    · exact exprBp_v ih m hm n toks hne (by omega) (by omega)
    · exact blockRaw_v ih n BLOCK_END (by simp [BLOCK_END, TokenSet.contains_new]) toks hne
        (by omega) (by omega)

theorem root_v (toks) (hne : NE toks) :
    Spec (root (2 * toks.length + 3)) toks fun _ items toks' =>
      U (fun ts => ∃ t, ts = [t] ∧ Program .accepted t) toks items := by
  intro ev cur st
  simp only [root, rootBlock, wpF_bind, wpF_start]
  refine (blockRaw_v (recN_v _) _ ROOT_END
    (by simp [ROOT_END, TokenSet.contains_new]) toks hne (by omega) (by omega)).use ?_
  rintro _ i1 t1 e1 y1 ne1 l1 v1
  simp
  refine Spec.done [.node ev .sourceFile [] i1] (by simp) (by simpa using y1) (.node0 (v1.mono ?_))
  rintro _ ⟨b, rfl, d⟩
  exact ⟨_, rfl, b, rfl, d⟩

end Verif
