import Verif.Proof.GrammarSpecExpr2

/-
Specifications of the statement grammar.
-/
set_option linter.unusedSimpArgs false
set_option linter.unusedVariables false
namespace Verif
open Item PTree Lua
open P Grammar

/-- result of a statement function when no error is reported -/
def StmtR (toks' : List SyntaxKind) (ts : List PTree) : Prop :=
  ∃ s, ts = [s] ∧ D .stmt [s] ∧ mayFollow s (la toks')

/-- result of a statement function -/
def PStmt (toks : List SyntaxKind) (items : List Item) (toks' : List SyntaxKind) : Prop :=
  GP (StmtR toks') items ∧ toks'.length < toks.length

theorem mayFollow_of_not_callable {k cs q} (h : endsCallable (.node k cs) = false)
    (hk : k ≠ .returnStmt) : mayFollow (.node k cs) q := by
  refine ⟨fun _ => h, ?_⟩
  intro e; simp at e; exact absurd e.1 hk

theorem PB.gp {toks items toks'} (h : PB toks items toks') :
    GP (fun ts => ∃ b, ts = [b] ∧ D .block [b]) items := h.good

theorem elseBranch_spec {r b} (hr : RecOK r b) (toks) (hne : NE toks)
    (hb : 2 * toks.length ≤ b) (hat : la toks = .elseKw) :
    Spec (elseBranch r) toks fun a items toks' => NP .elseBranch (D .elseOpt) a items := by
  obtain ⟨ts, rfl⟩ := lookahead_eq hat (by simp)
  intro ev cur st
  simp at hne hb
  simp only [elseBranch, wpF_bind, wpF_start, wpF_bump]
  refine ⟨by simp, ?_⟩
  refine (hr.block ts hne (by omega)).use ?_
  rintro _ i2 t2 e2 y2 ne2 l2 p2
  simp
  refine Spec.done [.node ev .elseBranch [] (.tok .elseKw :: i2)] (by simp)
    (by simp [y2]) ⟨_, _, rfl, by simp [p2.good.1], ?_⟩
  simp
  intro hc2
  obtain ⟨b', hb', d2⟩ := p2.good.2 hc2
  simp [toTreeL, toTree, hb']
  exact Deriv.elseBranch _ d2

theorem elseifBranch_spec {r b} (hr : RecOK r b) : ∀ n toks, NE toks → toks.length ≤ n →
    2 * toks.length ≤ b → la toks = .elseifKw →
    Spec (elseifBranch r n) toks fun a items toks' => NP .elseIfBranch (D .elseOpt) a items := by
  intro n
  induction n with
  | zero => intro toks hne hlen hb hat; obtain ⟨ts, rfl⟩ := lookahead_eq hat (by simp); simp at hlen
  | succ n ih =>
    intro toks hne hlen hb hat
    obtain ⟨ts, rfl⟩ := lookahead_eq hat (by simp)
    intro ev cur st
    simp at hne hb hlen
    simp only [elseifBranch, wpF_bind, wpF_start, wpF_bump]
    refine ⟨by simp, ?_⟩
    refine (expr_single_spec hr ts hne (by omega)).use ?_
    rintro _ i1 t1 e1 y1 ne1 l1 p1
    refine (expect_spec (by simp) t1).use ?_
    rintro _ i2 t2 e2 y2 ne2 l2 ⟨g2, c2, -⟩
    have hne2 := ne2 (ne1 hne)
    refine (hr.block t2 hne2 (by omega)).use ?_
    rintro _ i3 t3 e3 y3 ne3 l3 p3
    have fin : ∀ i4 t4 e4, t3 = yld i4 ++ t4 → GP (D .elseOpt) i4 →
        wpF (complete ev .elseIfBranch) ⟨t4, e4, i4.reverse ++ (i3.reverse ++ (i2.reverse ++
          (i1.reverse ++ [Item.tok .elseifKw]))), ⟨ev, false, [], cur⟩ :: st⟩ fun a s' =>
        Post (.elseifKw :: ts) cur st
          (fun items toks' => NP .elseIfBranch (D .elseOpt) a items) s' := by
      intro i4 t4 e4 y4 ⟨g4, c4⟩
      simp
      refine Spec.done [.node ev .elseIfBranch [] (.tok .elseifKw :: (i1 ++ i2 ++ i3 ++ i4))]
        (by simp) (by simp [y1, y2, y3, y4])
        ⟨_, _, rfl, by simp [p1.good, g2, p3.good.1, g4], ?_⟩
      simp
      intro hc1 hc2 hc3 hc4
      obtain ⟨t, h1, h2⟩ := p1.gp.2 hc1
      obtain ⟨b', hb', d3⟩ := p3.good.2 hc3
      simp [toTreeL, toTree, hb', h1, c2 hc2]
      exact Deriv.elseIf _ _ _ h2 d3 (c4 hc4)
    simp only [wpF_bind, wpF_current, wpF_ite]
    refine ⟨fun h => ?_, fun h => ⟨fun h2 => ?_, fun h2 => ?_⟩⟩
    · refine (ih t3 (ne3 hne2) (by omega) (by omega) (by simpa using h)).use ?_
      rintro a4 i4 t4 e4 y4 ne4 l4 ⟨bf, af, hi4, g4⟩
      exact fin i4 t4 e4 y4 g4
    · refine (elseBranch_spec hr t3 (ne3 hne2) (by omega) (by simpa using h2)).use ?_
      rintro a4 i4 t4 e4 y4 ne4 l4 ⟨bf, af, hi4, g4⟩
      exact fin i4 t4 e4 y4 g4
    · exact fin [] t3 e3 (by simp) ⟨by simp, fun _ => by simpa [toTreeL] using Deriv.elseNone⟩

theorem ifStmt_spec {r b} (hr : RecOK r b) (fuel toks) (hne : NE toks)
    (hf : toks.length ≤ fuel) (hb : 2 * toks.length ≤ b) (hat : la toks = .ifKw) :
    Spec (ifStmt r fuel) toks fun _ => PStmt toks := by
  obtain ⟨ts, rfl⟩ := lookahead_eq hat (by simp)
  intro ev cur st
  simp at hne hb hf
  simp only [ifStmt, wpF_bind, wpF_start, wpF_bump]
  refine ⟨by simp, ?_⟩
  refine (expr_single_spec hr ts hne (by omega)).use ?_
  rintro _ i1 t1 e1 y1 ne1 l1 p1
  refine (expect_spec (by simp) t1).use ?_
  rintro _ i2 t2 e2 y2 ne2 l2 ⟨g2, c2, -⟩
  have hne2 := ne2 (ne1 hne)
  refine (hr.block t2 hne2 (by omega)).use ?_
  rintro _ i3 t3 e3 y3 ne3 l3 p3
  have fin : ∀ i4 t4 e4, t3 = yld i4 ++ t4 → GP (D .elseOpt) i4 →
      wpF (expect .endKw) ⟨t4, e4, i4.reverse ++ (i3.reverse ++ (i2.reverse ++
          (i1.reverse ++ [Item.tok .ifKw]))), ⟨ev, false, [], cur⟩ :: st⟩
      fun _ s' => wpF (complete ev .ifStmt) s' fun _ s' =>
        Post (.ifKw :: ts) cur st (PStmt (.ifKw :: ts)) s' := by
    intro i4 t4 e4 y4 ⟨g4, c4⟩
    refine (expect_spec (by simp) t4).use ?_
    rintro _ i5 t5 e5 y5 ne5 l5 ⟨g5, c5, -⟩
    simp
    refine Spec.done [.node ev .ifStmt [] (.tok .ifKw :: (i1 ++ i2 ++ i3 ++ i4 ++ i5))]
      (by simp) (by simp [y1, y2, y3, y4, y5])
      ⟨⟨by simp [p1.good, g2, p3.good.1, g4, g5], ?_⟩, ?_⟩
    · simp
      intro hc1 hc2 hc3 hc4 hc5
      obtain ⟨t, h1, h2⟩ := p1.gp.2 hc1
      obtain ⟨b', hb', d3⟩ := p3.good.2 hc3
      refine ⟨_, by simp [toTreeL, toTree, hb', h1, c2 hc2, c5 hc5] <;> rfl,
        Deriv.ifStmt _ _ _ h2 d3 (c4 hc4), mayFollow_of_not_callable ?_ (by simp)⟩
      simp [endsCallable, endsInExpr, callableKinds]
    · have := congrArg List.length y4; simp at this; lomega
  simp only [wpF_bind, wpF_current, wpF_ite]
  refine ⟨fun h => ?_, fun h => ⟨fun h2 => ?_, fun h2 => ?_⟩⟩
  · refine (elseifBranch_spec hr fuel t3 (ne3 hne2) (by omega) (by omega) (by simpa using h)).use ?_
    rintro a4 i4 t4 e4 y4 ne4 l4 ⟨bf, af, hi4, g4⟩
    exact fin i4 t4 e4 y4 g4
  · refine (elseBranch_spec hr t3 (ne3 hne2) (by omega) (by simpa using h2)).use ?_
    rintro a4 i4 t4 e4 y4 ne4 l4 ⟨bf, af, hi4, g4⟩
    exact fin i4 t4 e4 y4 g4
  · exact fin [] t3 e3 (by simp) ⟨by simp, fun _ => by simpa [toTreeL] using Deriv.elseNone⟩

theorem gotoStmt_spec (toks) (hne : NE toks) (hat : la toks = .gotoKw) :
    Spec gotoStmt toks fun _ => PStmt toks := by
  obtain ⟨ts, rfl⟩ := lookahead_eq hat (by simp)
  intro ev cur st
  simp at hne
  simp only [gotoStmt, wpF_bind, wpF_start, wpF_bump]
  refine ⟨by simp, ?_⟩
  refine (nameRef_spec ts).use ?_
  rintro _ i1 t1 e1 y1 ne1 l1 ⟨⟨bf, af, hi1, g1, c1⟩, -⟩
  simp
  refine Spec.done [.node ev .gotoStmt [] (.tok .gotoKw :: i1)] (by simp) (by simp [y1])
    ⟨⟨by simp [g1], ?_⟩, by lomega⟩
  simp
  intro hc
  refine ⟨_, by simp [toTreeL, toTree, c1 hc] <;> rfl, Deriv.goto, mayFollow_of_not_callable ?_ (by simp)⟩
  simp [endsCallable, endsInExpr, callableKinds]

theorem labelDelim_spec (toks) (hne : NE toks) :
    Spec labelDelim toks fun _ items toks' =>
      GP (· = [.node .labelDelim [.tok .doubleColon]]) items ∧
      (la toks = .doubleColon → toks'.length < toks.length) := by
  intro ev cur st
  simp only [labelDelim, wpF_bind, wpF_start]
  refine (expect_spec (by simp) toks).use ?_
  rintro _ i1 t1 e1 y1 ne1 l1 ⟨g1, c1, p1⟩
  simp
  refine Spec.done [.node ev .labelDelim [] i1] (by simp) (by simp [y1])
    ⟨⟨by simp [g1], ?_⟩, p1⟩
  simp
  intro hc
  simp [toTreeL, toTree, c1 hc]

theorem labelStmt_spec (toks) (hne : NE toks) (hat : la toks = .doubleColon) :
    Spec labelStmt toks fun _ => PStmt toks := by
  intro ev cur st
  simp only [labelStmt, wpF_bind, wpF_start, wpF_atK, wpF_ite, wpF_panic]
  refine ⟨by simp [hat], fun _ => ?_⟩
  refine (labelDelim_spec toks hne).use ?_
  rintro _ i1 t1 e1 y1 ne1 l1 ⟨⟨g1, c1⟩, p1⟩
  refine (nameR_spec _ t1 (ne1 hne)).use ?_
  rintro _ i2 t2 e2 y2 ne2 l2 ⟨g2, c2⟩
  refine (labelDelim_spec t2 (ne2 (ne1 hne))).use ?_
  rintro _ i3 t3 e3 y3 ne3 l3 ⟨⟨g3, c3⟩, -⟩
  simp
  have := p1 hat
  refine Spec.done [.node ev .labelStmt [] (i1 ++ i2 ++ i3)] (by simp) (by simp [y1, y2, y3])
    ⟨⟨by simp [g1, g2, g3], ?_⟩, by omega⟩
  simp
  intro hc1 hc2 hc3
  refine ⟨_, by simp [toTreeL, toTree, c1 hc1, c2 hc2, c3 hc3] <;> rfl, Deriv.label,
    mayFollow_of_not_callable ?_ (by simp)⟩
  simp [endsCallable, endsInExpr, callableKinds]

theorem whileStmt_spec {r b} (hr : RecOK r b) (toks) (hne : NE toks)
    (hb : 2 * toks.length ≤ b) (hat : la toks = .whileKw) :
    Spec (whileStmt r) toks fun _ => PStmt toks := by
  obtain ⟨ts, rfl⟩ := lookahead_eq hat (by simp)
  intro ev cur st
  simp at hne hb
  simp only [whileStmt, wpF_bind, wpF_start, wpF_bump]
  refine ⟨by simp, ?_⟩
  refine (expr_single_spec hr ts hne (by omega)).use ?_
  rintro _ i1 t1 e1 y1 ne1 l1 p1
  refine (expect_spec (by simp) t1).use ?_
  rintro _ i2 t2 e2 y2 ne2 l2 ⟨g2, c2, -⟩
  have hne2 := ne2 (ne1 hne)
  refine (hr.block t2 hne2 (by omega)).use ?_
  rintro _ i3 t3 e3 y3 ne3 l3 p3
  refine (expect_spec (by simp) t3).use ?_
  rintro _ i5 t5 e5 y5 ne5 l5 ⟨g5, c5, -⟩
  simp
  refine Spec.done [.node ev .whileStmt [] (.tok .whileKw :: (i1 ++ i2 ++ i3 ++ i5))]
    (by simp) (by simp [y1, y2, y3, y5])
    ⟨⟨by simp [p1.good, g2, p3.good.1, g5], ?_⟩, by lomega⟩
  simp
  intro hc1 hc2 hc3 hc5
  obtain ⟨t, h1, h2⟩ := p1.gp.2 hc1
  obtain ⟨b', hb', d3⟩ := p3.good.2 hc3
  refine ⟨_, by simp [toTreeL, toTree, hb', h1, c2 hc2, c5 hc5] <;> rfl,
    Deriv.while _ _ h2 d3, mayFollow_of_not_callable ?_ (by simp)⟩
  simp [endsCallable, endsInExpr, callableKinds]

theorem genericFor_spec {r b} (hr : RecOK r b) (fuel toks) (hne : NE toks) (hf : toks.length < fuel)
    (hb : 2 * toks.length + 1 ≤ b) (hat : la toks = .ident) :
    Spec (genericFor r fuel) toks fun _ items toks' =>
      GP (fun ts => D .forContent [.node .forContent ts]) items := by
  intro ev cur st
  simp only [genericFor, wpF_bind, wpF_start, wpF_atK, wpF_ite, wpF_panic]
  refine ⟨by simp [hat], fun _ => ?_⟩
  refine (multiNameR_spec fuel _ false toks hne hf).use ?_
  rintro _ i1 t1 e1 y1 ne1 l1 ⟨⟨g1, c1⟩, -⟩
  refine (expect_spec (by simp) t1).use ?_
  rintro _ i2 t2 e2 y2 ne2 l2 ⟨g2, c2, -⟩
  refine (expr_single_spec hr t2 (ne2 (ne1 hne)) (by omega)).use ?_
  rintro _ i3 t3 e3 y3 ne3 l3 p3
  simp
  refine Spec.done [.node ev .genericFor [] (i1 ++ i2 ++ i3)] (by simp) (by simp [y1, y2, y3])
    ⟨by simp [g1, g2, p3.good], ?_⟩
  simp
  intro hc1 hc2 hc3
  obtain ⟨t, h1, h2⟩ := p3.gp.2 hc3
  rcases c1 hc1 with ⟨h, _⟩ | ⟨tl, h3, h4 | ⟨h, _⟩⟩
  · simp at h
  · simp [toTreeL, toTree, c2 hc2, h1, h3]
    exact Deriv.genericFor _ _ h4.1 h2
  · simp at h

theorem numericFor_spec {r b} (hr : RecOK r b) (fuel toks) (hne : NE toks) (hf : toks.length < fuel)
    (hb : 2 * toks.length ≤ b) (hat : la toks = .ident) (hat1 : lookahead toks 1 = .eq) :
    Spec (numericFor r fuel) toks fun _ items toks' =>
      GP (fun ts => D .forContent [.node .forContent ts]) items := by
  obtain ⟨ts, rfl⟩ := lookahead_eq hat (by simp)
  obtain ⟨ts, rfl⟩ := lookahead_eq (toks := ts) (by simpa using hat1) (by simp)
  intro ev cur st
  simp at hne hf hb
  simp [numericFor, name]
  refine (expr_spec hr fuel ts hne (by omega) (by omega)).use ?_
  rintro _ i1 t1 e1 y1 ne1 l1 ⟨⟨bf, af, hi1, g1, c1⟩, -⟩
  simp
  refine Spec.done [.node ev .numericFor [] (.node (ev+1) .name [] [.tok .ident] :: .tok .eq :: i1)]
    (by simp) (by simp [y1]) ⟨by simp [g1, toTreeL, toTree], ?_⟩
  simp
  intro hc1
  obtain ⟨m, hm, dm, _⟩ := c1 hc1
  simp [toTreeL, toTree, hm]
  exact Deriv.numericFor _ dm

theorem forContent_spec {r b} (hr : RecOK r b) (fuel toks) (hne : NE toks) (hf : toks.length < fuel)
    (hb : 2 * toks.length + 1 ≤ b) :
    Spec (forContent r fuel) toks fun _ items toks' =>
      GP (fun ts => ∃ c, ts = [c] ∧ D .forContent [c]) items := by
  intro ev cur st
  simp only [forContent, wpF_bind, wpF_start, wpF_atK, wpF_ite, wpF_nth, wpF_error]
  refine ⟨fun h => ⟨fun h2 => ?_, fun h2 => ?_⟩, fun h => ?_⟩
  · refine (numericFor_spec hr fuel toks hne hf (by omega) (by simpa using h) (by simpa using h2)).use ?_
    rintro _ i1 t1 e1 y1 ne1 l1 ⟨g1, c1⟩
    simp
    refine Spec.done [.node ev .forContent [] i1] (by simp) (by simp [y1]) ⟨by simp [g1], ?_⟩
    simp
    intro hc
    simpa [toTreeL, toTree] using c1 hc
  · refine (genericFor_spec hr fuel toks hne hf hb (by simpa using h)).use ?_
    rintro _ i1 t1 e1 y1 ne1 l1 ⟨g1, c1⟩
    simp
    refine Spec.done [.node ev .forContent [] i1] (by simp) (by simp [y1]) ⟨by simp [g1], ?_⟩
    simp
    intro hc
    simpa [toTreeL, toTree] using c1 hc
  · simp
    exact Spec.done [.node ev .forContent [] [.err _]] rfl (by simp) ⟨by simp, by simp⟩

theorem forStmt_spec {r b} (hr : RecOK r b) (fuel toks) (hne : NE toks)
    (hf : toks.length ≤ fuel) (hb : 2 * toks.length ≤ b) (hat : la toks = .forKw) :
    Spec (forStmt r fuel) toks fun _ => PStmt toks := by
  obtain ⟨ts, rfl⟩ := lookahead_eq hat (by simp)
  intro ev cur st
  simp at hne hb hf
  simp only [forStmt, wpF_bind, wpF_start, wpF_bump]
  refine ⟨by simp, ?_⟩
  refine (forContent_spec hr fuel ts hne (by omega) (by omega)).use ?_
  rintro _ i1 t1 e1 y1 ne1 l1 ⟨g1, c1⟩
  refine (expect_spec (by simp) t1).use ?_
  rintro _ i2 t2 e2 y2 ne2 l2 ⟨g2, c2, -⟩
  have hne2 := ne2 (ne1 hne)
  refine (hr.block t2 hne2 (by omega)).use ?_
  rintro _ i3 t3 e3 y3 ne3 l3 p3
  refine (expect_spec (by simp) t3).use ?_
  rintro _ i5 t5 e5 y5 ne5 l5 ⟨g5, c5, -⟩
  simp
  refine Spec.done [.node ev .forStmt [] (.tok .forKw :: (i1 ++ i2 ++ i3 ++ i5))]
    (by simp) (by simp [y1, y2, y3, y5])
    ⟨⟨by simp [g1, g2, p3.good.1, g5], ?_⟩, by lomega⟩
  simp
  intro hc1 hc2 hc3 hc5
  obtain ⟨t, h1, h2⟩ := c1 hc1
  obtain ⟨b', hb', d3⟩ := p3.good.2 hc3
  refine ⟨_, by simp [toTreeL, toTree, hb', h1, c2 hc2, c5 hc5] <;> rfl,
    Deriv.forStmt _ _ h2 d3, mayFollow_of_not_callable ?_ (by simp)⟩
  simp [endsCallable, endsInExpr, callableKinds]

theorem repeatUntilStmt_spec {r b} (hr : RecOK r b) (toks) (hne : NE toks)
    (hb : 2 * toks.length ≤ b) (hat : la toks = .repeatKw) :
    Spec (repeatUntilStmt r) toks fun _ => PStmt toks := by
  obtain ⟨ts, rfl⟩ := lookahead_eq hat (by simp)
  intro ev cur st
  simp at hne hb
  simp only [repeatUntilStmt, wpF_bind, wpF_start, wpF_bump]
  refine ⟨by simp, ?_⟩
  refine (hr.block ts hne (by omega)).use ?_
  rintro _ i1 t1 e1 y1 ne1 l1 p1
  refine (expect_spec (by simp) t1).use ?_
  rintro _ i2 t2 e2 y2 ne2 l2 ⟨g2, c2, -⟩
  refine (expr_single_spec hr t2 (ne2 (ne1 hne)) (by omega)).use ?_
  rintro _ i3 t3 e3 y3 ne3 l3 p3
  simp
  refine Spec.done [.node ev .repeatUntilStmt [] (.tok .repeatKw :: (i1 ++ i2 ++ i3))]
    (by simp) (by simp [y1, y2, y3])
    ⟨⟨by simp [p1.good.1, g2, p3.good], ?_⟩, by lomega⟩
  simp
  intro hc1 hc2 hc3
  obtain ⟨b', hb', d1⟩ := p1.good.2 hc1
  obtain ⟨t, h1, h2, h3, h4, h5⟩ := p3.expr hc3
  refine ⟨_, by simp [toTreeL, toTree, hb', h1, c2 hc2] <;> rfl, Deriv.repeat _ _ d1 h2, ?_⟩
  refine ⟨fun hk => ?_, by simp⟩
  simp only [endsCallable, endsInExpr, List.mem_cons]
  simp [endsCallableL]
  cases hcon : endsCallable t with
  | false => rfl
  | true => exact absurd hk (h4.2.2.2 hcon).2.1

theorem breakStmt_spec (toks) (hat : la toks = .breakKw) :
    Spec breakStmt toks fun _ => PStmt toks := by
  obtain ⟨ts, rfl⟩ := lookahead_eq hat (by simp)
  intro ev cur st
  simp [breakStmt]
  refine Spec.done [.node ev .breakStmt [] [.tok .breakKw]] rfl (by simp)
    ⟨⟨by simp, fun _ => ⟨_, rfl, ?_, ?_⟩⟩, by lomega⟩
  · simpa [toTree, toTreeL] using Deriv.break
  · refine mayFollow_of_not_callable ?_ (by simp)
    simp [endsCallable, endsInExpr, callableKinds]

theorem localFunctionDefStmt_spec {r b} (hr : RecOK r b) (fuel toks) (hne : NE toks)
    (hf : toks.length ≤ fuel) (hb : 2 * toks.length ≤ b) (hat : la toks = .localKw) :
    Spec (localFunctionDefStmt r fuel) toks fun _ => PStmt toks := by
  obtain ⟨ts, rfl⟩ := lookahead_eq hat (by simp)
  intro ev cur st
  simp at hne hb hf
  simp only [localFunctionDefStmt, wpF_bind, wpF_start, wpF_bump]
  refine ⟨by simp, ?_⟩
  refine (expect_spec (by simp) ts).use ?_
  rintro _ i1 t1 e1 y1 ne1 l1 ⟨g1, c1, -⟩
  refine (nameR_spec _ t1 (ne1 hne)).use ?_
  rintro _ i2 t2 e2 y2 ne2 l2 ⟨g2, c2⟩
  have hne2 := ne2 (ne1 hne)
  refine (paramList_spec fuel t2 hne2 (by omega)).use ?_
  rintro a3 i3 t3 e3 y3 ne3 l3 ⟨bf, af, hi3, g3, c3⟩
  refine (hr.block t3 (ne3 hne2) (by omega)).use ?_
  rintro _ i4 t4 e4 y4 ne4 l4 p4
  refine (expect_spec (by simp) t4).use ?_
  rintro _ i5 t5 e5 y5 ne5 l5 ⟨g5, c5, -⟩
  simp
  refine Spec.done [.node ev .localFunctionDefStmt [] (.tok .localKw :: (i1 ++ i2 ++ i3 ++ i4 ++ i5))]
    (by simp) (by simp [y1, y2, y3, y4, y5])
    ⟨⟨by simp [g1, g2, g3, p4.good.1, g5], ?_⟩, by lomega⟩
  simp
  intro hc1 hc2 hc3 hc4 hc5
  have d3 := c3 hc3
  obtain ⟨b', hb', d4⟩ := p4.good.2 hc4
  rw [hi3] at d3 ⊢
  refine ⟨_, by simp [toTreeL, toTree, hb', c1 hc1, c2 hc2, c5 hc5] <;> rfl,
    Deriv.localFunction _ _ (by simpa [toTreeL, toTree] using d3) d4,
    mayFollow_of_not_callable ?_ (by simp)⟩
  simp [endsCallable, endsInExpr, callableKinds]

theorem endsCallable_last {k : SyntaxKind} {cs : List PTree} {m} (hk : k ∈ endsInExpr) :
    endsCallable (.node k (cs ++ [m])) = endsCallable m := by
  simp only [endsCallable, hk, if_true]
  induction cs with
  | nil => simp [endsCallableL]
  | cons x xs ih =>
    cases h : xs ++ [m] with
    | nil => simp at h
    | cons y ys => simp [h, endsCallableL] at ih ⊢; exact ih

theorem mayFollow_of_last {k cs m q} (hk : k ∈ endsInExpr) (hm : followL [m] q)
    (hr : k = .returnStmt → cs ++ [m] ≠ [.tok .returnKw]) :
    mayFollow (.node k (cs ++ [m])) q := by
  refine ⟨fun h => ?_, fun h => ?_⟩
  · rw [endsCallable_last hk]
    cases hcon : endsCallable m with
    | false => rfl
    | true => exact absurd h (hm.2.2 (by simpa [endsCallableL] using hcon)).2.1
  · simp only [PTree.node.injEq] at h
    exact absurd h.2 (hr h.1)

theorem localAssignStmt_spec {r b} (hr : RecOK r b) (fuel toks) (hne : NE toks)
    (hf : toks.length ≤ fuel) (hb : 2 * toks.length ≤ b) (hat : la toks = .localKw) :
    Spec (localAssignStmt r fuel) toks fun _ => PStmt toks := by
  obtain ⟨ts, rfl⟩ := lookahead_eq hat (by simp)
  intro ev cur st
  simp at hne hb hf
  simp only [localAssignStmt, wpF_bind, wpF_start, wpF_bump]
  refine ⟨by simp, ?_⟩
  refine (multiNameR_spec fuel _ false ts hne (by omega)).use ?_
  rintro _ i1 t1 e1 y1 ne1 l1 ⟨⟨g1, c1⟩, -⟩
  simp only [wpF_accept]
  refine ⟨fun h => ⟨by simp, ?_⟩, fun h => ?_⟩
  · obtain ⟨t2, rfl⟩ := lookahead_eq (by simpa using h) (by simp)
    have hne2 : NE t2 := by have := ne1 hne; simp at this; exact this
    simp only [wpF_ite, wpF_bind, if_true, List.tail_cons, lookahead_cons]
    refine (expr_spec hr fuel t2 hne2 (by lomega) (by lomega)).use ?_
    rintro _ i2 t3 e2 y2 ne2 l2 ⟨⟨bf, af, hi1, g2, c2⟩, -⟩
    simp
    refine Spec.done [.node ev .localAssignStmt [] (.tok .localKw :: (i1 ++ .tok .eq :: i2))]
      (by simp) (by simp [y1, y2]) ⟨⟨by simp [g1, g2], ?_⟩, by lomega⟩
    simp
    intro hc1 hc2
    obtain ⟨m, hm, dm, fm, _⟩ := c2 hc2
    rcases c1 hc1 with ⟨h, _⟩ | ⟨tl, h3, h4 | ⟨h, _⟩⟩
    · simp at h
    · refine ⟨_, by simp [toTreeL, toTree, hm, h3] <;> rfl, Deriv.localAssign _ _ h4.1 dm, ?_⟩
      exact mayFollow_of_last (cs := [_, _, _]) (by simp [endsInExpr]) fm (by simp)
    · simp at h
  · simp
    refine Spec.done [.node ev .localAssignStmt [] (.tok .localKw :: i1)]
      (by simp) (by simp [y1]) ⟨⟨by simp [g1], ?_⟩, by lomega⟩
    simp
    intro hc1
    rcases c1 hc1 with ⟨h, _⟩ | ⟨tl, h3, h4 | ⟨h, _⟩⟩
    · simp at h
    · refine ⟨_, by simp [toTreeL, toTree, h3] <;> rfl, Deriv.localNames _ h4.1, ?_⟩
      refine mayFollow_of_not_callable ?_ (by simp)
      simp [endsCallable, endsInExpr, callableKinds, endsCallableL]
    · simp at h

theorem localStmt_spec {r b} (hr : RecOK r b) (fuel toks) (hne : NE toks)
    (hf : toks.length ≤ fuel) (hb : 2 * toks.length ≤ b) (hat : la toks = .localKw) :
    Spec (localStmt r fuel) toks fun _ => PStmt toks := by
  intro ev cur st
  simp only [localStmt, wpF_bind, wpF_nth, wpF_ite]
  exact ⟨fun _ => localFunctionDefStmt_spec hr fuel toks hne hf hb hat ev cur st,
    fun _ => localAssignStmt_spec hr fuel toks hne hf hb hat ev cur st⟩

theorem yieldL_head_of {toks t1 : List SyntaxKind} {i1 : List Item} {m : PTree} {k}
    (y : toks = yld i1 ++ t1) (hl : t1.length < toks.length) (hm : toTreeL i1 = [m])
    (hk : la toks = k) : (yield m).head? = some k := by
  have : yld i1 = yield m := by simp [yld, hm, yieldL]
  rw [this] at y
  cases hy : yield m with
  | nil => simp [hy] at y; subst y; omega
  | cons a as => simp [hy] at y; subst y; simp at hk; simp [hk]

theorem exprStmt_spec {r b} (hr : RecOK r b) (fuel toks) (hne : NE toks)
    (hf : toks.length < fuel) (hb : 2 * toks.length + 1 ≤ b)
    (hat : la toks = .ident ∨ la toks = .lParen) :
    Spec (exprStmt r fuel) toks fun _ => PStmt toks := by
  intro ev cur st
  simp only [exprStmt, wpF_bind, wpF_start]
  refine (expr_spec hr fuel toks hne hf hb).use ?_
  rintro _ i1 t1 e1 y1 ne1 l1 ⟨⟨bf1, af1, hi1, g1, c1⟩, p1⟩
  have hlt : t1.length < toks.length := by
    apply p1; rcases hat with h | h <;> simp [h, exprFirst]
  have hst : ∀ m, toTreeL i1 = [m] → startsStmt m := by
    intro m hm
    rcases hat with h | h
    · exact Or.inl (yieldL_head_of y1 hlt hm h)
    · exact Or.inr (yieldL_head_of y1 hlt hm h)
  simp only [wpF_accept]
  refine ⟨fun h => ⟨by simp, ?_⟩, fun h => ?_⟩
  · obtain ⟨t2, rfl⟩ := lookahead_eq (by simpa using h) (by simp)
    have hne2 : NE t2 := by have := ne1 hne; simp at this; exact this
    simp only [wpF_ite, wpF_bind, if_true, List.tail_cons, lookahead_cons]
    refine (expr_spec hr fuel t2 hne2 (by lomega) (by lomega)).use ?_
    rintro _ i2 t3 e2 y2 ne2 l2 ⟨⟨bf, af, hi2, g2, c2⟩, -⟩
    simp
    refine Spec.done [.node ev .assignStmt [] (i1 ++ .tok .eq :: i2)]
      (by simp) (by simp [y1, y2]) ⟨⟨by simp [g1, g2], ?_⟩, by lomega⟩
    simp
    intro hc1 hc2
    obtain ⟨m1, hm1, dm1, fm1, _⟩ := c1 hc1
    obtain ⟨m, hm, dm, fm, _⟩ := c2 hc2
    refine ⟨_, by simp [toTreeL, toTree, hm, hm1] <;> rfl, Deriv.assign _ _ dm1 (hst _ hm1) dm, ?_⟩
    exact mayFollow_of_last (cs := [_, _]) (by simp [endsInExpr]) fm (by simp)
  · simp
    refine Spec.done [.node ev .exprStmt [] i1]
      (by simp) (by simp [y1]) ⟨⟨by simp [g1], ?_⟩, by lomega⟩
    simp
    intro hc1
    obtain ⟨m1, hm1, dm1, fm1, _⟩ := c1 hc1
    refine ⟨_, by simp [toTreeL, toTree, hm1] <;> rfl, Deriv.exprStmt _ dm1 (hst _ hm1), ?_⟩
    exact mayFollow_of_last (cs := []) (by simp [endsInExpr]) fm1 (by simp)

/-- the tail of an `IndexPath` -/
def PathTailR (toks' : List SyntaxKind) (ts : List PTree) : Prop :=
  D .pathTail ts ∨ (lookahead toks' 1 = .lParen ∧ ∃ ts', D .pathTail ts' ∧ ts = ts' ++ [.tok .dot])

theorem indexPathLoop_spec : ∀ n toks, NE toks → toks.length < n →
    Spec (indexPathLoop n) toks fun _ items toks' => GP (PathTailR toks') items := by
  intro n
  induction n with
  | zero => intro toks _ h; omega
  | succ n ih =>
    intro toks hne hlen ev cur st
    simp only [indexPathLoop, wpF_bind, wpF_atK, wpF_ite, wpF_pure]
    refine ⟨fun h => ?_, fun h => ⟨fun h2 => ?_, fun h2 => ?_⟩⟩
    · exact Spec.done [] rfl (by simp) ⟨by simp, fun _ => Or.inl (by simpa [toTreeL] using Deriv.pathNil)⟩
    · obtain ⟨ts, rfl⟩ := lookahead_eq (by simpa using h2) (by simp)
      simp at hne hlen
      simp only [wpF_bump, wpF_nth, wpF_ite, wpF_bind, wpF_pure]
      refine ⟨by simp, fun h3 => ?_, fun h3 => ?_⟩
      · refine Spec.done [.tok .dot] rfl (by simp) ⟨by simp, fun _ => Or.inr ⟨by simpa using h3, [],
          Deriv.pathNil, by simp [toTreeL, toTree]⟩⟩
      · refine (nameRefR_spec _ ts hne).use ?_
        rintro _ i1 t1 e1 y1 ne1 l1 ⟨g1, c1⟩
        refine (ih t1 (ne1 hne) (by omega)).use ?_
        rintro _ i2 t2 e2 y2 ne2 l2 ⟨g2, c2⟩
        refine Spec.done (.tok .dot :: (i1 ++ i2)) (by simp) (by simp [y1, y2]) ⟨by simp [g1, g2], ?_⟩
        simp
        intro hc1 hc2
        simp [toTreeL, toTree, c1 hc1]
        rcases c2 hc2 with h | ⟨h, ts', d, he⟩
        · exact Or.inl (Deriv.pathCons _ h)
        · exact Or.inr ⟨h, _, Deriv.pathCons _ d, by simp [he]⟩
    · exact Spec.done [] rfl (by simp) ⟨by simp, fun _ => Or.inl (by simpa [toTreeL] using Deriv.pathNil)⟩

theorem indexPath_spec (fuel toks) (hne : NE toks) (hf : toks.length < fuel) :
    Spec (indexPath fuel) toks fun a items toks' => NP .indexPath (fun ts =>
      ∃ tl, ts = [.node .indexPath (nameRefT :: tl)] ∧ PathTailR toks' tl) a items := by
  intro ev cur st
  simp only [indexPath, wpF_bind, wpF_start]
  refine (nameRefR_spec _ toks hne).use ?_
  rintro _ i1 t1 e1 y1 ne1 l1 ⟨g1, c1⟩
  refine (indexPathLoop_spec fuel t1 (ne1 hne) (by omega)).use ?_
  rintro _ i2 t2 e2 y2 ne2 l2 ⟨g2, c2⟩
  simp
  refine Spec.done [.node ev .indexPath [] (i1 ++ i2)] (by simp) (by simp [y1, y2])
    ⟨_, _, rfl, by simp [g1, g2], ?_⟩
  simp
  intro hc1 hc2
  exact ⟨_, by simp [toTreeL, toTree, c1 hc1], c2 hc2⟩

theorem functionDefContent_spec (fuel toks) (hne : NE toks) (hf : toks.length < fuel) :
    Spec (functionDefContent fuel) toks fun _ items toks' =>
      GP (fun ts => ∃ n, ts = [n] ∧ D .funcName [n]) items := by
  intro ev cur st
  simp only [functionDefContent, wpF_bind, wpF_start, wpF_atK, wpF_nth, wpF_ite]
  refine ⟨fun h => ?_, fun h => ?_⟩
  · refine (nameR_spec _ toks hne).use ?_
    rintro _ i1 t1 e1 y1 ne1 l1 ⟨g1, c1⟩
    simp
    refine Spec.done [.node ev .functionDefContent [] i1] (by simp) (by simp [y1])
      ⟨by simp [g1], ?_⟩
    simp
    intro hc
    exact ⟨_, by simp [toTreeL, toTree, c1 hc] <;> rfl, Deriv.plainName⟩
  · refine (indexPath_spec fuel toks hne hf).use ?_
    rintro a1 i1 t1 e1 y1 ne1 l1 ⟨bf, af, rfl, g1, c1⟩
    simp only [List.reverse_cons, List.reverse_nil, List.nil_append, List.singleton_append,
      wpF_precede_head]
    refine ⟨fun h2 => ?_, fun h2 => ?_⟩
    · obtain ⟨t2, rfl⟩ := lookahead_eq (by simpa using h2) (by simp)
      have hne2 : NE t2 := by have := ne1 hne; simp at this; exact this
      simp only [wpF_bump]
      refine ⟨by simp, ?_⟩
      refine (nameR_spec _ t2 hne2).use ?_
      rintro _ i2 t3 e2 y2 ne2 l2 ⟨g2, c2⟩
      simp
      refine Spec.done [.node ev .functionDefContent [] [.node e1 .functionMethod
        [.node a1 .indexPath bf af] (.tok .colon :: i2)]] (by simp) (by simp at y1; simp [y1, y2]) ⟨?_, ?_⟩
      · simp at g1 ⊢; simp [g1, g2]
      · simp
        intro hb ha hc2
        obtain ⟨tl, h1, h3⟩ := c1 (by simp [hb, ha])
        simp [toTreeL, toTree] at h1
        simp [toTreeL, toTree, c2 hc2, h1]
        rcases h3 with h3 | ⟨h3, ts', d, he⟩
        · exact Deriv.methodName _ h3
        · -- after a dangling dot the next token is a name, not a colon
          exfalso
          have hy : yld i2 = [.ident] := by simp [yld, c2 hc2, yieldL, PTree.yield]
          rw [y2, hy] at h3
          simp at h3
    · refine (nameR_spec _ t1 (ne1 hne)).use ?_
      rintro _ i2 t3 e2 y2 ne2 l2 ⟨g2, c2⟩
      simp
      refine Spec.done [.node ev .functionDefContent [] [.node e1 .functionStatic
        [.node a1 .indexPath bf af] i2]] (by simp) (by simp at y1; simp [y1, y2]) ⟨?_, ?_⟩
      · simp at g1 ⊢; simp [g1, g2]
      · simp
        intro hb ha hc2
        obtain ⟨tl, h1, h3⟩ := c1 (by simp [hb, ha])
        simp [toTreeL, toTree] at h1
        simp [toTreeL, toTree, c2 hc2, h1]
        rcases h3 with h3 | ⟨h3, ts', d, he⟩
        · exact Deriv.staticNoDot _ rfl h3
        · rw [he]; exact Deriv.staticName _ d

theorem functionDefStmt_spec {r b} (hr : RecOK r b) (fuel toks) (hne : NE toks)
    (hf : toks.length < fuel) (hb : 2 * toks.length ≤ b) (hat : la toks = .functionKw) :
    Spec (functionDefStmt r fuel) toks fun _ => PStmt toks := by
  intro ev cur st
  simp only [functionDefStmt, wpF_bind, wpF_start]
  refine (expect_spec (by simp) toks).use ?_
  rintro _ i1 t1 e1 y1 ne1 l1 ⟨g1, c1, p1⟩
  have hlt := p1 hat
  refine (functionDefContent_spec fuel t1 (ne1 hne) (by omega)).use ?_
  rintro _ i2 t2 e2 y2 ne2 l2 ⟨g2, c2⟩
  have hne2 := ne2 (ne1 hne)
  refine (paramList_spec fuel t2 hne2 (by omega)).use ?_
  rintro a3 i3 t3 e3 y3 ne3 l3 ⟨bf, af, hi3, g3, c3⟩
  refine (hr.block t3 (ne3 hne2) (by omega)).use ?_
  rintro _ i4 t4 e4 y4 ne4 l4 p4
  refine (expect_spec (by simp) t4).use ?_
  rintro _ i5 t5 e5 y5 ne5 l5 ⟨g5, c5, -⟩
  simp
  refine Spec.done [.node ev .functionDefStmt [] (i1 ++ i2 ++ i3 ++ i4 ++ i5)]
    (by simp) (by simp [y1, y2, y3, y4, y5])
    ⟨⟨by simp [g1, g2, g3, p4.good.1, g5], ?_⟩, by omega⟩
  simp
  intro hc1 hc2 hc3 hc4 hc5
  have d3 := c3 hc3
  obtain ⟨b', hb', d4⟩ := p4.good.2 hc4
  obtain ⟨n, hn, d2⟩ := c2 hc2
  rw [hi3] at d3 ⊢
  refine ⟨_, by simp [toTreeL, toTree, hb', c1 hc1, hn, c5 hc5] <;> rfl,
    Deriv.function_ _ _ _ d2 (by simpa [toTreeL, toTree] using d3) d4,
    mayFollow_of_not_callable ?_ (by simp)⟩
  simp [endsCallable, endsInExpr, callableKinds]

theorem doStmt_spec {r b} (hr : RecOK r b) (toks) (hne : NE toks)
    (hb : 2 * toks.length ≤ b) (hat : la toks = .doKw) :
    Spec (doStmt r) toks fun _ => PStmt toks := by
  obtain ⟨ts, rfl⟩ := lookahead_eq hat (by simp)
  intro ev cur st
  simp at hne hb
  simp only [doStmt, wpF_bind, wpF_start, wpF_bump]
  refine ⟨by simp, ?_⟩
  refine (hr.block ts hne (by omega)).use ?_
  rintro _ i3 t3 e3 y3 ne3 l3 p3
  refine (expect_spec (by simp) t3).use ?_
  rintro _ i5 t5 e5 y5 ne5 l5 ⟨g5, c5, -⟩
  simp
  refine Spec.done [.node ev .doStmt [] (.tok .doKw :: (i3 ++ i5))]
    (by simp) (by simp [y3, y5]) ⟨⟨by simp [p3.good.1, g5], ?_⟩, by lomega⟩
  simp
  intro hc3 hc5
  obtain ⟨b', hb', d3⟩ := p3.good.2 hc3
  refine ⟨_, by simp [toTreeL, toTree, hb', c5 hc5] <;> rfl,
    Deriv.doStmt _ d3, mayFollow_of_not_callable ?_ (by simp)⟩
  simp [endsCallable, endsInExpr, callableKinds]

theorem returnStmt_spec {r b} (hr : RecOK r b) (fuel toks) (hne : NE toks)
    (hf : toks.length ≤ fuel) (hb : 2 * toks.length ≤ b) (hat : la toks = .returnKw) :
    Spec (returnStmt r fuel) toks fun _ => PStmt toks := by
  obtain ⟨ts, rfl⟩ := lookahead_eq hat (by simp)
  intro ev cur st
  simp at hne hb hf
  simp only [returnStmt, wpF_bind, wpF_start, wpF_bump, wpF_atTs, wpF_ite, contains_EXPR_FIRST]
  refine ⟨by simp, fun h => ?_, fun h => ?_⟩
  · refine (expr_spec hr fuel ts hne (by lomega) (by lomega)).use ?_
    rintro _ i2 t3 e2 y2 ne2 l2 ⟨⟨bf, af, hi2, g2, c2⟩, -⟩
    simp
    refine Spec.done [.node ev .returnStmt [] (.tok .returnKw :: i2)]
      (by simp) (by simp [y2]) ⟨⟨by simp [g2], ?_⟩, by lomega⟩
    simp
    intro hc2
    obtain ⟨m, hm, dm, fm, _, hk⟩ := c2 hc2
    refine ⟨_, by simp [toTreeL, toTree, hm] <;> rfl, Deriv.return _ dm, ?_⟩
    exact mayFollow_of_last (cs := [_]) (by simp [endsInExpr]) fm (by simp)
  · simp
    refine Spec.done [.node ev .returnStmt [] [.tok .returnKw]]
      (by simp) (by simp) ⟨⟨by simp, ?_⟩, by lomega⟩
    intro _
    refine ⟨_, rfl, by simpa [toTree, toTreeL] using Deriv.returnNone, ?_⟩
    refine ⟨fun _ => ?_, fun _ => by simpa using h⟩
    simp [endsCallable, endsInExpr, callableKinds, endsCallableL, toTree, toTreeL]

theorem stmtCore_spec {r b} (hr : RecOK r b) (fuel toks) (hne : NE toks)
    (hf : toks.length < fuel) (hb : 2 * toks.length + 1 ≤ b) (hat : la toks ≠ .eof) :
    Spec (stmtCore r fuel) toks fun _ => PStmt toks := by
  have bad : ∀ (msg) (h : la toks ≠ .endKw), Spec (errAndBump msg) toks fun _ => PStmt toks := by
    intro msg h
    refine (errAndBump_spec msg toks hne).mono ?_
    intro a items toks' y ⟨g, c, p⟩
    exact ⟨⟨g, fun hc => absurd hc c⟩, p hat h⟩
  have use : ∀ {α : Type} {p : Prog α}, Spec p toks (fun _ => PStmt toks) →
      ∀ {ev cur st}, wpF p ⟨toks, ev, cur, st⟩ fun _ s' => Post toks cur st (PStmt toks) s' :=
    fun {_ _} h {ev cur st} => h ev cur st
  intro ev cur st
  simp only [stmtCore, wpF_bind, wpF_current, wpF_ite, wpF_pure, beq_iff_eq]
  refine ⟨fun h => use (ifStmt_spec hr fuel toks hne (by omega) (by omega) h), fun _ => ?_⟩
  refine ⟨fun h => use (labelStmt_spec toks hne h), fun _ => ?_⟩
  refine ⟨fun h => use (gotoStmt_spec toks hne h), fun _ => ?_⟩
  refine ⟨fun h => use (localStmt_spec hr fuel toks hne (by omega) (by omega) h), fun _ => ?_⟩
  refine ⟨fun h => use (repeatUntilStmt_spec hr toks hne (by omega) h), fun _ => ?_⟩
  refine ⟨fun h => use (functionDefStmt_spec hr fuel toks hne (by omega) (by omega) h), fun _ => ?_⟩
  refine ⟨fun h => use (returnStmt_spec hr fuel toks hne (by omega) (by omega) h), fun _ => ?_⟩
  refine ⟨fun h => use (doStmt_spec hr toks hne (by omega) h), fun _ => ?_⟩
  refine ⟨fun h => use (whileStmt_spec hr toks hne (by omega) h), fun _ => ?_⟩
  refine ⟨fun h => use (forStmt_spec hr fuel toks hne (by omega) (by omega) h), fun _ => ?_⟩
  refine ⟨fun h => use (breakStmt_spec toks h), fun _ => ?_⟩
  refine ⟨fun h => use (exprStmt_spec hr fuel toks hne (by omega) (by omega) (Or.inl h)), fun _ => ?_⟩
  refine ⟨fun h => use (exprStmt_spec hr fuel toks hne (by omega) (by omega) (Or.inr h)), fun _ => ?_⟩
  refine ⟨fun h => use (bad _ (by simp [la] at h ⊢; simp [h])), fun _ => ?_⟩
  simp only [wpF_bind, wpF_atTs, wpF_ite, contains_LITERAL_FIRST]
  refine ⟨fun h => use (bad _ ?_), fun _ => ?_⟩
  · intro h'; simp [la] at h h'; simp [h', literalKinds] at h
  refine ⟨fun h => ?_, fun h => use (bad _ h)⟩
  obtain ⟨ts, rfl⟩ := lookahead_eq h (by simp)
  simp [unmatchedEnd]
  refine Spec.done [.errNode [.tok .endKw] (.message "Unmatched end token")] rfl (by simp)
    ⟨⟨?_, by simp⟩, by lomega⟩
  simp [goodL, toTreeL, toTree, shapedL, shaped, shapedToks]

/-- a statement with its optional semicolon, followed by further statements -/
def StmtSemiR (toks' : List SyntaxKind) (ts : List PTree) : Prop :=
  ∀ tl t'', D .stmts tl → toks' = yieldL tl ++ t'' → D .stmts (ts ++ tl)

theorem stmt_spec {r b} (hr : RecOK r b) (fuel toks) (hne : NE toks)
    (hf : toks.length < fuel) (hb : 2 * toks.length + 1 ≤ b) (hat : la toks ≠ .eof) :
    Spec (stmt r fuel) toks fun _ items toks' => GP (StmtSemiR toks') items ∧
      toks'.length < toks.length := by
  intro ev cur st
  simp only [stmt, wpF_bind]
  refine (stmtCore_spec hr fuel toks hne hf hb hat).use ?_
  rintro _ i1 t1 e1 y1 ne1 l1 ⟨⟨g1, c1⟩, p1⟩
  simp only [wpF_accept, wpF_pure]
  refine ⟨fun h => ⟨by simp, ?_⟩, fun h => ?_⟩
  · obtain ⟨t2, rfl⟩ := lookahead_eq (by simpa using h) (by simp)
    simp only [List.tail_cons, lookahead_cons]
    refine Spec.done (i1 ++ [.tok .semicolon]) (by simp) (by simp [y1]) ⟨⟨by simp [g1], ?_⟩, by lomega⟩
    simp
    intro hc tl t'' dl hy
    obtain ⟨s, hs, ds, _⟩ := c1 hc
    simp [toTreeL, toTree, hs]
    exact Deriv.stmtsSemi _ _ ds dl
  · refine Spec.done i1 (by simp) (by simp [y1]) ⟨⟨by simp [g1], ?_⟩, by lomega⟩
    intro hc tl t'' dl hy
    obtain ⟨s, hs, ds, hm⟩ := c1 hc
    simp [hs]
    refine Deriv.stmtsCons _ _ ds dl ?_
    intro k hk
    cases hyl : yieldL tl with
    | nil => simp [hyl] at hk
    | cons a as =>
      simp [hyl] at hk hy
      subst hk; subst hy
      simpa using hm

theorem blockLoop_spec {r b} (hr : RecOK r b) (fuel0) (es : TokenSet) (hes : es.contains .eof = true) :
    ∀ n toks, NE toks → toks.length < n → toks.length < fuel0 → 2 * toks.length + 1 ≤ b →
    Spec (blockLoop r fuel0 es n) toks fun _ items toks' => GP (D .stmts) items ∧
      es.contains (la toks') = true := by
  intro n
  induction n with
  | zero => intro toks _ h; omega
  | succ n ih =>
    intro toks hne hlen hf hb ev cur st
    simp only [blockLoop, wpF_bind, wpF_atTs, wpF_ite, wpF_pure]
    refine ⟨fun h => ?_, fun h => ?_⟩
    · have hat : la toks ≠ .eof := by
        intro h'; simp [la] at h'; simp [h', hes] at h
      refine (stmt_spec hr fuel0 toks hne hf hb hat).use ?_
      rintro _ i1 t1 e1 y1 ne1 l1 ⟨⟨g1, c1⟩, p1⟩
      refine (ih t1 (ne1 hne) (by omega) (by omega) (by omega)).use ?_
      rintro _ i2 t2 e2 y2 ne2 l2 ⟨⟨g2, c2⟩, h2⟩
      refine Spec.done (i1 ++ i2) (by simp) (by simp [y1, y2]) ⟨⟨by simp [g1, g2], ?_⟩, h2⟩
      simp
      intro hc1 hc2
      exact c1 hc1 _ t2 (c2 hc2) (by rw [y2]; rfl)
    · refine Spec.done [] rfl (by simp) ⟨⟨by simp, fun _ => by simpa [toTreeL] using Deriv.stmtsNil⟩, ?_⟩
      simpa using h

theorem blockRaw_spec {r b} (hr : RecOK r b) (fuel) (es : TokenSet) (hes : es.contains .eof = true)
    (toks) (hne : NE toks) (hf : toks.length < fuel) (hb : 2 * toks.length + 1 ≤ b) :
    Spec (blockRaw r fuel es) toks fun _ items toks' =>
      GP (fun ts => ∃ b, ts = [b] ∧ D .block [b]) items ∧ es.contains (la toks') = true ∧
      (∃ p af, items = [.node p .block [] af]) := by
  intro ev cur st
  simp only [blockRaw, wpF_bind, wpF_start]
  refine (blockLoop_spec hr fuel es hes fuel toks hne hf hf hb).use ?_
  rintro _ i1 t1 e1 y1 ne1 l1 ⟨⟨g1, c1⟩, p1⟩
  simp
  refine Spec.done [.node ev .block [] i1] (by simp) (by simp [y1]) ⟨⟨by simp [g1], ?_⟩, p1, _, _, rfl⟩
  simp
  intro hc
  exact ⟨_, by simp [toTreeL, toTree] <;> rfl, Deriv.block _ (c1 hc)⟩

theorem recN_ok : ∀ n, RecOK (recN n) n := by
  intro n
  induction n with
  | zero => exact ⟨fun _ _ _ _ h => by omega, fun _ _ h => by omega⟩
  | succ n ih =>
    refine ⟨fun toks m hne hm hb => ?_, fun toks hne hb => ?_⟩
    · exact exprBp_spec ih m hm n toks hne (by omega) (by omega)
    · refine (blockRaw_spec ih n BLOCK_END (by simp [BLOCK_END, TokenSet.contains_new]) toks hne
        (by omega) (by omega)).mono ?_
      intro a items toks' y ⟨g, h, _⟩
      refine ⟨g, ?_⟩
      simpa [BLOCK_END, TokenSet.contains_new] using h

theorem root_spec_of (toks) (hne : NE toks) (n : Nat) (hn : 2 * toks.length + 3 ≤ n) :
    Spec (root n) toks fun _ items toks' => toks' = [] ∧
      (∃ p q af, items = [.node p .sourceFile [] [.node q .block [] af]]) ∧
      GP (fun ts => ∃ t, ts = [t] ∧ Program .accepted t) items := by
  intro ev cur st
  simp only [root, rootBlock, wpF_bind, wpF_start]
  refine (blockRaw_spec (recN_ok _) n ROOT_END
    (by simp [ROOT_END, TokenSet.contains_new]) toks hne (by omega) (by omega)).use ?_
  rintro _ i1 t1 e1 y1 ne1 l1 ⟨⟨g1, c1⟩, h1, q, af, rfl⟩
  simp
  refine Spec.done [.node ev .sourceFile [] [.node q .block [] af]] (by simp) (by simpa using y1)
    ⟨?_, ⟨_, _, _, rfl⟩, ?_, ?_⟩
  · simp [ROOT_END, TokenSet.contains_new, la] at h1
    cases t1 with
    | nil => rfl
    | cons a as => simp at h1; have := ne1 hne; simp [h1] at this
  · simpa using g1
  · intro hc
    obtain ⟨b, hb, d⟩ := c1 (by simpa using hc)
    refine ⟨_, by simp [toTreeL, toTree] <;> rfl, b, ?_, d⟩
    simpa [toTreeL, toTree] using hb

theorem root_spec (toks) (hne : NE toks) :
    Spec (root (2 * toks.length + 3)) toks fun _ items toks' => toks' = [] ∧
      (∃ p q af, items = [.node p .sourceFile [] [.node q .block [] af]]) ∧
      GP (fun ts => ∃ t, ts = [t] ∧ Program .accepted t) items := root_spec_of toks hne _ (Nat.le_refl _)

end Verif
