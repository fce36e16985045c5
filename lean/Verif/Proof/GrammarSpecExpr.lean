import Verif.Proof.GrammarSpec

/-
Specifications of the expression grammar.
-/
set_option linter.unusedSimpArgs false
set_option linter.unusedVariables false
namespace Verif
open Item PTree Lua
open P Grammar

theorem tableExpr_spec {r b} (hr : RecOK r b) (fuel toks) (hne : NE toks) (hf : toks.length ≤ fuel)
    (hb : 2 * toks.length ≤ b) (hat : la toks = .lBrace) :
    Spec (tableExpr r fuel) toks fun a items toks' =>
      NP .tableExpr (fun ts => ∃ tl, D .tableItems tl ∧
        ts = [.node .tableExpr (.tok .lBrace :: (tl ++ [.tok .rBrace]))]) a items ∧
      toks'.length < toks.length := by
  obtain ⟨ts, rfl⟩ := lookahead_eq hat (by simp)
  intro ev cur st
  simp at hne hb hf
  simp only [tableExpr, wpF_bind, wpF_start, wpF_bump]
  refine ⟨by simp, ?_⟩
  refine (tableLoop_spec hr fuel fuel ts hne (by omega) (by omega) (by omega)).use ?_
  rintro _ i1 t1 e1 y1 ne1 l1 ⟨⟨g1, c1⟩, -⟩
  refine (expect_spec (by simp) t1).use ?_
  rintro _ i2 t2 e2 y2 ne2 l2 ⟨g2, c2, -⟩
  simp
  refine Spec.done [.node ev .tableExpr [] (.tok .lBrace :: (i1 ++ i2))] (by simp) (by simp [y1, y2])
    ⟨⟨_, _, rfl, by simp [g1, g2], ?_⟩, by lomega⟩
  simp
  intro hc1 hc2
  exact ⟨_, c1 hc1, by simp [toTreeL, toTree, c2 hc2]⟩

theorem functionExpr_spec {r b} (hr : RecOK r b) (fuel toks) (hne : NE toks)
    (hf : toks.length ≤ fuel) (hb : 2 * toks.length ≤ b) (hat : la toks = .functionKw) :
    Spec (functionExpr r fuel) toks fun a items toks' =>
      NP .functionExpr (fun ts => ∃ p b, D .params [p] ∧ D .block [b] ∧
        ts = [.node .functionExpr [.tok .functionKw, p, b, .tok .endKw]]) a items ∧
      toks'.length < toks.length := by
  obtain ⟨ts, rfl⟩ := lookahead_eq hat (by simp)
  intro ev cur st
  simp at hne hb hf
  simp only [functionExpr, wpF_bind, wpF_start, wpF_bump]
  refine ⟨by simp, ?_⟩
  refine (paramList_spec fuel ts hne (by omega)).use ?_
  rintro a1 i1 t1 e1 y1 ne1 l1 ⟨bf1, af1, hi1, g1, c1⟩
  refine (hr.block t1 (ne1 hne) (by omega)).use ?_
  rintro _ i2 t2 e2 y2 ne2 l2 p2
  refine (expect_spec (by simp) t2).use ?_
  rintro _ i3 t3 e3 y3 ne3 l3 ⟨g3, c3, -⟩
  simp
  refine Spec.done [.node ev .functionExpr [] (.tok .functionKw :: (i1 ++ i2 ++ i3))] (by simp)
    (by simp [y1, y2, y3]) ⟨⟨_, _, rfl, by simp [g1, p2.good.1, g3], ?_⟩, by lomega⟩
  simp
  intro hc1 hc2 hc3
  have d1 := c1 hc1
  obtain ⟨b', hb', d2⟩ := p2.good.2 hc2
  rw [hi1] at d1 ⊢
  exact ⟨_, d1, _, d2, by simp [toTreeL, toTree, c3 hc3, hb']⟩

theorem argList_spec {r b} (hr : RecOK r b) (fuel toks) (hne : NE toks) (hf : toks.length ≤ fuel)
    (hb : 2 * toks.length ≤ b) (hat : la toks = .lParen) :
    Spec (argList r fuel) toks fun a items toks' =>
      NP .argList (fun ts => D .callArgs [.node .callArgs ts]) a items ∧
      toks'.length < toks.length := by
  obtain ⟨ts, rfl⟩ := lookahead_eq hat (by simp)
  intro ev cur st
  simp at hne hb hf
  simp only [argList, wpF_bind, wpF_start, wpF_bump, wpF_ite, wpF_atK]
  refine ⟨by simp, fun h => ?_, fun h => ?_⟩
  · refine (expr_spec hr fuel ts hne (by omega) (by omega)).use ?_
    rintro a1 i1 t1 e1 y1 ne1 l1 ⟨⟨bf1, af1, hi1, g1, c1⟩, -⟩
    refine (expect_spec (by simp) t1).use ?_
    rintro _ i3 t3 e3 y3 ne3 l3 ⟨g3, c3, -⟩
    simp
    refine Spec.done [.node ev .argList [] (.tok .lParen :: (i1 ++ i3))] (by simp)
      (by simp [y1, y3]) ⟨⟨_, _, rfl, by simp [g1, g3], ?_⟩, by lomega⟩
    simp
    intro hc1 hc3
    obtain ⟨m, hm, dm, _⟩ := c1 hc1
    simp [toTreeL, toTree, c3 hc3, hm]
    exact Deriv.args _ dm
  · refine (expect_spec (by simp) ts).use ?_
    rintro _ i3 t3 e3 y3 ne3 l3 ⟨g3, c3, -⟩
    simp
    refine Spec.done [.node ev .argList [] (.tok .lParen :: i3)] (by simp)
      (by simp [y3]) ⟨⟨_, _, rfl, by simp [g3], ?_⟩, by lomega⟩
    simp
    intro hc3
    simp [toTreeL, toTree, c3 hc3]
    exact Deriv.argsEmpty

theorem callArgs_spec {r b} (hr : RecOK r b) (fuel toks) (hne : NE toks) (hf : toks.length ≤ fuel)
    (hb : 2 * toks.length ≤ b) (hat : la toks ∈ [SyntaxKind.lBrace, .lParen, .str]) :
    Spec (callArgs r fuel) toks fun a items toks' =>
      NP .callArgs (D .callArgs) a items ∧ toks'.length < toks.length := by
  intro ev cur st
  simp only [callArgs, wpF_bind, wpF_start, wpF_ite, wpF_atTs, contains_CALL_FIRST, wpF_panic]
  refine ⟨by simp [hat], fun _ => ?_⟩
  simp only [wpF_bind, wpF_start, wpF_ite, wpF_current, wpF_panic]
  refine ⟨fun h => ?_, fun h => ⟨fun h2 => ?_, fun h2 => ⟨fun h3 => ?_, fun h3 => ?_⟩⟩⟩
  · refine (argList_spec hr fuel toks hne hf hb (by simpa using h)).use ?_
    rintro a1 i1 t1 e1 y1 ne1 l1 ⟨⟨bf1, af1, hi1, g1, c1⟩, p1⟩
    simp
    refine Spec.done [.node ev .callArgs [] i1] (by simp) (by simp [y1])
      ⟨⟨_, _, rfl, by simp [g1], ?_⟩, by lomega⟩
    simp
    intro hc
    simpa [toTreeL, toTree] using c1 hc
  · refine (tableExpr_spec hr fuel toks hne hf hb (by simpa using h2)).use ?_
    rintro a1 i1 t1 e1 y1 ne1 l1 ⟨⟨bf1, af1, hi1, g1, c1⟩, p1⟩
    simp
    refine Spec.done [.node ev .callArgs [] i1] (by simp) (by simp [y1])
      ⟨⟨_, _, rfl, by simp [g1], ?_⟩, by lomega⟩
    simp
    intro hc
    obtain ⟨tl, d, e⟩ := c1 hc
    simp [toTreeL, toTree, e]
    exact Deriv.argsTable _ d
  · obtain ⟨ts, rfl⟩ := lookahead_eq (by simpa using h3) (by simp)
    simp
    refine Spec.done [.node ev .callArgs [] [.tok .str]] (by simp) (by simp)
      ⟨⟨_, _, rfl, by simp, ?_⟩, by simp⟩
    simp [toTreeL, toTree]
    exact Deriv.argsStr
  · simp at h h2 h3 hat; grind

/-- Specification of a function that wraps the node completed last. -/
def SpecL (p : Prog Nat) (i0 : Item) (toks : List SyntaxKind)
    (P : Item → List SyntaxKind → Prop) : Prop :=
  ∀ ev cur st, wpF p ⟨toks, ev, i0 :: cur, st⟩ fun a s' => ∃ k bf af toks' ev',
    s' = ⟨toks', ev', .node a k bf af :: cur, st⟩ ∧
    yld [i0] ++ toks = yld [.node a k bf af] ++ toks' ∧ P (.node a k bf af) toks'

/-- a complete expression without operators around it; `cc`: it can be called -/
def PF (cc : Bool) (t : PTree) : Prop :=
  D .expr [t] ∧ ∃ k, kindOf t = some k ∧ (cc = true → k ∈ callableKinds) ∧ (cc = false → k = .literal)

theorem PF.callable {t} (h : PF true t) : Lua.callable t := by
  obtain ⟨_, k, h1, h2, _⟩ := h
  have := h2 rfl
  simp [Lua.callable, indexable, h1]
  simp [callableKinds] at this
  rcases this with h | h | h | h | h | h | h | h <;> subst h <;> simp

theorem PF.indexable {cc t} (h : PF cc t) : Lua.indexable t := by
  cases cc with
  | true => exact h.callable.1
  | false =>
    obtain ⟨_, k, h1, _, h2⟩ := h
    simp [Lua.indexable, h1, h2 rfl]

/-- what a wrapping function guarantees: the new node is well shaped if the old one was, and if there
is no error the new one is a callable expression -/
def WR (i0 i1 : Item) : Prop :=
  (goodL [i0] → goodL [i1]) ∧ (clean [i1] → clean [i0] ∧ PF true (toTree i1))

theorem callExpr_spec {r b} (hr : RecOK r b) (fuel toks p k bf af) (hne : NE toks)
    (hf : toks.length ≤ fuel) (hb : 2 * toks.length ≤ b)
    (hat : la toks ∈ [SyntaxKind.lBrace, .lParen, .str])
    (hpf : clean [.node p k bf af] → PF true (toTree (.node p k bf af))) :
    SpecL (callExpr r fuel p) (.node p k bf af) toks fun i1 toks' =>
      WR (.node p k bf af) i1 ∧ toks'.length < toks.length := by
  intro ev cur st
  simp only [callExpr, wpF_bind, wpF_precede_head]
  refine (callArgs_spec hr fuel toks hne hf hb hat).use ?_
  rintro a1 i1 t1 e1 y1 ne1 l1 ⟨⟨bf1, af1, hi1, g1, c1⟩, p1⟩
  simp only [wpF_complete]
  refine ⟨by simp, _, _, _, _, _, rfl, by simp [y1], ⟨?_, ?_⟩, p1⟩
  · intro h; rw [goodL_node]; simpa [g1] using h
  · intro h
    simp only [clean_node, List.append_nil] at h ⊢
    simp at h
    refine ⟨by simp [h], ?_⟩
    have d := c1 h.2
    have d0 := hpf (by simp [h])
    rw [hi1] at d
    refine ⟨?_, .callExpr, by simp [toTree, kindOf], by simp [callableKinds], by simp⟩
    have := Deriv.call _ _ d0.1 d0.callable d
    simpa [toTree, toTreeL, hi1] using this

theorem indexExpr_spec {r b} (hr : RecOK r b) (toks p k bf af cc) (hne : NE toks)
    (hb : 2 * toks.length ≤ b)
    (hat : la toks = .lBracket)
    (hpf : clean [.node p k bf af] → PF cc (toTree (.node p k bf af))) :
    SpecL (indexExpr r p) (.node p k bf af) toks fun i1 toks' =>
      WR (.node p k bf af) i1 ∧ toks'.length < toks.length := by
  intro ev cur st
  simp only [indexExpr, wpF_bind, wpF_precede_head]
  refine (index_spec hr toks hne hb hat).use ?_
  rintro a1 i1 t1 e1 y1 ne1 l1 ⟨⟨bf1, af1, hi1, g1, c1⟩, p1⟩
  simp only [wpF_complete]
  refine ⟨by simp, _, _, _, _, _, rfl, by simp [y1], ⟨?_, ?_⟩, p1⟩
  · intro h; rw [goodL_node]; simpa [g1] using h
  · intro h
    simp only [clean_node, List.append_nil] at h ⊢
    simp at h
    refine ⟨by simp [h], ?_⟩
    have d := c1 h.2
    have d0 := hpf (by simp [h])
    rw [hi1] at d
    refine ⟨?_, .indexExpr, by simp [toTree, kindOf], by simp [callableKinds], by simp⟩
    have := Deriv.indexE _ _ d0.1 d0.indexable d
    simpa [toTree, toTreeL, hi1] using this

theorem dotExpr_spec (toks p k bf af cc)
    (hat : la toks = .dot)
    (hpf : clean [.node p k bf af] → PF cc (toTree (.node p k bf af))) :
    SpecL (dotExpr p) (.node p k bf af) toks fun i1 toks' =>
      WR (.node p k bf af) i1 ∧ toks'.length < toks.length := by
  obtain ⟨ts, rfl⟩ := lookahead_eq hat (by simp)
  intro ev cur st
  simp only [dotExpr, wpF_bind, wpF_precede_head, wpF_bump]
  refine ⟨by simp, ?_⟩
  refine (expect_spec (by simp) ts).use ?_
  rintro _ i1 t1 e1 y1 ne1 l1 ⟨g1, c1, -⟩
  simp only [wpF_complete]
  refine ⟨by simp, _, _, _, _, _, rfl, by simp [y1], ⟨?_, ?_⟩, by lomega⟩
  · intro h; rw [goodL_node]; simpa [g1] using h
  · intro h
    simp at h
    refine ⟨by simp [h], ?_⟩
    have d0 := hpf (by simp [h])
    refine ⟨?_, .dotExpr, by simp [toTree, kindOf], by simp [callableKinds], by simp⟩
    have := Deriv.dot _ d0.1 d0.indexable
    simpa [toTree, toTreeL, c1 h.2] using this

theorem methodCallExpr_spec {r b} (hr : RecOK r b) (fuel toks p k bf af) (hne : NE toks)
    (hf : toks.length ≤ fuel) (hb : 2 * toks.length ≤ b)
    (hat : la toks = .colon)
    (hpf : clean [.node p k bf af] → PF true (toTree (.node p k bf af))) :
    SpecL (methodCallExpr r fuel p) (.node p k bf af) toks fun i1 toks' =>
      WR (.node p k bf af) i1 ∧ toks'.length < toks.length := by
  obtain ⟨ts, rfl⟩ := lookahead_eq hat (by simp)
  intro ev cur st
  simp at hne hf hb
  simp only [methodCallExpr, wpF_bind, wpF_precede_head, wpF_bump]
  refine ⟨by simp, ?_⟩
  refine (nameRef_spec ts).use ?_
  rintro a1 i1 t1 e1 y1 ne1 l1 ⟨⟨bf1, af1, hi1, g1, c1⟩, -⟩
  simp only [wpF_ite, wpF_atTs, contains_CALL_FIRST, wpF_error, wpF_bind]
  refine ⟨fun h => ?_, fun h => ?_⟩
  · refine (callArgs_spec hr fuel t1 (ne1 hne) (by omega) (by omega) (by simpa using h)).use ?_
    rintro a2 i2 t2 e2 y2 ne2 l2 ⟨⟨bf2, af2, hi2, g2, c2⟩, p2⟩
    simp only [wpF_complete]
    refine ⟨by simp, _, _, _, _, _, rfl, by simp [y1, y2], ⟨?_, ?_⟩, by lomega⟩
    · intro h; rw [goodL_node]; simpa [g1, g2] using h
    · intro h
      simp at h
      refine ⟨by simp [h], ?_⟩
      have d := c2 h.2.2
      have d0 := hpf (by simp [h])
      rw [hi2] at d
      refine ⟨?_, .methodCallExpr, by simp [toTree, kindOf], by simp [callableKinds], by simp⟩
      have := Deriv.method _ _ d0.1 d0.callable d
      simpa [toTree, toTreeL, hi2, c1 h.2.1] using this
  · simp only [wpF_complete]
    refine ⟨by simp, _, _, _, _, _, rfl, by simp [y1], ⟨?_, ?_⟩, by lomega⟩
    · intro h; rw [goodL_node]; simpa [g1] using h
    · intro h
      simp at h

theorem postfixExpr_spec {r b} (hr : RecOK r b) (fuel0) : ∀ n toks p k bf af cc, NE toks →
    toks.length < n → toks.length ≤ fuel0 → 2 * toks.length ≤ b →
    goodL [.node p k bf af] →
    (clean [.node p k bf af] → PF cc (toTree (.node p k bf af))) →
    SpecL (postfixExpr r fuel0 n p cc) (.node p k bf af) toks fun i1 toks' =>
      goodL [i1] ∧ toks'.length ≤ toks.length ∧
      (clean [i1] → ∃ cc', PF cc' (toTree i1) ∧ la toks' ≠ .lBracket ∧ la toks' ≠ .dot ∧
        (cc' = true → la toks' ∉ [SyntaxKind.lBrace, .lParen, .str, .colon])) := by
  intro n
  induction n with
  | zero => intro toks p k bf af cc _ h; omega
  | succ n ih =>
    intro toks p k bf af cc hne hlen hf hb hg hpf ev cur st
    have hrec : ∀ k1 bf1 af1 a1 t1 e1, NE t1 → t1.length < toks.length →
        yld [.node p k bf af] ++ toks = yld [.node a1 k1 bf1 af1] ++ t1 →
        WR (.node p k bf af) (.node a1 k1 bf1 af1) →
        wpF (postfixExpr r fuel0 n a1 true) ⟨t1, e1, .node a1 k1 bf1 af1 :: cur, st⟩ fun a s' =>
          ∃ k' bf' af' toks' ev', s' = ⟨toks', ev', .node a k' bf' af' :: cur, st⟩ ∧
          yld [.node p k bf af] ++ toks = yld [.node a k' bf' af'] ++ toks' ∧
          (goodL [.node a k' bf' af'] ∧ toks'.length ≤ toks.length ∧
          (clean [.node a k' bf' af'] → ∃ cc', PF cc' (toTree (.node a k' bf' af')) ∧
            la toks' ≠ .lBracket ∧ la toks' ≠ .dot ∧
            (cc' = true → la toks' ∉ [SyntaxKind.lBrace, .lParen, .str, .colon]))) := by
      intro k1 bf1 af1 a1 t1 e1 hne1 hl1 hy hw
      refine wpF_mono (ih t1 a1 k1 bf1 af1 true hne1 (by omega) (by omega) (by omega) (hw.1 hg)
        (fun hc => (hw.2 hc).2) e1 cur st) ?_
      rintro a s ⟨k', bf', af', t', e', hs, hy', hg', hl', hc'⟩
      exact ⟨k', bf', af', t', e', hs, hy.trans hy', hg', by omega, hc'⟩
    have ne' : ∀ t1 i1, yld [.node p k bf af] ++ toks = yld [i1] ++ t1 →
        goodL [i1] → t1.length ≤ toks.length → NE t1 := by
      intro t1 i1 hy _ hl
      have : t1 <:+ yld [.node p k bf af] ++ toks := ⟨_, hy.symm⟩
      have h2 : toks <:+ yld [.node p k bf af] ++ toks := ⟨_, rfl⟩
      have := List.suffix_of_suffix_length_le this h2 hl
      intro hm
      exact hne (this.subset hm)
    simp only [postfixExpr, wpF_bind, wpF_current, wpF_ite, wpF_atTs, contains_CALL_FIRST, wpF_pure]
    refine ⟨fun h => ?_, fun h => ⟨fun h2 => ?_, fun h2 => ⟨fun h3 => ?_, fun h3 => ⟨fun h4 => ?_, fun h4 => ?_⟩⟩⟩⟩
    · simp at h
      obtain ⟨rfl, h⟩ := h
      refine wpF_mono (callExpr_spec hr fuel0 toks p k bf af hne (by omega) hb (by simpa using h) hpf
        ev cur st) ?_
      rintro a s ⟨k', bf', af', t', e', rfl, hy', hw, hl⟩
      exact hrec _ _ _ _ _ _ (ne' _ _ hy' (hw.1 hg) (by omega)) hl hy' hw
    · simp at h2
      obtain ⟨h2, rfl⟩ := h2
      refine wpF_mono (methodCallExpr_spec hr fuel0 toks p k bf af hne (by omega) hb (by simpa using h2) hpf
        ev cur st) ?_
      rintro a s ⟨k', bf', af', t', e', rfl, hy', hw, hl⟩
      exact hrec _ _ _ _ _ _ (ne' _ _ hy' (hw.1 hg) (by omega)) hl hy' hw
    · refine wpF_mono (indexExpr_spec hr toks p k bf af cc hne hb (by simpa using h3) hpf
        ev cur st) ?_
      rintro a s ⟨k', bf', af', t', e', rfl, hy', hw, hl⟩
      exact hrec _ _ _ _ _ _ (ne' _ _ hy' (hw.1 hg) (by omega)) hl hy' hw
    · refine wpF_mono (dotExpr_spec toks p k bf af cc (by simpa using h4) hpf ev cur st) ?_
      rintro a s ⟨k', bf', af', t', e', rfl, hy', hw, hl⟩
      exact hrec _ _ _ _ _ _ (ne' _ _ hy' (hw.1 hg) (by omega)) hl hy' hw
    · refine ⟨_, _, _, _, _, rfl, rfl, hg, by omega, fun hc => ⟨cc, hpf hc, by simpa using h3,
        by simpa using h4, ?_⟩⟩
      intro hcc
      simp [hcc] at h h2 ⊢
      grind

end Verif
