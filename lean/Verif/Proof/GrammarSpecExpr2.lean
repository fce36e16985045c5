import Verif.Proof.GrammarSpecExpr
import Verif.Proof.Precedence

/-
Specifications of the expression grammar: atoms, prefix operators and the Pratt loop.
-/
set_option linter.unusedSimpArgs false
set_option linter.unusedVariables false
namespace Verif
open Item PTree Lua
open P Grammar

theorem literal_spec (toks) (hat : la toks ∈ literalKinds) :
    Spec literal toks fun a items toks' => ∃ p, a = some p ∧
      NP .literal (fun ts => ∃ k ∈ literalKinds, ts = [.node .literal [.tok k]]) p items ∧
      toks'.length < toks.length := by
  obtain ⟨k, ts, rfl, hk⟩ : ∃ k ts, toks = k :: ts ∧ k ∈ literalKinds := by
    cases toks with
    | nil => simp [la, literalKinds] at hat
    | cons k ts => exact ⟨k, ts, rfl, by simpa [la] using hat⟩
  have hk' : k ≠ .eof := by rintro rfl; simp [literalKinds] at hk
  intro ev cur st
  simp only [literal, wpF_bind, wpF_atTs, contains_LITERAL_FIRST, wpF_ite, lookahead_cons, hk,
    wpF_start, wpF_bumpAny, wpF_complete, wpF_pure]
  simp [hk']
  refine Spec.done [.node ev .literal [] [.tok k]] rfl (by simp)
    ⟨⟨_, _, rfl, ⟨?_, fun _ => ⟨k, hk, by simp [toTreeL, toTree]⟩⟩⟩, by simp⟩
  rw [goodL_node]
  exact ⟨⟨fun _ => ⟨k, hk, by simp [toTreeL, toTree]⟩, by simp, by simp⟩, by simp [hk']⟩

theorem parenExpr_spec {r b} (hr : RecOK r b) (toks) (hne : NE toks) (hb : 2 * toks.length ≤ b)
    (hat : la toks = .lParen) :
    Spec (parenExpr r) toks fun a items toks' =>
      NP .parenExpr (fun ts => ∃ e, D .expr [e] ∧
        ts = [.node .parenExpr [.tok .lParen, e, .tok .rParen]]) a items ∧
      toks'.length < toks.length := by
  intro ev cur st
  simp only [parenExpr, wpF_bind, wpF_start]
  refine (expect_spec (by simp) toks).use ?_
  rintro _ i1 t1 e1 y1 ne1 l1 ⟨g1, c1, p1⟩
  have p1 := p1 hat
  refine (hr.expr t1 1 (ne1 hne) (by omega) (by omega)).use ?_
  rintro _ i2 t2 e2 y2 ne2 l2 p2
  refine (expect_spec (by simp) t2).use ?_
  rintro _ i3 t3 e3 y3 ne3 l3 ⟨g3, c3, -⟩
  simp
  refine Spec.done [.node ev .parenExpr [] (i1 ++ i2 ++ i3)] (by simp) (by simp [y1, y2, y3])
    ⟨⟨_, _, rfl, by simp [g1, p2.good, g3], ?_⟩, by lomega⟩
  simp
  intro hc1 hc2 hc3
  obtain ⟨t, h1, h2⟩ := p2.gp.2 hc2
  exact ⟨t, h2, by simp [toTreeL, toTree, c1 hc1, c3 hc3, h1]⟩

/-- result of `atom_expr` when no prefix operator is present -/
structure PA (toks : List SyntaxKind) (a : Option (Nat × Bool)) (items : List Item)
    (toks' : List SyntaxKind) : Prop where
  good : goodL items
  none : a = none → ¬ clean items
  some : ∀ p cc, a = some (p, cc) → (∃ k bf af, items = [.node p k bf af]) ∧
    toks'.length < toks.length ∧ (clean items → ∃ t, toTreeL items = [t] ∧ PF cc t)
  progress : la toks ∈ exprFirst → toks'.length < toks.length

theorem PA.of_node {toks p items toks' k cc} {R : List PTree → Prop}
    (h : NP k R p items) (hl : toks'.length < toks.length)
    (hR : ∀ ts, R ts → ∃ t, ts = [t] ∧ PF cc t) : PA toks (Option.some (p, cc)) items toks' := by
  obtain ⟨bf, af, hi, g, c⟩ := h
  refine ⟨g, by simp, ?_, fun _ => hl⟩
  rintro p' cc' h
  simp at h
  obtain ⟨rfl, rfl⟩ := h
  exact ⟨⟨_, _, _, hi⟩, hl, fun hc => hR _ (c hc)⟩

theorem atomExpr_spec {r b} (hr : RecOK r b) (fuel toks) (hne : NE toks) (hf : toks.length ≤ fuel)
    (hb : 2 * toks.length ≤ b) (hp : ¬ 0 < prefixBindingPower (la toks)) :
    Spec (atomExpr r fuel) toks (PA toks) := by
  intro ev cur st
  simp only [atomExpr, wpF_bind, wpF_current, wpF_ite, wpF_atTs, contains_LITERAL_FIRST]
  refine ⟨fun h => absurd h hp, fun _ => ⟨fun h => ?_, fun h => ?_⟩⟩
  · refine (literal_spec toks (by simpa using h)).use ?_
    rintro a i1 t1 e1 y1 ne1 l1 ⟨p, rfl, hn, hl⟩
    simp
    refine Spec.done i1 rfl y1 (PA.of_node hn hl ?_)
    rintro ts ⟨k, hk, rfl⟩
    exact ⟨_, rfl, Deriv.literal _ hk, .literal, by simp [kindOf], by simp, by simp⟩
  · refine ⟨fun h2 => ?_, fun h2 => ⟨fun h3 => ?_, fun h3 => ⟨fun h4 => ?_, fun h4 => ⟨fun h5 => ?_, fun h5 => ?_⟩⟩⟩⟩
    · refine (functionExpr_spec hr fuel toks hne hf hb (by simpa using h2)).use ?_
      rintro a i1 t1 e1 y1 ne1 l1 ⟨hn, hl⟩
      simp
      refine Spec.done i1 rfl y1 (PA.of_node hn hl ?_)
      rintro ts ⟨p, b, h1, h2, rfl⟩
      exact ⟨_, rfl, Deriv.function _ _ h1 h2, .functionExpr, by simp [kindOf], by simp [callableKinds], by simp⟩
    · refine (tableExpr_spec hr fuel toks hne hf hb (by simpa using h3)).use ?_
      rintro a i1 t1 e1 y1 ne1 l1 ⟨hn, hl⟩
      simp
      refine Spec.done i1 rfl y1 (PA.of_node hn hl ?_)
      rintro ts ⟨tl, h1, rfl⟩
      exact ⟨_, rfl, Deriv.table _ h1, .tableExpr, by simp [kindOf], by simp [callableKinds], by simp⟩
    · refine (nameRef_spec toks).use ?_
      rintro a i1 t1 e1 y1 ne1 l1 ⟨hn, hl⟩
      simp
      refine Spec.done i1 rfl y1 (PA.of_node hn (hl (by simpa using h4)) ?_)
      rintro ts rfl
      exact ⟨_, rfl, Deriv.nameRef, .nameRef, by simp [kindOf], by simp [callableKinds], by simp⟩
    · refine (parenExpr_spec hr toks hne hb (by simpa using h5)).use ?_
      rintro a i1 t1 e1 y1 ne1 l1 ⟨hn, hl⟩
      simp
      refine Spec.done i1 rfl y1 (PA.of_node hn hl ?_)
      rintro ts ⟨e, h1, rfl⟩
      exact ⟨_, rfl, Deriv.paren _ h1, .parenExpr, by simp [kindOf], by simp [callableKinds], by simp⟩
    · refine (errRecover_spec _ _ toks hne).use ?_
      rintro a i1 t1 e1 y1 ne1 l1 ⟨g1, c1, -⟩
      simp
      refine Spec.done i1 rfl y1 ⟨g1, fun _ => c1, by simp, ?_⟩
      intro hx
      rw [prefix_pos_iff] at hp
      simp [exprFirst] at hx
      simp [unaryOps] at hp
      simp at h h2 h3 h4 h5
      grind

theorem PF.rightPows {cc t} (h : PF cc t) : rightPows t = [] := by
  have := h.indexable
  unfold Verif.rightPows
  split <;> simp_all [Lua.indexable, kindOf]

theorem PF.leftOps {cc t} (h : PF cc t) : leftOps t = [] := by
  have := h.indexable
  unfold Lua.leftOps
  split <;> simp_all [Lua.indexable, kindOf]

theorem PF.endsCallable {cc t} (h : PF cc t) (he : endsCallable t = true) : cc = true := by
  cases cc with
  | true => rfl
  | false =>
    obtain ⟨_, k, h1, _, h2⟩ := h
    have := h2 rfl
    subst this
    cases t <;> simp [kindOf] at h1
    subst h1
    simp [Lua.endsCallable, endsInExpr, callableKinds] at he

/-- result of `lhs` -/
structure PL (toks : List SyntaxKind) (a : Option Nat) (items : List Item)
    (toks' : List SyntaxKind) : Prop where
  good : goodL items
  none : a = none → ¬ clean items
  some : ∀ p, a = some p → (∃ k bf af, items = [.node p k bf af]) ∧ toks'.length < toks.length
  expr : clean items → ∃ t, toTreeL items = [t] ∧ D .expr [t] ∧ leftOps t = [] ∧ follow t (la toks')
  progress : la toks ∈ exprFirst → toks'.length < toks.length

theorem lhs_spec {r b} (hr : RecOK r b) (fuel toks) (hne : NE toks) (hf : toks.length ≤ fuel)
    (hb : 2 * toks.length ≤ b) : Spec (lhs r fuel) toks (PL toks) := by
  intro ev cur st
  simp only [lhs, wpF_bind, wpF_current, wpF_ite, wpF_start]
  refine ⟨fun h => ?_, fun h => ?_⟩
  · have hop := (prefix_pos_iff _).1 h
    obtain ⟨op, ts, rfl⟩ : ∃ op ts, toks = op :: ts := by
      cases toks with
      | nil => simp [unaryOps] at hop
      | cons op ts => exact ⟨op, ts, rfl⟩
    simp at hne hf hb hop h
    simp only [wpF_bumpAny]
    refine ⟨hne.1, ?_⟩
    simp only [lookahead_cons]
    refine (hr.expr ts _ hne.2 h (by omega)).use ?_
    rintro _ i1 t1 e1 y1 ne1 l1 p1
    simp
    refine Spec.done [.node ev .prefixExpr [] (.tok op :: i1)] (by simp) (by simp [y1])
      ⟨by simp [hne.1, p1.good], by simp, ?_, ?_, ?_⟩
    · rintro p ⟨rfl⟩
      exact ⟨⟨_, _, _, rfl⟩, by lomega⟩
    · simp
      intro hc
      obtain ⟨t, h1, h2, h3, h4, h5⟩ := p1.expr hc
      refine ⟨.node .prefixExpr [.tok op, t], by simp [toTreeL, toTree, h1], ?_, by simp [leftOps], ?_⟩
      · exact Deriv.prefix _ _ hop h2 (fun q hq => prefix_le q op hop (h3 q hq))
      · refine ⟨?_, h4.2.1, h4.2.2.1, ?_⟩
        · simp only [rightPows, List.mem_cons, forall_eq_or_imp]
          exact ⟨h5, h4.1⟩
        · simpa [endsCallable, endsInExpr, endsCallableL] using h4.2.2.2
    · intro _; lomega
  · refine (atomExpr_spec hr fuel toks hne hf hb h).use ?_
    rintro a i1 t1 e1 y1 ne1 l1 p1
    cases a with
    | none =>
      simp
      exact Spec.done i1 rfl y1 ⟨p1.good, fun _ => p1.none rfl, by simp,
        fun hc => absurd hc (p1.none rfl), p1.progress⟩
    | some a =>
      obtain ⟨p, cc⟩ := a
      obtain ⟨⟨k, bf, af, rfl⟩, hl, hpf⟩ := p1.some p cc rfl
      simp
      refine wpF_mono (postfixExpr_spec hr fuel fuel t1 p k bf af cc (ne1 hne) (by omega) (by omega)
        (by omega) p1.good ?_ _ _ _) ?_
      · intro hc
        obtain ⟨t, h1, h2⟩ := hpf hc
        simp [toTreeL] at h1
        rw [h1]; exact h2
      · rintro a s ⟨k', bf', af', t', e', rfl, hy', hg, hl', hc'⟩
        refine Spec.done [.node a k' bf' af'] rfl (by rw [y1, ← hy']) ⟨hg, by simp, ?_, ?_, ?_⟩
        · rintro p ⟨rfl⟩
          exact ⟨⟨_, _, _, rfl⟩, by omega⟩
        · intro hc
          obtain ⟨cc', h1, h2, h3, h4⟩ := hc' hc
          refine ⟨_, by simp [toTreeL], h1.1, h1.leftOps, by simp [h1.rightPows], h2, h3, ?_⟩
          intro he
          have := h4 (h1.endsCallable he)
          simp at this
          simp [this]
        · intro _; omega

/-- invariant of the operand collected so far in the Pratt loop -/
def LoopInv (m : Nat) (i0 : Item) (k : SyntaxKind) : Prop :=
  goodL [i0] ∧ (clean [i0] → D .expr [toTree i0] ∧ (∀ q ∈ leftOps (toTree i0), m ≤ (ibp q).1) ∧
    follow (toTree i0) k)

theorem exprBpLoop_spec {r b} (hr : RecOK r b) (m) (hm : 0 < m) : ∀ n toks p k bf af, NE toks →
    toks.length < n → 2 * toks.length ≤ b → LoopInv m (.node p k bf af) (la toks) →
    SpecL (exprBpLoop r m n p) (.node p k bf af) toks fun i1 toks' =>
      LoopInv m i1 (la toks') ∧ toks'.length ≤ toks.length ∧ (ibp (la toks')).1 < m := by
  intro n
  induction n with
  | zero => intro toks p k bf af _ h; omega
  | succ n ih =>
    intro toks p k bf af hne hlen hb hinv ev cur st
    simp only [exprBpLoop, wpF_bind, wpF_current, wpF_ite, wpF_pure]
    refine ⟨fun h => ?_, fun h => ?_⟩
    · exact ⟨_, _, _, _, _, rfl, rfl, hinv, by omega, h⟩
    · have hop : lookahead toks 0 ∈ infixOps := mem_infixOps_of_ibp1 (by
        simp only [ibp]; omega)
      obtain ⟨op, ts, rfl⟩ : ∃ op ts, toks = op :: ts := by
        cases toks with
        | nil => simp [infixOps] at hop
        | cons op ts => exact ⟨op, ts, rfl⟩
      simp at hne hlen hb hop h
      simp only [wpF_bumpAny]
      refine ⟨hne.1, ?_⟩
      simp only [wpF_precede_tok, lookahead_cons]
      refine (hr.expr ts _ hne.2 (ibp_pos_of_mem hop).2 (by omega)).use ?_
      rintro _ i1 t1 e1 y1 ne1 l1 p1
      simp only [wpF_complete]
      refine ⟨by simp, ?_⟩
      have hinv' : LoopInv m (.node (ev + 1) .infixExpr [.node p k bf af, .tok op]
          (i1.reverse ++ []).reverse) (la t1) := by
        refine ⟨?_, ?_⟩
        · have := hinv.1
          rw [goodL_node]
          simp [p1.good, hne.1]
          simpa using this
        · intro hc
          simp at hc
          obtain ⟨t, h1, h2, h3, h4, h5⟩ := p1.expr hc.2
          obtain ⟨d1, d2, d3⟩ := hinv.2 (by simp [hc])
          have e : toTree (.node (ev + 1) .infixExpr [.node p k bf af, .tok op]
            (i1.reverse ++ []).reverse) =
            .node .infixExpr [toTree (.node p k bf af), .tok op, t] := by
            simp [toTree, toTreeL, h1]
          rw [e]
          have hb := isBinary_of_mem hop
          refine ⟨?_, ?_, ?_⟩
          · exact Deriv.infix _ _ _ hb d1 h2 (rightPows_levels op hb _ (by simpa [la] using d3.1))
              (fun q hq => infix_le q op hb (h3 q hq))
          · simp only [leftOps, List.mem_cons, forall_eq_or_imp]
            exact ⟨by simp only [ibp]; omega, d2⟩
          · refine ⟨?_, h4.2.1, h4.2.2.1, ?_⟩
            · simp only [rightPows, List.mem_cons, forall_eq_or_imp]
              exact ⟨h5, h4.1⟩
            · simpa [endsCallable, endsInExpr, endsCallableL] using h4.2.2.2
      refine wpF_mono (ih t1 _ _ _ _ (ne1 hne.2) (by omega) (by omega) hinv' _ _ _) ?_
      rintro a s ⟨k', bf', af', t', e', rfl, hy', hi, hl, hx⟩
      refine ⟨_, _, _, _, _, rfl, ?_, hi, by lomega, hx⟩
      rw [← hy']
      simp [y1]

theorem exprBp_spec {r b} (hr : RecOK r b) (m) (hm : 0 < m) (fuel toks) (hne : NE toks)
    (hf : toks.length ≤ fuel) (hb : 2 * toks.length ≤ b) :
    Spec (exprBp r fuel m) toks (PE m toks) := by
  intro ev cur st
  simp only [exprBp, wpF_bind]
  refine (lhs_spec hr fuel toks hne hf hb).use ?_
  rintro a i1 t1 e1 y1 ne1 l1 p1
  cases a with
  | none =>
    simp
    exact Spec.done i1 rfl y1 ⟨p1.good, fun _ => p1.none rfl, by simp,
      fun hc => absurd hc (p1.none rfl), p1.progress⟩
  | some p =>
    obtain ⟨⟨k, bf, af, rfl⟩, hl⟩ := p1.some p rfl
    simp
    refine wpF_mono (exprBpLoop_spec hr m hm fuel t1 p k bf af (ne1 hne) (by omega) (by omega) ?_
      _ _ _) ?_
    · refine ⟨p1.good, fun hc => ?_⟩
      obtain ⟨t, h1, h2, h3, h4⟩ := p1.expr hc
      simp [toTreeL] at h1
      rw [h1]
      exact ⟨h2, by simp [h3], h4⟩
    · rintro a s ⟨k', bf', af', t', e', rfl, hy', hi, hl', hx⟩
      refine Spec.done [.node a k' bf' af'] rfl (by rw [y1, ← hy']) ⟨hi.1, by simp, ?_, ?_, ?_⟩
      · rintro p ⟨rfl⟩
        exact ⟨⟨_, _, _, rfl⟩, by omega⟩
      · intro hc
        obtain ⟨d1, d2, d3⟩ := hi.2 hc
        exact ⟨_, by simp [toTreeL], d1, d2, d3, hx⟩
      · intro _; omega

end Verif
