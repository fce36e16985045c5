import Verif.Proof.PutPlace
import Verif.Proof.WrapChecks
import Verif.Spec.Qualifying

/-
Exchanging an expression for another one: the checks.
-/
namespace Verif
namespace Put
open PTree Lua Nest
open Spec (expressionKinds valuePlaces nodesIn)

theorem put_fine {V : List SyntaxKind} (hV : SyntaxKind.multivalExpr ∉ V) {x y : Green} (hx : x.kind ∈ expressionKinds) (hxn : x.isNode = true) (hyn : y.isNode = true)
    (hy : ∀ n ∈ inner y, stmtFine n) {p s q a b g g'} (h : GP V x y p s q a b g g') (hg : ∀ n ∈ inner g, stmtFine n)
    (hlit : ∀ n ∈ inner g, n.kind = .literal → ∃ l : Lx, n = .node .literal [leaf l]) :
    (∀ n ∈ inner g', stmtFine n) ∧ (p = false ∨ g.kind ∉ expressionKinds → g'.kind = g.kind) ∧
      (g.kind = .multivalExpr → s = false → Nest.kinds (nodesIn g') = Nest.kinds (nodesIn g)) ∧
      ∀ n ∈ inner g', n.kind = .literal → n ∈ inner g ∨ n ∈ inner y := by
  induction h with
  | here =>
    refine ⟨hy, fun h => ?_, fun e => ?_, fun n hn _ => .inr hn⟩
    · rcases h with h | h
      · cases h
      · exact absurd hx h
    · rw [e] at hx; exact absurd hx (by decide)
  | @down p s l pre c c' post q a b h ih =>
    have hin : ∀ d, inner (.node l (pre ++ d :: post)) = .node l (pre ++ d :: post) :: (innerL pre ++ (inner d ++ innerL post)) := by
      intro d; rw [inner_node, innerL_append, innerL_cons]
    obtain ⟨h1, h2, h5, h6⟩ := ih (fun n hn => hg n (by rw [hin]; simp [hn])) fun n hn => hlit n (by rw [hin]; simp [hn])
    obtain ⟨h3, h4⟩ := h.node hxn hyn
    have hnodes : ∀ d : Green, d.isNode = true → nodesIn (.node l (pre ++ d :: post)) =
        pre.filter (·.isNode) ++ d :: post.filter (·.isNode) := by
      intro d hd; simp [nodesIn, Green.children, hd]
    have hnone : pre.filter (·.isNode) = [] → pre.any (·.isNode) = false := by
      intro e
      rw [List.any_eq_false]
      rw [List.filter_eq_nil_iff] at e
      exact e
    have hs : stmtFine (.node l (pre ++ c' :: post)) := by
      have := hg (.node l (pre ++ c :: post)) (by rw [hin]; simp)
      refine ⟨fun hk => ?_, fun hk => ?_⟩
      · obtain ⟨m, e1, e2, e3⟩ := this.1 hk
        have hl : l = .exprStmt := hk
        subst hl
        rw [hnodes c h3] at e1
        rw [hnodes c' h4]
        cases hp : pre.filter (·.isNode) with
        | cons p ps => rw [hp] at e1; simp at e1
        | nil =>
          rw [hp] at e1
          simp only [List.nil_append, List.cons.injEq] at e1
          obtain ⟨rfl, e1⟩ := e1
          have same := h2 (.inr (by rw [e2]; decide))
          have := h5 e2 (by rw [hnone hp]; decide)
          exact ⟨c', by simp [e1], by rw [same, e2], by rw [this]; exact e3⟩
      · obtain ⟨m, r, e1, e2, e3, e4⟩ := this.2 hk
        have hl : l = .assignStmt := hk
        subst hl
        rw [hnodes c h3] at e1
        rw [hnodes c' h4]
        cases hp : pre.filter (·.isNode) with
        | nil =>
          rw [hp] at e1
          simp only [List.nil_append, List.cons.injEq] at e1
          obtain ⟨rfl, e1⟩ := e1
          have same := h2 (.inr (by rw [e2]; decide))
          have := h5 e2 (by rw [hnone hp]; decide)
          exact ⟨c', r, by simp [e1], by rw [same, e2], e3, by rw [this]; exact e4⟩
        | cons p ps =>
          rw [hp] at e1
          simp only [List.cons_append, List.cons.injEq] at e1
          obtain ⟨rfl, e1⟩ := e1
          cases ps with
          | cons q qs => simp at e1
          | nil =>
            simp only [List.nil_append, List.cons.injEq] at e1
            obtain ⟨rfl, e1⟩ := e1
            exact ⟨p, c', by simp [e1], e2, by rw [h2 (.inr (by rw [e3]; decide)), e3], e4⟩
    refine ⟨?_, fun _ => rfl, fun hm hsf => ?_, ?_⟩
    · intro n hn
      rw [hin] at hn
      simp only [List.mem_cons, List.mem_append] at hn
      rcases hn with rfl | hn | hn | hn
      · exact hs
      · exact hg n (by rw [hin]; simp [hn])
      · exact h1 n hn
      · exact hg n (by rw [hin]; simp [hn])
    · have hm : l = .multivalExpr := hm
      subst hm
      rw [hnodes c h3, hnodes c' h4]
      simp only [Nest.kinds, List.map_append, List.map_cons]
      rw [h2 (.inl (by rw [hsf]; simp [hV]))]
    · intro n hn hl
      rw [hin] at hn ⊢
      simp only [List.mem_cons, List.mem_append] at hn ⊢
      rcases hn with rfl | hn | hn | hn
      · obtain ⟨x, hx⟩ := hlit (.node l (pre ++ c :: post)) (by rw [hin]; simp) hl
        simp only [Green.node.injEq] at hx
        have : c ∈ [leaf x] := by rw [← hx.2]; simp
        simp only [List.mem_singleton] at this
        subst this
        simp [leaf, Green.isNode] at h3
      · exact .inl (.inr (.inl hn))
      · rcases h6 n hn hl with h | h
        · exact .inl (.inr (.inr (.inl h)))
        · exact .inr h
      · exact .inl (.inr (.inr (.inr hn)))

theorem same_oneCall {a b : List SyntaxKind} {u v : SyntaxKind} (h : Spec.sameUse u v ∨ v = u) (g : oneCall (a ++ u :: b)) :
    oneCall (a ++ v :: b) := by
  rcases h with h | rfl
  · obtain ⟨g1, g2⟩ := g
    have hu := g2 u (by simp)
    have huv : (u = .callExpr ∨ u = .methodCallExpr) ∧ (v = .callExpr ∨ v = .methodCallExpr) := by
      rcases h with ⟨h1, h2⟩ | ⟨h1, -⟩
      · exact ⟨by simpa using h1, by simpa using h2⟩
      · simp only [List.mem_cons, List.not_mem_nil, or_false] at h1
        rcases h1 with rfl | rfl | rfl <;> simp at hu
    refine ⟨?_, fun c hc => ?_⟩
    · have e1 : (u == .callExpr || u == .methodCallExpr) = true := by rcases huv.1 with rfl | rfl <;> rfl
      have e2 : (v == .callExpr || v == .methodCallExpr) = true := by rcases huv.2 with rfl | rfl <;> rfl
      rw [← g1]
      simp only [List.countP_append, List.countP_cons, e1, e2]
    · simp only [List.mem_append, List.mem_cons] at hc
      rcases hc with hc | rfl | hc
      · exact g2 c (by simp [hc])
      · rcases huv.2 with h | h <;> simp [h]
      · exact g2 c (by simp [hc])
  · exact g

theorem same_targets {a b : List SyntaxKind} {u v : SyntaxKind} (h : Spec.sameUse u v ∨ v = u) (g : targets (a ++ u :: b)) :
    targets (a ++ v :: b) := by
  rcases h with h | rfl
  · have hu := g u (by simp)
    have hv : v = .nameRef ∨ v = .dotExpr ∨ v = .indexExpr := by
      rcases h with ⟨h1, -⟩ | ⟨-, h2⟩
      · simp only [List.mem_cons, List.not_mem_nil, or_false] at h1
        rcases h1 with rfl | rfl <;> simp at hu
      · simpa using h2
    intro c hc
    simp only [List.mem_append, List.mem_cons] at hc
    rcases hc with hc | rfl | hc
    · exact g c (by simp [hc])
    · rcases hv with h | h | h <;> simp [h]
    · exact g c (by simp [hc])
  · exact g

/-- A call for a call, and a target for a target. -/
theorem same_fine {V : List SyntaxKind} {x y : Green} (hxy : Spec.sameUse x.kind y.kind) (hx : x.kind ∈ expressionKinds) (hxn : x.isNode = true) (hyn : y.isNode = true)
    (hy : ∀ n ∈ inner y, stmtFine n) {p s q a b g g'} (h : GP V x y p s q a b g g') (hg : ∀ n ∈ inner g, stmtFine n)
    (hlit : ∀ n ∈ inner g, n.kind = .literal → ∃ l : Lx, n = .node .literal [leaf l]) :
    (∀ n ∈ inner g', stmtFine n) ∧ (Spec.sameUse g.kind g'.kind ∨ g'.kind = g.kind) ∧
      (g.kind ∉ expressionKinds → g'.kind = g.kind) ∧
      (g.kind = .multivalExpr → (oneCall (Nest.kinds (nodesIn g)) → oneCall (Nest.kinds (nodesIn g'))) ∧
        (targets (Nest.kinds (nodesIn g)) → targets (Nest.kinds (nodesIn g')))) ∧
      ∀ n ∈ inner g', n.kind = .literal → n ∈ inner g ∨ n ∈ inner y := by
  induction h with
  | here =>
    refine ⟨hy, .inl hxy, fun h => absurd hx h, fun e => ?_, fun n hn _ => .inr hn⟩
    rw [e] at hx; exact absurd hx (by decide)
  | @down p s l pre c c' post q a b h ih =>
    have hin : ∀ d, inner (.node l (pre ++ d :: post)) = .node l (pre ++ d :: post) :: (innerL pre ++ (inner d ++ innerL post)) := by
      intro d; rw [inner_node, innerL_append, innerL_cons]
    obtain ⟨h1, h0, h2, h5, h6⟩ := ih (fun n hn => hg n (by rw [hin]; simp [hn])) fun n hn => hlit n (by rw [hin]; simp [hn])
    obtain ⟨h3, h4⟩ := h.node hxn hyn
    have hnodes : ∀ d : Green, d.isNode = true → nodesIn (.node l (pre ++ d :: post)) =
        pre.filter (·.isNode) ++ d :: post.filter (·.isNode) := by
      intro d hd; simp [nodesIn, Green.children, hd]
    have hs : stmtFine (.node l (pre ++ c' :: post)) := by
      have := hg (.node l (pre ++ c :: post)) (by rw [hin]; simp)
      refine ⟨fun hk => ?_, fun hk => ?_⟩
      · obtain ⟨m, e1, e2, e3⟩ := this.1 hk
        have hl : l = .exprStmt := hk
        subst hl
        rw [hnodes c h3] at e1
        rw [hnodes c' h4]
        cases hp : pre.filter (·.isNode) with
        | cons p ps => rw [hp] at e1; simp at e1
        | nil =>
          rw [hp] at e1
          simp only [List.nil_append, List.cons.injEq] at e1
          obtain ⟨rfl, e1⟩ := e1
          exact ⟨c', by simp [e1], by rw [h2 (by rw [e2]; decide), e2], (h5 e2).1 e3⟩
      · obtain ⟨m, r, e1, e2, e3, e4⟩ := this.2 hk
        have hl : l = .assignStmt := hk
        subst hl
        rw [hnodes c h3] at e1
        rw [hnodes c' h4]
        cases hp : pre.filter (·.isNode) with
        | nil =>
          rw [hp] at e1
          simp only [List.nil_append, List.cons.injEq] at e1
          obtain ⟨rfl, e1⟩ := e1
          exact ⟨c', r, by simp [e1], by rw [h2 (by rw [e2]; decide), e2], e3, (h5 e2).2 e4⟩
        | cons p ps =>
          rw [hp] at e1
          simp only [List.cons_append, List.cons.injEq] at e1
          obtain ⟨rfl, e1⟩ := e1
          cases ps with
          | cons q qs => simp at e1
          | nil =>
            simp only [List.nil_append, List.cons.injEq] at e1
            obtain ⟨rfl, e1⟩ := e1
            exact ⟨p, c', by simp [e1], e2, by rw [h2 (by rw [e3]; decide), e3], e4⟩
    refine ⟨?_, .inr rfl, fun _ => rfl, fun hm => ?_, ?_⟩
    · intro n hn
      rw [hin] at hn
      simp only [List.mem_cons, List.mem_append] at hn
      rcases hn with rfl | hn | hn | hn
      · exact hs
      · exact hg n (by rw [hin]; simp [hn])
      · exact h1 n hn
      · exact hg n (by rw [hin]; simp [hn])
    · have hm : l = .multivalExpr := hm
      subst hm
      rw [hnodes c h3, hnodes c' h4]
      simp only [Nest.kinds, List.map_append, List.map_cons]
      exact ⟨same_oneCall h0, same_targets h0⟩
    · intro n hn hl
      rw [hin] at hn ⊢
      simp only [List.mem_cons, List.mem_append] at hn ⊢
      rcases hn with rfl | hn | hn | hn
      · obtain ⟨x, hx⟩ := hlit (.node l (pre ++ c :: post)) (by rw [hin]; simp) hl
        simp only [Green.node.injEq] at hx
        have : c ∈ [leaf x] := by rw [← hx.2]; simp
        simp only [List.mem_singleton] at this
        subst this
        simp [leaf, Green.isNode] at h3
      · exact .inl (.inr (.inl hn))
      · rcases h6 n hn hl with h | h
        · exact .inl (.inr (.inr (.inl h)))
        · exact .inr h
      · exact .inl (.inr (.inr (.inr hn)))

end Put
end Verif
