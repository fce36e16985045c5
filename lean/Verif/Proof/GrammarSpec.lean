import Verif.Proof.Wp
import Verif.Model.Grammar

/-
Every grammar function runs to completion, consumes exactly the tokens it records, builds well shaped
trees, and, when no error is reported, the trees derive from the declarative grammar.
-/
set_option linter.unusedSimpArgs false
set_option linter.unusedVariables false
namespace Verif
open Item PTree Lua

abbrev D := Deriv .accepted

/-- arithmetic on list lengths -/
macro "lomega" : tactic => `(tactic| ((try simp only [List.length_cons] at *); omega))

open P Grammar

theorem expect_spec {k : SyntaxKind} (hk : k ≠ .eof) (toks) :
    Spec (expect k) toks fun _ items toks' => goodL items ∧ (clean items → items = [.tok k]) ∧
      (lookahead toks 0 = k → toks'.length < toks.length) := by
  intro ev cur st
  simp only [expect, wpF_bind, wpF_current, wpF_ite]
  refine ⟨fun h => ?_, fun h => ?_⟩
  · obtain ⟨ts, rfl⟩ := lookahead_eq (by simpa using h) hk
    simp [hk]
    exact Spec.done [.tok k] (by simp) (by simp) (by simp [hk])
  · simp
    exact Spec.done [.err _] rfl (by simp) (by simpa using h)

theorem expect_items {k : SyntaxKind} (hk : k ≠ .eof) (toks) :
    Spec (expect k) toks fun _ items toks' => goodL items ∧ (clean items → items = [.tok k]) ∧
      (lookahead toks 0 = k → toks'.length < toks.length) ∧ (items = [.tok k] ∨ ∃ e, items = [.err e]) := by
  intro ev cur st
  simp only [expect, wpF_bind, wpF_current, wpF_ite]
  refine ⟨fun h => ?_, fun h => ?_⟩
  · obtain ⟨ts, rfl⟩ := lookahead_eq (by simpa using h) hk
    simp [hk]
    exact Spec.done [.tok k] (by simp) (by simp) (by simp [hk])
  · simp
    exact Spec.done [.err _] rfl (by simp) (by simpa using h)

theorem errRecover_spec (msg rec toks) (hne : NE toks) :
    Spec (errRecover msg rec) toks fun _ items toks' => goodL items ∧ ¬ clean items ∧
      (lookahead toks 0 ≠ .eof → lookahead toks 0 ≠ .endKw → rec.contains (lookahead toks 0) = false →
        toks'.length < toks.length) := by
  intro ev cur st
  simp only [errRecover, acceptAny, wpF_bind, wpF_current, wpF_ite, wpF_error, wpF_atTs]
  refine ⟨fun h => ?_, fun h => ⟨fun h2 => ?_, fun h2 => ?_⟩⟩
  · exact Spec.done [.err _] (by first | rfl | simp) (by simp) (by simp; simp at h; simp [h])
  · exact Spec.done [.err _] (by first | rfl | simp) (by simp) (by simp; simp at h; simp [h2])
  · simp only [wpF_startError, wpF_bind, wpF_current, wpF_ite, wpF_bumpExpect, wpF_pure,
      wpF_completeError]
    refine ⟨fun h3 => ?_, fun h3 => ?_⟩
    · cases toks with
      | nil => simp at h3
      | cons k ts =>
        simp at hne
        simp [hne.1]
        exact Spec.done [.errNode [.tok k] _] (by first | rfl | simp) (by simp)
          (by simp [goodL, toTreeL, toTree, shapedL, shaped, shapedToks, hne.1])
    · exact Spec.done [.errNode [] _] (by first | rfl | simp) (by simp)
        (by simp at h3; simp [goodL, toTreeL, toTree, shapedL, shaped, shapedToks, h3])

theorem errAndBump_spec (msg toks) (hne : NE toks) :
    Spec (errAndBump msg) toks fun _ items toks' => goodL items ∧ ¬ clean items ∧
      (lookahead toks 0 ≠ .eof → lookahead toks 0 ≠ .endKw → toks'.length < toks.length) := by
  refine (errRecover_spec msg _ toks hne).mono ?_
  intro a items toks' _ h
  exact ⟨h.1, h.2.1, fun h1 h2 => h.2.2 h1 h2 (TokenSet.C24_contains_empty _)⟩

/-- items that are all tokens -/
def allToks : List Item → Prop
  | [] => True
  | .tok k :: is => k ≠ .eof ∧ allToks is
  | _ => False

@[simp] theorem allToks_append (a b) : allToks (a ++ b) ↔ allToks a ∧ allToks b := by
  induction a with
  | nil => simp [allToks]
  | cons x xs ih => cases x <;> simp [allToks, ih, and_assoc]

theorem allToks_shaped (a) (h : allToks a) : shapedToks (toTreeL a) := by
  induction a with
  | nil => simp [toTreeL, shapedToks]
  | cons x xs ih =>
    cases x <;> simp [allToks] at h
    simp [toTreeL, toTree, shapedToks, h.1, ih h.2]

theorem errUntilLoop_spec (rec) : ∀ n toks, NE toks → toks.length < n →
    Spec (errUntilLoop rec n) toks fun _ items toks' => allToks items ∧
      (rec.contains (lookahead toks 0) = false → lookahead toks 0 ≠ .eof →
        toks'.length < toks.length) ∧
      (rec.contains (lookahead toks' 0) = true ∨ lookahead toks' 0 = .eof) := by
  intro n
  induction n with
  | zero => intro toks _ h; omega
  | succ n ih =>
    intro toks hne hlen ev cur st
    simp only [errUntilLoop, wpF_bind, wpF_atTs, wpF_atK, wpF_ite, wpF_pure]
    refine ⟨fun h => ?_, fun h => ?_⟩
    · cases toks with
      | nil => simp at h
      | cons k ts =>
        simp at hne hlen
        simp [hne.1]
        refine (ih ts hne.2 (by omega)).use ?_
        rintro _ items toks' ev' h1 - hl ⟨h2, h3, h4⟩
        refine Spec.done (.tok k :: items) (by simp) (by simp [h1]) ⟨by simp [allToks, h2, hne.1], ?_, h4⟩
        intros; omega
    · refine Spec.done [] (by simp) (by simp) ⟨by simp [allToks], ?_, ?_⟩
      · intro a b; simp [a, b] at h
      · simp at h; grind

theorem errUntil_spec (fuel msg rec) (toks) (hne : NE toks) (hf : toks.length < fuel) :
    Spec (errUntil fuel msg rec) toks fun _ items toks' => goodL items ∧ ¬ clean items ∧
      (rec.contains (lookahead toks 0) = false → lookahead toks 0 ≠ .endKw →
        lookahead toks 0 ≠ .eof → toks'.length < toks.length) ∧
      (rec.contains (lookahead toks' 0) = true ∨ lookahead toks' 0 = .endKw
        ∨ lookahead toks' 0 = .eof) := by
  intro ev cur st
  simp only [errUntil, wpF_bind, wpF_startError]
  refine (errUntilLoop_spec _ fuel toks hne hf).use ?_
  rintro _ items toks' ev' h1 - hl ⟨h2, h3, h4⟩
  simp only [wpF_completeError, TokenSet.contains_union, TokenSet.contains_new] at *
  refine Spec.done [.errNode items (.message msg)] (by simp) (by simp [h1]) ⟨?_, by simp, ?_, ?_⟩
  · simp [goodL, toTreeL, toTree, shapedL, shaped, allToks_shaped _ h2]
  · intro a b c; exact h3 (by simp [a, b]) c
  · simp at h4; grind

/-- well shaped, and `R` of the trees if there is no error -/
def GP (R : List PTree → Prop) (items : List Item) : Prop :=
  goodL items ∧ (clean items → R (toTreeL items))

/-! ### names and parameters -/

theorem nameR_spec (rec toks) (hne : NE toks) :
    Spec (nameR rec) toks fun _ items toks' => GP (· = [nameT]) items := by
  intro ev cur st
  simp only [nameR, wpF_bind, wpF_atK, wpF_ite, nameUnchecked, wpF_start]
  refine ⟨fun h => ?_, fun h => ?_⟩
  · obtain ⟨ts, rfl⟩ := lookahead_eq (by simpa using h) (by simp)
    simp
    exact Spec.done [.node ev .name [] [.tok .ident]] (by simp) (by simp)
      (by simp [GP, toTreeL, toTree])
  · refine (errRecover_spec _ rec toks hne).use ?_
    rintro _ items toks' ev' h1 - - ⟨h2, h3, _⟩
    exact Spec.done items rfl h1 (by simp [GP, h2, h3])

theorem nameRefR_spec (rec toks) (hne : NE toks) :
    Spec (nameRefR rec) toks fun _ items toks' => GP (· = [nameRefT]) items := by
  intro ev cur st
  simp only [nameRefR, wpF_bind, wpF_atK, wpF_ite, nameRefUnchecked, wpF_start]
  refine ⟨fun h => ?_, fun h => ?_⟩
  · obtain ⟨ts, rfl⟩ := lookahead_eq (by simpa using h) (by simp)
    simp
    exact Spec.done [.node ev .nameRef [] [.tok .ident]] (by simp) (by simp)
      (by simp [GP, toTreeL, toTree])
  · refine (errRecover_spec _ rec toks hne).use ?_
    rintro _ items toks' ev' h1 - - ⟨h2, h3, _⟩
    exact Spec.done items rfl h1 (by simp [GP, h2, h3])

/-- result of a function that completes one node and returns its marker -/
def NP (k : SyntaxKind) (R : List PTree → Prop) (a : Nat) (items : List Item) : Prop :=
  ∃ bf af, items = [.node a k bf af] ∧ GP R items

theorem nameRef_spec (toks) :
    Spec nameRef toks fun a items toks' => NP .nameRef (· = [nameRefT]) a items ∧
      (lookahead toks 0 = .ident → toks'.length < toks.length) := by
  intro ev cur st
  simp only [nameRef, wpF_bind, wpF_start]
  refine (expect_items (by simp) toks).use ?_
  rintro _ items toks' ev' h1 - - ⟨h2, h3, h4, h5⟩
  simp
  refine Spec.done [.node ev .nameRef [] items] (by simp) (by simp [h1]) ⟨?_, h4⟩
  · have h5' : toTreeL items = [.tok .ident] ∨ ∃ e, toTreeL items = [.err e] := by
      rcases h5 with rfl | ⟨e, rfl⟩ <;> simp [toTreeL, toTree]
    refine ⟨[], items, rfl, by simpa [h2, toTreeL] using h5', ?_⟩
    simp [toTreeL, toTree]; intro h; simp [h3 h, toTreeL, toTree]

theorem name_spec (toks) :
    Spec name toks fun _ items toks' => GP (· = [nameT]) items ∧
      (lookahead toks 0 = .ident → ∃ ev, items = [.node ev .name [] [.tok .ident]]) := by
  intro ev cur st
  simp only [name, wpF_bind, wpF_atK, wpF_ite, wpF_start, wpF_error]
  refine ⟨fun h => ?_, fun h => ?_⟩
  · obtain ⟨ts, rfl⟩ := lookahead_eq (by simpa using h) (by simp)
    simp
    exact Spec.done [.node ev .name [] [.tok .ident]] (by simp) (by simp)
      (by simp [GP, toTreeL, toTree])
  · exact Spec.done [.err _] rfl (by simp) (by simp [GP]; simpa using h)

/-- what the comma-separated tail of a `MultiName` can be when there is no error -/
def NameTailR (va : Bool) (toks' : List SyntaxKind) (ts : List PTree) : Prop :=
  (D .nameTail ts ∧ lookahead toks' 0 ≠ .comma) ∨
  (va = true ∧ lookahead toks' 0 = .tripleDot ∧ ∃ ts', D .nameTail ts' ∧ ts = ts' ++ [.tok .comma])

theorem multiNameRLoop_spec (rec va) : ∀ n toks, NE toks → toks.length < n →
    Spec (multiNameRLoop rec va n) toks fun _ items toks' => GP (NameTailR va toks') items := by
  intro n
  induction n with
  | zero => intro toks _ h; omega
  | succ n ih =>
    intro toks hne hlen ev cur st
    simp only [multiNameRLoop, wpF_bind, wpF_atK, wpF_ite, wpF_pure]
    refine ⟨fun h => ?_, fun h => ?_⟩
    · obtain ⟨ts, rfl⟩ := lookahead_eq (by simpa using h) (by simp)
      simp at hne hlen
      simp
      refine ⟨fun hv ht => ?_, fun hv => ?_⟩
      · refine Spec.done [.tok .comma] rfl (by simp) ?_
        simp [GP, NameTailR, hv, ht, toTreeL, toTree]
        exact Or.inr Deriv.nameTailNil
      · refine (nameR_spec rec ts hne).use ?_
        rintro _ items toks' ev' h1 hne' hl ⟨h2, h3⟩
        refine (ih toks' (hne' hne) (by omega)).use ?_
        rintro _ items2 toks2 ev2 h1' - hl2 ⟨h4, h5⟩
        refine Spec.done (.tok .comma :: (items ++ items2)) (by simp) (by simp [h1, h1']) ?_
        refine ⟨by simp [h2, h4], ?_⟩
        simp
        intro hc1 hc2
        have h3 := h3 hc1
        have h5 := h5 hc2
        simp [toTreeL, toTree, h3]
        rcases h5 with ⟨h5, h6⟩ | ⟨ha, hb, ts', h5, h6⟩
        · exact Or.inl ⟨Deriv.nameTailCons _ h5, h6⟩
        · exact Or.inr ⟨ha, hb, _, Deriv.nameTailCons _ h5, by simp [h6]⟩
    · refine Spec.done [] rfl (by simp) ?_
      simp at h
      exact ⟨by simp, fun _ => Or.inl ⟨by simpa [toTreeL] using Deriv.nameTailNil, h⟩⟩

/-- what a `MultiName` node can be when there is no error -/
def MultiNameR (va : Bool) (toks' : List SyntaxKind) (ts : List PTree) : Prop :=
  (va = true ∧ lookahead toks' 0 = .tripleDot ∧ ts = [.node .multiName []]) ∨
  (∃ tl, ts = [.node .multiName (nameT :: tl)] ∧ NameTailR va toks' tl)

theorem multiNameR_spec (fuel rec va toks) (hne : NE toks) (hf : toks.length < fuel) :
    Spec (multiNameR fuel rec va) toks fun _ items toks' => GP (MultiNameR va toks') items ∧
      (clean items → va = false → toks'.length < toks.length) := by
  intro ev cur st
  simp only [multiNameR, wpF_bind, wpF_start, wpF_atK, wpF_ite]
  simp
  refine ⟨fun hv ht => ?_, fun hv => ?_⟩
  · refine Spec.done [.node ev .multiName [] []] rfl (by simp) ?_
    simp [GP, MultiNameR, hv, ht, toTreeL, toTree]
  · refine (nameR_spec _ toks hne).use ?_
    rintro _ items toks' ev' h1 hne' hl ⟨h2, h3⟩
    refine (multiNameRLoop_spec _ va fuel toks' (hne' hne) (by omega)).use ?_
    rintro _ items2 toks2 ev2 h1' - hl2 ⟨h4, h5⟩
    simp
    refine Spec.done [.node ev .multiName [] (items ++ items2)] (by simp) (by simp [h1, h1']) ?_
    refine ⟨⟨by simp [h2, h4], ?_⟩, ?_⟩
    · simp
      intro hc1 hc2
      exact Or.inr ⟨toTreeL items2, by simp [toTreeL, toTree, h3 hc1], h5 hc2⟩
    · simp
      intro hc1 hc2 hva
      have hy : yld items = [.ident] := by simp [yld, h3 hc1, yieldL, PTree.yield]
      have := congrArg List.length h1
      simp [hy] at this
      omega

theorem paramList_spec (fuel toks) (hne : NE toks) (hf : toks.length < fuel) :
    Spec (paramList fuel) toks fun a items toks' => NP .paramList (D .params) a items := by
  intro ev cur st
  simp only [paramList, wpF_bind, wpF_start]
  refine (expect_spec (by simp) toks).use ?_
  rintro _ i1 t1 e1 y1 ne1 l1 ⟨g1, c1, -⟩
  simp only [wpF_bind, wpF_atTs, wpF_ite, wpF_atK]
  have fin : ∀ mid tm em, toks = yld (i1 ++ mid) ++ tm → goodL mid →
      (clean mid → D .params
        [.node .paramList (.tok .lParen :: (toTreeL mid ++ [.tok .rParen]))]) →
      wpF (expect .rParen) ⟨tm, em, mid.reverse ++ (i1.reverse ++ []), ⟨ev, false, [], cur⟩ :: st⟩
      fun a s' => wpF (complete ev .paramList) s' fun a s' =>
      Post toks cur st (fun items toks' => NP .paramList (D .params) a items) s' := by
    intro mid tm em y g c
    refine (expect_spec (by simp) tm).use ?_
    rintro _ i2 t2 e2 y2 ne2 l2 ⟨g2, c2, -⟩
    simp
    refine Spec.done [.node ev .paramList [] (i1 ++ mid ++ i2)] (by simp) (by simp [y, y2]) ?_
    refine ⟨_, _, rfl, by simp [g1, g, g2], ?_⟩
    simp
    intro h1 h2 h3
    have := c h2
    simpa [toTreeL, toTree, c1 h1, c2 h3] using this
  refine ⟨fun h => ?_, fun h => ⟨fun h2 => ?_, fun h2 => ?_⟩⟩
  · refine (multiNameR_spec fuel _ true t1 (ne1 hne) (by omega)).use ?_
    rintro _ i2 t2 e2 y2 ne2 l2 ⟨⟨g2, c2⟩, -⟩
    refine ⟨fun h3 => ?_, fun h3 => ?_⟩
    · obtain ⟨t3, rfl⟩ := lookahead_eq (by simpa using h3) (by simp)
      simp only [wpF_bump, ne_eq, reduceCtorEq, not_false_eq_true, true_and]
      have hne3 : NE t3 := by have := ne2 (ne1 hne); simp at this; exact this
      refine ⟨fun h4 => ?_, fun h4 => ?_⟩
      · refine (errAndBump_spec _ t3 hne3).use ?_
        rintro _ i4 t4 e4 y4 ne4 l4 ⟨g4, c4, -⟩
        have := fin (i2 ++ .tok .tripleDot :: i4) t4 e4 (by simp [y1, y2, y4]) (by simp [g2, g4])
          (by simp [c4])
        simpa using this
      · have := fin (i2 ++ [.tok .tripleDot]) t3 (e2 + 1) (by simp [y1, y2]) (by simp [g2]) (by
          simp
          intro hc
          rcases c2 hc with ⟨_, _, h5⟩ | ⟨tl, h5, h6 | ⟨_, _, ts', h6, rfl⟩⟩
          · simp [h5, toTreeL, toTree]; exact Deriv.paramsVararg
          · simp [h5, toTreeL, toTree]; exact Deriv.paramsNoComma _ rfl h6.1
          · simp [h5, toTreeL, toTree]; exact Deriv.paramsNamesVararg _ h6)
        simpa using this
    · have := fin i2 t2 e2 (by simp [y1, y2]) g2 (by
        intro hc
        simp at h3
        rcases c2 hc with ⟨_, h5, _⟩ | ⟨tl, h5, h6 | ⟨_, h6, _⟩⟩
        · exact absurd h5 h3
        · simp [h5, toTreeL, toTree]; exact Deriv.paramsNames _ h6.1
        · exact absurd h6 h3)
      simpa using this
  · simp [PARAM_END, TokenSet.contains_new] at h h2
    rw [h2] at h; simp at h
  · have := fin [] t1 e1 (by simp [y1]) (by simp) (by
      intro _; simpa [toTreeL, toTree] using Deriv.paramsEmpty)
    simpa using this

/-! ### expressions -/

abbrev ibp := infixBindingPower
abbrev la (toks : List SyntaxKind) : SyntaxKind := lookahead toks 0

/-- binding powers of the operators exposed on the right edge of an expression -/
def rightPows : PTree → List Nat
  | .node .infixExpr [_, .tok op, r] => (ibp op).2 :: rightPows r
  | .node .prefixExpr [.tok op, e] => prefixBindingPower op :: rightPows e
  | _ => []

/-- what follows a complete expression `t` does not belong to it -/
def follow (t : PTree) (k : SyntaxKind) : Prop :=
  (∀ p ∈ rightPows t, (ibp k).1 < p) ∧ k ≠ .lBracket ∧ k ≠ .dot ∧
  (endsCallable t = true → k ≠ .lBrace ∧ k ≠ .lParen ∧ k ≠ .str ∧ k ≠ .colon)

/-- a complete expression with binding power at least `m` -/
def ExprR (m : Nat) (toks' : List SyntaxKind) (ts : List PTree) : Prop :=
  ∃ t, ts = [t] ∧ D .expr [t] ∧ (∀ q ∈ leftOps t, m ≤ (ibp q).1) ∧ follow t (la toks') ∧
    (ibp (la toks')).1 < m

/-- result of `expr_bp` -/
structure PE (m : Nat) (toks : List SyntaxKind) (a : Option Nat) (items : List Item)
    (toks' : List SyntaxKind) : Prop where
  good : goodL items
  none : a = none → ¬ clean items
  some : ∀ p, a = some p → (∃ k bf af, items = [.node p k bf af]) ∧ toks'.length < toks.length
  expr : clean items → ExprR m toks' (toTreeL items)
  progress : la toks ∈ exprFirst → toks'.length < toks.length

/-- result of `block` -/
structure PB (toks : List SyntaxKind) (items : List Item) (toks' : List SyntaxKind) : Prop where
  good : GP (fun ts => ∃ b, ts = [b] ∧ D .block [b]) items
  follow : la toks' ∈ [SyntaxKind.eof, .endKw, .elseifKw, .elseKw, .untilKw]

/-- the recursive functions meet their specifications on inputs small enough for the fuel `b` -/
structure RecOK (r : Rec) (b : Nat) : Prop where
  expr : ∀ toks m, NE toks → 0 < m → 2 * toks.length + 1 ≤ b → Spec (r.exprBp m) toks (PE m toks)
  block : ∀ toks, NE toks → 2 * toks.length + 2 ≤ b → Spec r.block toks fun _ => PB toks

theorem expr_single_spec {r b} (hr : RecOK r b) (toks) (hne : NE toks)
    (hb : 2 * toks.length + 1 ≤ b) : Spec (exprSingle r) toks (PE 1 toks) :=
  hr.expr toks 1 hne (by omega) hb

/-- an expression whose neighbours do not matter -/
theorem PE.gp {m toks a items toks'} (h : PE m toks a items toks') :
    GP (fun ts => ∃ t, ts = [t] ∧ D .expr [t]) items :=
  ⟨h.good, fun hc => by
    obtain ⟨t, h1, h2, _⟩ := h.expr hc
    exact ⟨t, h1, h2⟩⟩

/-- the follow conditions of a list of expressions -/
def followL (ts : List PTree) (k : SyntaxKind) : Prop :=
  k ≠ .lBracket ∧ k ≠ .dot ∧
  (endsCallableL ts = true → k ≠ .lBrace ∧ k ≠ .lParen ∧ k ≠ .str ∧ k ≠ .colon)

theorem exprMultiLoop_spec {r b} (hr : RecOK r b) : ∀ n toks, NE toks → toks.length < n →
    2 * toks.length ≤ b →
    Spec (exprMultiLoop r n) toks fun _ items toks' => GP (fun ts =>
      D .exprTail ts ∧ la toks' ≠ .comma ∧ (ts ≠ [] → followL ts (la toks')) ∧
      (ts = [] → toks' = toks)) items := by
  intro n
  induction n with
  | zero => intro toks _ h; omega
  | succ n ih =>
    intro toks hne hlen hb ev cur st
    simp only [exprMultiLoop, wpF_bind, wpF_atK, wpF_ite, wpF_pure]
    refine ⟨fun h => ?_, fun h => ?_⟩
    · obtain ⟨ts, rfl⟩ := lookahead_eq (by simpa using h) (by simp)
      simp at hne hlen hb
      simp
      refine (expr_single_spec hr ts hne (by omega)).use ?_
      rintro _ i1 t1 e1 y1 ne1 l1 p1
      refine (ih t1 (ne1 hne) (by omega) (by omega)).use ?_
      rintro _ i2 t2 e2 y2 ne2 l2 ⟨g2, c2⟩
      refine Spec.done (.tok .comma :: (i1 ++ i2)) (by simp) (by simp [y1, y2]) ?_
      refine ⟨by simp [p1.good, g2], ?_⟩
      simp
      intro hc1 hc2
      obtain ⟨t, h1, h2, h3, h4, h5⟩ := p1.expr hc1
      obtain ⟨d1, d2, d3, d4⟩ := c2 hc2
      simp [toTreeL, toTree, h1]
      refine ⟨Deriv.tailCons _ _ h2 d1, d2, ?_⟩
      cases hts : toTreeL i2 with
      | nil =>
        rw [d4 hts]
        exact ⟨h4.2.1, h4.2.2.1, by simpa [endsCallableL] using h4.2.2.2⟩
      | cons x xs =>
        have := d3 (by simp [hts])
        simpa [followL, endsCallableL, hts] using this
    · refine Spec.done [] rfl (by simp) ?_
      simp at h
      exact ⟨by simp, fun _ => ⟨by simpa [toTreeL] using Deriv.tailNil, h, by simp [toTreeL],
        by simp⟩⟩

/-- result of `expr`: one `MultivalExpr` -/
def MultivalR (toks' : List SyntaxKind) (ts : List PTree) : Prop :=
  ∃ m, ts = [m] ∧ D .multival [m] ∧ followL [m] (la toks') ∧ la toks' ≠ .comma ∧
    kindOf m = some .multivalExpr

theorem expr_spec {r b} (hr : RecOK r b) (fuel toks) (hne : NE toks) (hf : toks.length < fuel)
    (hb : 2 * toks.length + 1 ≤ b) :
    Spec (expr r fuel) toks fun a items toks' => NP .multivalExpr (MultivalR toks') a items ∧
      (la toks ∈ exprFirst → toks'.length < toks.length) := by
  intro ev cur st
  simp only [expr, wpF_bind, wpF_start]
  refine (expr_single_spec hr toks hne hb).use ?_
  rintro _ i1 t1 e1 y1 ne1 l1 p1
  refine (exprMultiLoop_spec hr fuel t1 (ne1 hne) (by omega) (by omega)).use ?_
  rintro _ i2 t2 e2 y2 ne2 l2 ⟨g2, c2⟩
  simp
  refine Spec.done [.node ev .multivalExpr [] (i1 ++ i2)] (by simp) (by simp [y1, y2]) ⟨?_, ?_⟩
  · refine ⟨_, _, rfl, by simp [p1.good, g2], ?_⟩
    simp
    intro hc1 hc2
    obtain ⟨t, h1, h2, h3, h4, h5⟩ := p1.expr hc1
    obtain ⟨d1, d2, d3, d4⟩ := c2 hc2
    refine ⟨_, by simp [toTreeL, toTree, h1], Deriv.multival _ _ h2 d1, ?_, d2, by simp [kindOf]⟩
    cases hts : toTreeL i2 with
    | nil =>
      rw [d4 hts]
      exact ⟨h4.2.1, h4.2.2.1, by simpa [endsCallableL, endsCallable, endsInExpr] using h4.2.2.2⟩
    | cons x xs =>
      have := d3 (by simp [hts])
      simpa [followL, endsCallableL, endsCallable, endsInExpr, hts] using this
  · intro h; have := p1.progress h; omega

theorem index_spec {r b} (hr : RecOK r b) (toks) (hne : NE toks) (hb : 2 * toks.length ≤ b)
    (hat : la toks = .lBracket) :
    Spec (index r) toks fun a items toks' => NP .index (D .index) a items ∧
      toks'.length < toks.length := by
  obtain ⟨ts, rfl⟩ := lookahead_eq hat (by simp)
  intro ev cur st
  simp at hne hb
  simp only [index, wpF_bind, wpF_start, wpF_bump]
  refine ⟨by simp, ?_⟩
  refine (expr_single_spec hr ts hne (by omega)).use ?_
  rintro _ i1 t1 e1 y1 ne1 l1 p1
  refine (expect_spec (by simp) t1).use ?_
  rintro _ i2 t2 e2 y2 ne2 l2 ⟨g2, c2, -⟩
  simp
  refine Spec.done [.node ev .index [] (.tok .lBracket :: (i1 ++ i2))] (by simp) (by simp [y1, y2])
    ⟨⟨_, _, rfl, by simp [p1.good, g2], ?_⟩, by lomega⟩
  simp
  intro hc1 hc2
  obtain ⟨t, h1, h2⟩ := p1.gp.2 hc1
  simp [toTreeL, toTree, h1, c2 hc2]
  exact Deriv.index _ h2

theorem tableSep_spec (toks) (h : la toks = .comma ∨ la toks = .semicolon) :
    Spec tableSep toks fun a items toks' =>
      GP (fun ts => ∃ k ∈ [SyntaxKind.comma, .semicolon], ts = [.node .tableSep [.tok k]]) items ∧
      toks'.length < toks.length := by
  obtain ⟨k, ts, rfl, hk⟩ : ∃ k ts, toks = k :: ts ∧ (k = .comma ∨ k = .semicolon) := by
    rcases h with h | h <;> obtain ⟨ts, rfl⟩ := lookahead_eq h (by simp)
    · exact ⟨_, _, rfl, by simp⟩
    · exact ⟨_, _, rfl, by simp⟩
  intro ev cur st
  have hk' : k ≠ .eof := by rintro rfl; simp at hk
  simp [tableSep, bumpTs, TABLE_SEP, TokenSet.contains_new, hk, hk']
  refine Spec.done [.node ev .tableSep [] [.tok k]] rfl (by simp) ⟨⟨by simp [hk'], ?_⟩, by simp⟩
  intro _
  rcases hk with rfl | rfl <;> simp [toTreeL, toTree]

theorem contains_EXPR_FIRST (k) : EXPR_FIRST.contains k = decide (k ∈ exprFirst) := by
  simp [EXPR_FIRST, LHS_FIRST, ATOM_EXPR_FIRST, LITERAL_FIRST, TokenSet.contains_union,
    TokenSet.contains_new, exprFirst, literalKinds, or_assoc, Bool.or_assoc]

theorem contains_LITERAL_FIRST (k) : LITERAL_FIRST.contains k = decide (k ∈ literalKinds) := by
  simp [LITERAL_FIRST, TokenSet.contains_new, literalKinds]

theorem contains_CALL_FIRST (k) :
    CALL_FIRST.contains k = decide (k ∈ [SyntaxKind.lBrace, .lParen, .str]) := by
  simp [CALL_FIRST, TokenSet.contains_new]

theorem tableContent_spec {r b} (hr : RecOK r b) (toks) (hne : NE toks)
    (hb : 2 * toks.length + 1 ≤ b) :
    Spec (tableContent r) toks fun a items toks' => NP .tableContent (D .tableContent) a items ∧
      (clean items → la toks' ≠ .lBracket) ∧
      (toks'.length < toks.length ∨ (toks' = toks ∧ la toks ≠ .lBracket)) := by
  intro ev cur st
  simp only [tableContent, wpF_bind, wpF_start, wpF_current, wpF_ite]
  refine ⟨fun h => ?_, fun h => ⟨fun h2 => ?_, fun h2 => ?_⟩⟩
  · obtain ⟨ts, rfl⟩ := lookahead_eq (by simpa using h) (by simp)
    simp only [wpF_nth, wpF_bind, wpF_start, lookahead_cons1, nameUnchecked, wpF_bump, wpF_complete]
    refine ⟨fun h3 => ?_, fun h3 => ?_⟩
    · obtain ⟨ts, rfl⟩ := lookahead_eq (by simpa using h3) (by simp)
      simp only [wpF_bump, wpF_bind]
      simp at hne hb ⊢
      refine (expr_single_spec hr ts hne (by omega)).use ?_
      rintro _ i1 t1 e1 y1 ne1 l1 p1
      simp
      refine Spec.done [.node ev .tableContent [] [.node (ev+1) .keyValue []
        (.node (ev+2) .tableKey [] [.node (ev+3) .name [] [.tok .ident]] :: .tok .eq :: i1)]]
        (by simp) (by simp [y1]) ⟨⟨_, _, rfl, by simp [p1.good, toTreeL, toTree], ?_⟩, ?_⟩
      · simp
        intro hc
        obtain ⟨t, h1, h2⟩ := p1.gp.2 hc
        simp [toTreeL, toTree, h1]
        exact Deriv.namedField _ h2
      · refine ⟨?_, Or.inl (by lomega)⟩
        simp
        intro hc
        obtain ⟨t, h1, h2, h3, h4, h5⟩ := p1.expr hc
        exact h4.2.1
    · refine (expr_single_spec hr _ hne hb).use ?_
      rintro _ i1 t1 e1 y1 ne1 l1 p1
      simp
      refine Spec.done [.node ev .tableContent [] [.node (ev+1) .positionalValue [] i1]]
        (by simp) (by simp [y1]) ⟨⟨_, _, rfl, by simp [p1.good], ?_⟩, ?_⟩
      · simp
        intro hc
        obtain ⟨t, h1, h2⟩ := p1.gp.2 hc
        simp [toTreeL, toTree, h1]
        exact Deriv.positional _ h2
      · refine ⟨?_, Or.inl (p1.progress (by simp [exprFirst]))⟩
        simp
        intro hc
        obtain ⟨t, h1, h2, h3, h4, h5⟩ := p1.expr hc
        exact h4.2.1
  · refine (index_spec hr toks hne (by omega) (by simpa using h2)).use ?_
    rintro a1 i1 t1 e1 y1 ne1 l1 ⟨⟨bf, af, rfl, g1, c1⟩, l1⟩
    simp only [wpF_complete]
    refine ⟨by simp, ?_⟩
    refine (expect_spec (by simp) t1).use ?_
    rintro _ i2 t2 e2 y2 ne2 l2 ⟨g2, c2, -⟩
    refine (expr_single_spec hr t2 (ne2 (ne1 hne)) (by omega)).use ?_
    rintro _ i3 t3 e3 y3 ne3 l3 p3
    simp
    refine Spec.done [.node ev .tableContent [] [.node (ev+1) .keyValue []
        (.node (ev+2) .tableKey [] [.node a1 .index bf af] :: (i2 ++ i3))]]
        (by first | rfl | simp) (by simp [y1, y2, y3]) ⟨⟨_, _, rfl, by simp [p3.good, g2] at g1 ⊢; exact g1, ?_⟩, ?_, ?_⟩
    · simp
      intro hb ha hc2 hc3
      obtain ⟨t, h1, h2⟩ := p3.gp.2 hc3
      have := c1 (by simp [hb, ha])
      simp [toTreeL, toTree, h1, c2 hc2] at this ⊢
      exact Deriv.indexedField _ _ this h2
    · simp
      intro _ _ _ hc
      obtain ⟨t, h1, h2, h3, h4, h5⟩ := p3.expr hc
      exact h4.2.1
    · exact Or.inl (by omega)
  · simp only [wpF_bind, wpF_atTs, wpF_ite, wpF_start, contains_EXPR_FIRST]
    refine ⟨fun h3 => ?_, fun h3 => ?_⟩
    · refine (expr_single_spec hr _ hne hb).use ?_
      rintro _ i1 t1 e1 y1 ne1 l1 p1
      simp
      refine Spec.done [.node ev .tableContent [] [.node (ev+1) .positionalValue [] i1]]
        (by simp) (by simp [y1]) ⟨⟨_, _, rfl, by simp [p1.good], ?_⟩, ?_, ?_⟩
      · simp
        intro hc
        obtain ⟨t, h1, h2⟩ := p1.gp.2 hc
        simp [toTreeL, toTree, h1]
        exact Deriv.positional _ h2
      · simp
        intro hc
        obtain ⟨t, h1, h2, h3, h4, h5⟩ := p1.expr hc
        exact h4.2.1
      · exact Or.inl (p1.progress (by simpa using h3))
    · simp
      refine Spec.done [.node ev .tableContent [] [.err (.message "Expected an expression")]]
        (by simp) (by simp) ⟨⟨_, _, rfl, by simp, by simp⟩, by simp, ?_⟩
      · simp at h2; exact Or.inr ⟨rfl, h2⟩

theorem tableInnerLoop_spec (fuel0) : ∀ n toks, NE toks → toks.length < n → toks.length < fuel0 →
    Spec (tableInnerLoop fuel0 n) toks fun _ items toks' => GP (fun ts =>
        (ts = [] ∧ toks' = toks ∧ (la toks ∈ [SyntaxKind.eof, .endKw, .rBrace] ∨ la toks = .lBracket)) ∨
        (∃ k ∈ [SyntaxKind.comma, .semicolon], ts = [.node .tableSep [.tok k]])) items ∧
      (la toks ∉ [SyntaxKind.eof, .endKw, .rBrace, .lBracket] → toks'.length < toks.length) := by
  intro n
  induction n with
  | zero => intro toks _ h; omega
  | succ n ih =>
    intro toks hne hlen hf ev cur st
    simp only [tableInnerLoop, wpF_bind, wpF_atTs, wpF_ite, wpF_pure, TABLE_END, TABLE_SEP,
      TABLE_RECOVERY, TokenSet.contains_new, TokenSet.contains_union]
    refine ⟨fun h => ⟨fun h2 => ?_, fun h2 => ⟨fun h3 => ?_, fun h3 => ?_⟩⟩, fun h => ?_⟩
    · refine (tableSep_spec toks (by simpa using h2)).use ?_
      rintro _ i1 t1 e1 y1 ne1 l1 ⟨⟨g1, c1⟩, l1'⟩
      exact Spec.done i1 (by simp) y1 ⟨⟨g1, fun hc => Or.inr (c1 hc)⟩, fun _ => l1'⟩
    · refine Spec.done [] rfl (by simp) ⟨⟨by simp, fun _ => Or.inl ⟨by simp [toTreeL], rfl, ?_⟩⟩, ?_⟩
      · simp at h h2 h3 ⊢; grind
      · simp at h h2 h3 ⊢; grind
    · refine (errUntil_spec fuel0 _ TABLE_RECOVERY toks hne hf).use ?_
      rintro _ i1 t1 e1 y1 ne1 l1 ⟨g1, c1, p1, -⟩
      have hlt : t1.length < toks.length := by
        apply p1
        · simp only [TABLE_RECOVERY, TABLE_SEP, TokenSet.contains_new, TokenSet.contains_union]
          simpa using h3
        · simp at h; grind
        · simp at h; grind
      refine (ih t1 (ne1 hne) (by omega) (by omega)).use ?_
      rintro _ i2 t2 e2 y2 ne2 l2 ⟨⟨g2, c2⟩, -⟩
      refine Spec.done (i1 ++ i2) (by simp) (by simp [y1, y2]) ⟨⟨by simp [g1, g2], by simp [c1]⟩, ?_⟩
      intro _; omega
    · refine Spec.done [] rfl (by simp) ⟨⟨by simp, fun _ => Or.inl ⟨by simp [toTreeL], rfl, ?_⟩⟩, ?_⟩
      · simp at h; simp; grind
      · simp at h; simp; grind

theorem tableLoop_spec {r b} (hr : RecOK r b) (fuel0) : ∀ n toks, NE toks → toks.length < n →
    toks.length < fuel0 → 2 * toks.length + 1 ≤ b →
    Spec (tableLoop r fuel0 n) toks fun _ items toks' =>
      GP (D .tableItems) items ∧ (la toks ∈ [SyntaxKind.eof, .endKw, .rBrace] → items = []) := by
  intro n
  induction n with
  | zero => intro toks _ h; omega
  | succ n ih =>
    intro toks hne hlen hf hb ev cur st
    simp only [tableLoop, wpF_bind, wpF_atTs, wpF_ite, wpF_pure, TABLE_END, TokenSet.contains_new]
    refine ⟨fun h => ?_, fun h => ?_⟩
    · refine (tableContent_spec hr toks hne hb).use ?_
      rintro _ i1 t1 e1 y1 ne1 l1 ⟨⟨bf, af, hi1, g1, c1⟩, f1, p1⟩
      refine (tableInnerLoop_spec fuel0 fuel0 t1 (ne1 hne) (by omega) (by omega)).use ?_
      rintro _ i2 t2 e2 y2 ne2 l2 ⟨⟨g2, c2⟩, p2⟩
      have hlt : t2.length < toks.length := by
        rcases p1 with p1 | ⟨rfl, p1⟩
        · omega
        · refine p2 ?_
          simp at h p1 ⊢; grind
      refine (ih t2 (ne2 (ne1 hne)) (by omega) (by omega) (by omega)).use ?_
      rintro _ i3 t3 e3 y3 ne3 l3 ⟨⟨g3, c3⟩, n3⟩
      refine Spec.done (i1 ++ i2 ++ i3) (by simp) (by simp [y1, y2, y3])
        ⟨⟨by simp [g1, g2, g3], ?_⟩, ?_⟩
      · simp
        intro hc1 hc2 hc3
        have d1 := c1 hc1
        have d3 := c3 hc3
        rw [hi1] at d1 ⊢
        rcases c2 hc2 with ⟨h1, rfl, h3⟩ | ⟨k, hk, h1⟩
        · have hn : i3 = [] := by
            rcases h3 with h3 | h3
            · exact n3 h3
            · exact absurd h3 (f1 hc1)
          simp [h1, hn, toTreeL]
          simp [toTreeL] at d1
          exact Deriv.itemsLast _ d1
        · simp [h1]
          simp [toTreeL] at d1 ⊢
          exact Deriv.itemsCons _ _ _ d1 hk d3
      · intro hh; simp at h hh; grind
    · refine Spec.done [] rfl (by simp) ⟨⟨by simp, fun _ => ?_⟩, fun _ => rfl⟩
      simpa [toTreeL] using Deriv.itemsNil

end Verif
