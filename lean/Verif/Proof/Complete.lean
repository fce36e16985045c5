import Verif.Proof.ParseMain

/-
Completeness of the recursive descent: on the tokens of a derivation tree the parser rebuilds exactly
that tree.
-/
set_option linter.unusedSimpArgs false
set_option linter.unusedVariables false
namespace Verif
open Item PTree Lua P Grammar

/-- `p` on `toks` builds exactly the trees `ts` and leaves `rest`. -/
def Runs {α : Type} (p : Prog α) (toks : List SyntaxKind) (ts : List PTree)
    (rest : List SyntaxKind) : Prop :=
  Spec p toks fun _ items toks' => toTreeL items = ts ∧ toks' = rest

/-- `p` builds exactly the node `t` and returns its marker. -/
def RunsN (p : Prog Nat) (toks : List SyntaxKind) (t : PTree) (rest : List SyntaxKind) : Prop :=
  Spec p toks fun a items toks' => (∃ k bf af, items = [.node a k bf af]) ∧
    toTreeL items = [t] ∧ toks' = rest

theorem RunsN.runs {p toks t rest} (h : RunsN p toks t rest) : Runs p toks [t] rest :=
  Spec.mono h fun _ _ _ _ h => h.2

theorem Runs.use {α : Type} {p : Prog α} {toks ts rest ev cur st} {Q : α → FState → Prop}
    (h : Runs p toks ts rest)
    (hq : ∀ a items ev', toTreeL items = ts → Q a ⟨rest, ev', items.reverse ++ cur, st⟩) :
    wpF p ⟨toks, ev, cur, st⟩ Q := by
  refine Spec.use h ?_
  rintro a items toks' ev' y - - ⟨h1, rfl⟩
  exact hq a items ev' h1

theorem RunsN.use {p : Prog Nat} {toks t rest ev cur st} {Q : Nat → FState → Prop}
    (h : RunsN p toks t rest)
    (hq : ∀ a k bf af ev', toTree (.node a k bf af) = t →
      Q a ⟨rest, ev', .node a k bf af :: cur, st⟩) :
    wpF p ⟨toks, ev, cur, st⟩ Q := by
  refine Spec.use h ?_
  rintro a items toks' ev' y - - ⟨⟨k, bf, af, rfl⟩, h1, rfl⟩
  exact hq a k bf af ev' (by simpa [toTreeL] using h1)

/-- final state of `Runs` -/
def RPost (rest : List SyntaxKind) (cur : List Item) (st : List Frame) (ts : List PTree)
    (s' : FState) : Prop :=
  ∃ items ev', s' = ⟨rest, ev', items.reverse ++ cur, st⟩ ∧ toTreeL items = ts

/-- final state of `RunsN` -/
def RPostN (rest : List SyntaxKind) (cur : List Item) (st : List Frame) (t : PTree) (a : Nat)
    (s' : FState) : Prop :=
  ∃ k bf af ev', s' = ⟨rest, ev', .node a k bf af :: cur, st⟩ ∧ toTree (.node a k bf af) = t

theorem RPost.mk {rest cur st ts ev' all} (items : List Item) (h : all = items.reverse ++ cur)
    (ht : toTreeL items = ts) : RPost rest cur st ts ⟨rest, ev', all, st⟩ :=
  ⟨items, ev', by rw [h], ht⟩

theorem RPostN.mk {rest cur st t a ev' k bf af} (ht : toTree (.node a k bf af) = t) :
    RPostN rest cur st t a ⟨rest, ev', .node a k bf af :: cur, st⟩ :=
  ⟨k, bf, af, ev', rfl, ht⟩

theorem runs_intro {α : Type} {p : Prog α} {toks ts rest} (hy : toks = yieldL ts ++ rest)
    (h : ∀ ev cur st, wpF p ⟨toks, ev, cur, st⟩ fun _ s' => RPost rest cur st ts s') :
    Runs p toks ts rest := by
  intro ev cur st
  refine wpF_mono (h ev cur st) ?_
  rintro a s ⟨items, ev', rfl, h1⟩
  exact ⟨items, rest, ev', rfl, by rw [hy, yld, h1], h1, rfl⟩

theorem runsN_intro {p : Prog Nat} {toks t rest} (hy : toks = yield t ++ rest)
    (h : ∀ ev cur st, wpF p ⟨toks, ev, cur, st⟩ fun a s' => RPostN rest cur st t a s') :
    RunsN p toks t rest := by
  intro ev cur st
  refine wpF_mono (h ev cur st) ?_
  rintro a s ⟨k, bf, af, ev', rfl, h1⟩
  exact ⟨[.node a k bf af], rest, ev', rfl, by rw [hy, yld]; simp [toTreeL, h1, yieldL],
    ⟨k, bf, af, rfl⟩, by simp [toTreeL, h1], rfl⟩

/-- `k` ends an expression (list) `ts` -/
def stop (ts : List PTree) (k : SyntaxKind) : Prop :=
  (ibp k).1 = 0 ∧ k ≠ .lBracket ∧ k ≠ .dot ∧
  (endsCallableL ts = true → k ≠ .lBrace ∧ k ≠ .lParen ∧ k ≠ .str ∧ k ≠ .colon)

/-- what completeness says about one expression tree -/
structure ExprC (t : PTree) : Prop where
  pos : ∀ p ∈ rightPows t, 0 < p
  lpos : ∀ q ∈ leftOps t, 0 < (ibp q).1
  first : ∃ k ∈ exprFirst, ∃ l, yield t = k :: l
  second : ∀ rest, la rest ≠ .eq → la (yield t) = .ident → lookahead (yield t ++ rest) 1 ≠ .eq
  loop : ∀ n fuel m rest, 2 * (yield t ++ rest).length ≤ n → (yield t ++ rest).length ≤ fuel →
    (∀ q ∈ leftOps t, m ≤ (ibp q).1) → follow t (la rest) →
    ∀ ev cur st Q, (∀ p k bf af ev' f', toTree (.node p k bf af) = t → rest.length < f' →
      wpF (exprBpLoop (recN n) m f' p) ⟨rest, ev', .node p k bf af :: cur, st⟩
        (fun a s => Q (some a) s)) →
    wpF (exprBp (recN n) fuel m) ⟨yield t ++ rest, ev, cur, st⟩ Q
  post : indexable t → ∀ n fuel rest, 2 * (yield t ++ rest).length ≤ n →
    (yield t ++ rest).length ≤ fuel →
    ∀ ev cur st Q, (∀ p k bf af ev' f', toTree (.node p k bf af) = t → rest.length < f' →
      wpF (postfixExpr (recN n) fuel f' p (decide (kindOf t ≠ some .literal)))
        ⟨rest, ev', .node p k bf af :: cur, st⟩ (fun a s => Q (some a) s)) →
    wpF (lhs (recN n) fuel) ⟨yield t ++ rest, ev, cur, st⟩ Q

theorem ExprC.run {t} (h : ExprC t) (n m rest) (hb : 2 * (yield t ++ rest).length + 1 ≤ n)
    (hl : ∀ q ∈ leftOps t, m ≤ (ibp q).1) (hf : follow t (la rest))
    (hm : (ibp (la rest)).1 < m) : Runs ((recN n).exprBp m) (yield t ++ rest) [t] rest := by
  obtain ⟨n', rfl⟩ : ∃ n', n = n' + 1 := ⟨n - 1, by omega⟩
  refine runs_intro (by simp [yieldL]) ?_
  intro ev cur st
  show wpF (exprBp (recN n') n' m) _ _
  refine h.loop n' n' m rest (by omega) (by omega) hl hf _ _ _ _ ?_
  intro p k bf af ev' f' ht hlt
  obtain ⟨f'', rfl⟩ : ∃ f'', f' = f'' + 1 := ⟨f' - 1, by omega⟩
  simp only [exprBpLoop, wpF_bind, wpF_current, wpF_ite, wpF_pure]
  refine ⟨fun _ => ?_, fun hc => absurd hm hc⟩
  exact RPost.mk [.node p k bf af] rfl (by simp [toTreeL, ht])

theorem ExprC.follow_of_stop {t} (h : ExprC t) {k} (hs : stop [t] k) : follow t k := by
  refine ⟨fun p hp => ?_, hs.2.1, hs.2.2.1, by simpa [endsCallableL] using hs.2.2.2⟩
  have := h.pos p hp
  rw [hs.1]; exact this

theorem ExprC.run1 {t} (h : ExprC t) (n rest) (hb : 2 * (yield t ++ rest).length + 1 ≤ n)
    (hs : stop [t] (la rest)) : Runs (exprSingle (recN n)) (yield t ++ rest) [t] rest :=
  h.run n 1 rest hb (fun q hq => h.lpos q hq) (h.follow_of_stop hs) (by rw [hs.1]; simp)

/-- `lhs` builds `t` -/
def LhsC (t : PTree) : Prop := ∀ n fuel rest, 2 * (yield t ++ rest).length ≤ n →
    (yield t ++ rest).length ≤ fuel → follow t (la rest) →
    ∀ ev cur st Q, (∀ p k bf af ev', toTree (.node p k bf af) = t →
      Q (some p) ⟨rest, ev', .node p k bf af :: cur, st⟩) →
    wpF (lhs (recN n) fuel) ⟨yield t ++ rest, ev, cur, st⟩ Q

theorem loop_of_lhs {t} (h : LhsC t) (hne : yield t ≠ []) :
    ∀ n fuel m rest, 2 * (yield t ++ rest).length ≤ n → (yield t ++ rest).length ≤ fuel →
    (∀ q ∈ leftOps t, m ≤ (ibp q).1) → follow t (la rest) →
    ∀ ev cur st Q, (∀ p k bf af ev' f', toTree (.node p k bf af) = t → rest.length < f' →
      wpF (exprBpLoop (recN n) m f' p) ⟨rest, ev', .node p k bf af :: cur, st⟩
        (fun a s => Q (some a) s)) →
    wpF (exprBp (recN n) fuel m) ⟨yield t ++ rest, ev, cur, st⟩ Q := by
  intro n fuel m rest hb hf _ hfo ev cur st Q hq
  simp only [exprBp, wpF_bind]
  refine h n fuel rest hb hf hfo _ _ _ _ ?_
  intro p k bf af ev' ht
  simp only [wpF_bind, wpF_pure]
  refine hq p k bf af ev' fuel ht ?_
  have : (yield t).length ≠ 0 := by simpa using hne
  simp at hf
  omega

theorem lhs_of_post {t} (hn : kindOf t = some .literal ∨ endsCallable t = true)
    (h : ∀ n fuel rest, 2 * (yield t ++ rest).length ≤ n →
    (yield t ++ rest).length ≤ fuel →
    ∀ ev cur st Q, (∀ p k bf af ev' f', toTree (.node p k bf af) = t → rest.length < f' →
      wpF (postfixExpr (recN n) fuel f' p (decide (kindOf t ≠ some .literal)))
        ⟨rest, ev', .node p k bf af :: cur, st⟩ (fun a s => Q (some a) s)) →
    wpF (lhs (recN n) fuel) ⟨yield t ++ rest, ev, cur, st⟩ Q) : LhsC t := by
  intro n fuel rest hb hf hfo ev cur st Q hq
  refine h n fuel rest hb hf ev cur st Q ?_
  intro p k bf af ev' f' ht hlt
  obtain ⟨f'', rfl⟩ : ∃ f'', f' = f'' + 1 := ⟨f' - 1, by omega⟩
  have key : kindOf t ≠ some .literal → endsCallable t = true := by
    intro h'; rcases hn with hn | hn
    · exact absurd hn h'
    · exact hn
  obtain ⟨-, h1, h2, h3⟩ := hfo
  simp only [postfixExpr, wpF_bind, wpF_current, wpF_ite, wpF_atTs, contains_CALL_FIRST, wpF_pure]
  refine ⟨fun hc => ?_, fun _ => ⟨fun hc => ?_, fun _ => ⟨fun hc => ?_, fun _ => ⟨fun hc => ?_,
    fun _ => hq p k bf af ev' ht⟩⟩⟩⟩
  · simp at hc
    have := h3 (key hc.1)
    grind
  · simp at hc
    have := h3 (key hc.2)
    grind
  · simp at hc; exact absurd hc h1
  · simp at hc; exact absurd hc h2

end Verif
