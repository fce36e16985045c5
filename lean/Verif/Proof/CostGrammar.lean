import Verif.Proof.Cost

/-
The number of steps of the grammar functions.
-/
set_option linter.unusedSimpArgs false
set_option linter.unusedVariables false
namespace Verif
open P Grammar

variable {c : SyntaxKind → Prop} {r : Rec}

theorem Cost.acceptAny : Cost c (some 1) 2 P.acceptAny := by
  refine Cost.le (Cost.current (z := some 0) (b := 1) fun k => ?_) (by decide) (by decide)
  refine Cost.le (Cost.ite (fun _ => Cost.bind Cost.bumpExpect fun _ => Cost.pure _) (fun _ => Cost.pure _))
    (by decide) (by decide)

theorem Cost.accept {k} : Cost c (some 1) 2 (P.accept k) := by
  refine Cost.le (Cost.atK (z1 := some 0) (b1 := 1) (z2 := some 0) (b2 := 1) ?_ ?_) (by decide) (by decide)
  · exact Cost.le (Cost.bind Cost.bumpExpect fun _ => Cost.pure _) (by decide) (by decide)
  · exact Cost.le (Cost.pure _) (by decide) (by decide)

/-- `accept`, followed by an assertion that it succeeded -/
private theorem taken {g : Prog Bool} {p : SyntaxKind → Bool}
    (hg : g = P.current >>= fun k => if p k then (P.bumpExpect >>= fun _ => pure true) else pure false)
    {f : Bool → Prog Unit} (h1 : f true = pure ()) (h2 : f false = Prog.panic) : Cost c none 2 (g >>= f) := by
  have e : (g >>= f) = (P.current >>= fun k => if p k then (P.bumpExpect >>= fun _ => pure ()) else Prog.panic) := by
    subst hg
    show Prog.bind (Prog.bind _ _) f = _
    simp only [P.current, Prog.bind, Bind.bind]
    congr 1
    funext k
    by_cases hk : p k = true
    · simp only [hk, if_true, P.bumpExpect, Prog.bind]
      congr 1
      funext b
      cases b
      · simp [Prog.bind]
      · show f true = _
        simp [Prog.bind, h1]
    · rw [if_neg hk, if_neg hk]
      exact h2
  rw [e]
  exact Cost.le (Cost.current (z := none) (b := 1) fun k =>
    Cost.le (Cost.ite (fun _ => Cost.bind Cost.bumpExpect fun _ => Cost.pure _) (fun _ => Cost.panic))
      (by decide) (by decide)) (by decide) (by decide)

theorem Cost.bump {k} : Cost c none 2 (P.bump k) := by
  refine taken (p := fun x => x == k) ?_ rfl rfl
  rfl

theorem Cost.bumpAny : Cost c none 2 P.bumpAny := by
  refine taken (p := fun x => x != .eof) ?_ rfl rfl
  rfl

/-- one step through a grammar function -/
macro "cstep" : tactic => `(tactic| with_reducible first
  | exact Cost.pure _ | exact Cost.panic | exact Cost.fuel | exact Cost.complete | exact Cost.completeError
  | exact Cost.error | exact Cost.pushError | exact Cost.bump | exact Cost.bumpAny | exact Cost.accept
  | exact Cost.acceptAny | exact Cost.bumpExpect
  | apply Cost.current
  | apply Cost.nth
  | apply Cost.atK
  | apply Cost.atTs
  | apply Cost.start
  | apply Cost.startError
  | apply Cost.precede
  | apply Cost.ite
  | apply Cost.bind
  | intro _)

syntax "csteps" "[" term,* "]" : tactic
macro_rules
  | `(tactic| csteps [$ts,*]) => do
    let ts := ts.getElems
    `(tactic| (apply Cost.le;
               (repeat' (first $[| with_reducible exact $ts]* | cstep | dsimp only | contradiction));
               all_goals (try decide)))

theorem Cost.bumpTs {ts} : Cost c none 3 (P.bumpTs ts) := by
  unfold P.bumpTs; csteps []

theorem Cost.expect {k} : Cost c (some 2) 3 (P.expect k) := by
  unfold P.expect; csteps []

/-- the token is there -/
theorem Cost.expectC {k} (hk : ∀ x, c x → x = k) : Cost c none 3 (P.expect k) := by
  unfold P.expect
  refine Cost.le (Cost.current (z := none) (b := 2) fun x => ?_) (by decide) (by decide)
  by_cases h : x = k
  · rw [if_pos (by simp [h])]; exact Cost.le (Cost.bind Cost.bumpAny fun _ => Cost.pure _) (by decide) (by decide)
  · exact Cost.le (Cost.absurd fun y hy => h (hy.2 ▸ hk y hy.1)) (by decide) (by decide)

theorem Cost.errRecover {msg ts} : Cost c (some 5) 6 (P.errRecover msg ts) := by
  unfold P.errRecover; csteps []

/-- takes a token if it may -/
theorem Cost.errAndBumpC {msg} (h : ∀ x, c x → x ≠ .eof ∧ x ≠ .endKw) : Cost c none 6 (P.errAndBump msg) := by
  unfold P.errAndBump P.errRecover
  refine Cost.le (Cost.current (z := none) (b := 5) fun k => ?_) (by decide) (by decide)
  by_cases hk : c k
  · rw [if_neg (by simpa using (h k hk).2)]
    refine Cost.le (Cost.atTs (z1 := none) (b1 := 0) (z2 := none) (b2 := 4) ?_ ?_) (by decide) (by decide)
    · refine Cost.absurd fun x hx => ?_
      have := hx.2
      rw [TokenSet.C24_contains_empty] at this; simp at this
    · rw [if_neg (by simp)]
      refine Cost.le (Cost.startError (z := none) (b := 3) fun m => ?_) (by decide) (by decide)
      refine Cost.le (Cost.bind (z1 := none) (b1 := 2) (z2 := some 1) (b2 := 0) ?_ fun _ => Cost.completeError)
        (by decide) (by decide)
      unfold P.acceptAny
      refine Cost.le (Cost.current (z := none) (b := 1) fun x => ?_) (by decide) (by decide)
      by_cases hx : x = .eof
      · exact Cost.le (Cost.absurd fun y hy => (h y hy.1.1.1).1 (hy.2.trans hx)) (by decide) (by decide)
      · rw [if_pos (by simpa using hx)]
        exact Cost.le (Cost.bind Cost.bumpExpect fun _ => Cost.pure _) (by decide) (by decide)
  · exact Cost.le (Cost.absurd fun y hy => hk (hy.2 ▸ hy.1)) (by decide) (by decide)

theorem Cost.errAndBump {msg} : Cost c (some 5) 6 (P.errAndBump msg) := Cost.errRecover

theorem Cost.errUntilLoop {ts : TokenSet} : ∀ n {c}, Cost c (some 2) 6 (P.errUntilLoop ts n) := by
  intro n
  induction n with
  | zero => intro c; exact Cost.fuel.le rfl (by decide)
  | succ n ih => intro c; unfold P.errUntilLoop; csteps [ih]

theorem Cost.errUntil {fuel msg} {ts : TokenSet} : Cost c (some 4) 8 (P.errUntil fuel msg ts) := by
  unfold P.errUntil; csteps [Cost.errUntilLoop _]

theorem Cost.errUntilC {fuel msg} {ts : TokenSet} (h : ∀ x, c x → ts.contains x = false ∧ x ≠ .eof ∧ x ≠ .endKw) :
    Cost c none 8 (P.errUntil fuel msg ts) := by
  unfold P.errUntil
  refine Cost.le (Cost.startError (z := none) (b := 7) fun m => ?_) (by decide) (by decide)
  refine Cost.le (Cost.bind (z1 := none) (b1 := 6) (z2 := some 1) (b2 := 0) ?_ fun _ => Cost.completeError)
    (by decide) (by decide)
  cases fuel with
  | zero => exact Cost.fuel.le rfl (by decide)
  | succ n =>
    unfold P.errUntilLoop
    refine Cost.le (Cost.atTs (z1 := none) (b1 := 0) (z2 := none) (b2 := 5) ?_ ?_) (by decide) (by decide)
    · refine Cost.absurd fun x hx => ?_
      have h1 := h x hx.1
      have h2 := hx.2
      simp only [TokenSet.contains_union, TokenSet.contains_new, h1.1, Bool.false_or] at h2
      simp [h1] at h2
    · refine Cost.le (Cost.atK (z1 := none) (b1 := 0) (z2 := none) (b2 := 4) ?_ ?_) (by decide) (by decide)
      · refine Cost.absurd fun x hx => ?_
        exact (h x hx.1.1).2.1 (by simpa using hx.2)
      · rw [if_pos (by simp)]
        exact Cost.le (Cost.bind Cost.bumpAny fun _ => Cost.errUntilLoop n) (by decide) (by decide)

/-! ### names -/

theorem Cost.nameUnchecked : Cost c none 4 nameUnchecked := by unfold Grammar.nameUnchecked; csteps []
theorem Cost.nameR {ts} : Cost c (some 6) 7 (nameR ts) := by
  unfold Grammar.nameR; csteps [Cost.nameUnchecked, Cost.errRecover]
theorem Cost.nameRefUnchecked : Cost c none 4 nameRefUnchecked := by unfold Grammar.nameRefUnchecked; csteps []
theorem Cost.nameRefR {ts} : Cost c (some 6) 7 (nameRefR ts) := by
  unfold Grammar.nameRefR; csteps [Cost.nameRefUnchecked, Cost.errRecover]
theorem Cost.nameRef : Cost c (some 4) 5 nameRef := by unfold Grammar.nameRef; csteps [Cost.expect]
theorem Cost.nameRefC (h : ∀ x, c x → x = .ident) : Cost c none 5 Grammar.nameRef := by
  unfold Grammar.nameRef; csteps [Cost.expectC h]
theorem Cost.name : Cost c (some 2) 5 name := by unfold Grammar.name; csteps []

theorem Cost.multiNameRLoop {ts v} : ∀ n {c}, Cost c (some 1) 11 (multiNameRLoop ts v n) := by
  intro n
  induction n with
  | zero => intro c; exact Cost.fuel.le rfl (by decide)
  | succ n ih => intro c; unfold Grammar.multiNameRLoop; csteps [Cost.nameR, ih]

theorem Cost.multiNameR {fuel ts v} : Cost c (some 10) 20 (multiNameR fuel ts v) := by
  unfold Grammar.multiNameR; csteps [Cost.nameR, Cost.multiNameRLoop _]

theorem Cost.paramList {fuel} : Cost c (some 20) 35 (paramList fuel) := by
  unfold Grammar.paramList; csteps [Cost.multiNameR, Cost.errAndBump, Cost.expect]

/-! ### expressions -/

/-- steps of an expression and of a block -/
abbrev exprZ : Nat := 13
abbrev exprB : Nat := 60
abbrev blockZ : Nat := 3
abbrev blockB : Nat := 92

/-- the kinds the parser starts an expression statement at -/
def ExprStart (x : SyntaxKind) : Prop := x = .ident ∨ x = .lParen

structure RC (r : Rec) : Prop where
  exprC : ∀ {c n}, (∀ x, c x → ExprStart x) → Cost c none exprB (r.exprBp n)
  expr : ∀ {c n}, Cost c (some exprZ) exprB (r.exprBp n)
  block : ∀ {c}, Cost c (some blockZ) blockB r.block

theorem Cost.exprSingle (hr : RC r) : Cost c (some exprZ) exprB (exprSingle r) := hr.expr

theorem Cost.exprMultiLoop (hr : RC r) : ∀ n {c}, Cost c (some 1) 17 (exprMultiLoop r n) := by
  intro n
  induction n with
  | zero => intro c; exact Cost.fuel.le rfl (by decide)
  | succ n ih => intro c; unfold Grammar.exprMultiLoop; csteps [Cost.exprSingle hr, ih]

theorem Cost.expr (hr : RC r) {fuel} : Cost c (some 16) 63 (expr r fuel) := by
  unfold Grammar.expr; csteps [Cost.exprSingle hr, Cost.exprMultiLoop hr _]

theorem Cost.exprC (hr : RC r) {fuel} (h : ∀ x, c x → ExprStart x) : Cost c none 63 (Grammar.expr r fuel) := by
  unfold Grammar.expr Grammar.exprSingle; csteps [hr.exprC h, Cost.exprMultiLoop hr _]

theorem Cost.index (hr : RC r) : Cost c none 19 (index r) := by
  unfold Grammar.index; csteps [Cost.exprSingle hr, Cost.expect]

theorem Cost.tableSep : Cost c none 5 tableSep := by unfold Grammar.tableSep; csteps [Cost.bumpTs]

theorem Cost.tableContent (hr : RC r) : Cost c (some 22) 90 (tableContent r) := by
  unfold Grammar.tableContent
  csteps [Cost.exprSingle hr, Cost.nameUnchecked, Cost.index hr, Cost.expect]

/-- takes a token unless it is at a token that cannot start a field -/
theorem Cost.tableContentC (hr : RC r) (h : ∀ x, c x → x = .lBracket) : Cost c none 90 (Grammar.tableContent r) := by
  unfold Grammar.tableContent
  refine Cost.le (Cost.start (z := none) (b := 70) fun m => ?_) (by decide) (by decide)
  refine Cost.le (Cost.current (z := none) (b := 69) fun k => ?_) (by decide) (by decide)
  by_cases hk : k = .lBracket
  · subst hk
    rw [if_neg (by decide), if_pos (by decide)]
    csteps [Cost.exprSingle hr, Cost.index hr, Cost.expect]
  · exact Cost.le (Cost.absurd fun y hy => hk (hy.2 ▸ h y hy.1)) (by decide) (by decide)

theorem Cost.split {p : Prog α} {z1 z2 : Option Nat} {b1 b2 : Nat} (k : SyntaxKind)
    (h1 : Cost (fun x => c x ∧ x = k) z1 b1 p) (h2 : Cost (fun x => c x ∧ x ≠ k) z2 b2 p) :
    Cost c (zmax z1 z2) (max b1 b2) p := by
  have l1 : zle z1 (zmax z1 z2) = true := by cases z1 <;> cases z2 <;> simp [zle, zmax]; omega
  have l2 : zle z2 (zmax z1 z2) = true := by cases z1 <;> cases z2 <;> simp [zle, zmax]; omega
  intro s a s' hc hr
  by_cases hk : lookahead s.toks 0 = k
  · exact (h1.le l1 (by omega)) s a s' ⟨hc, hk⟩ hr
  · exact (h2.le l2 (by omega)) s a s' ⟨hc, hk⟩ hr

private theorem correctC {fuel} (h : ∀ x, c x → TABLE_END.contains x = false ∧ TABLE_RECOVERY.contains x = false) :
    Cost c none 8 (tableCorrect fuel) := by
  refine Cost.errUntilC fun x hx => ⟨(h x hx).2, ?_⟩
  have := (h x hx).1
  simp only [TABLE_END, TokenSet.contains_new] at this
  simp at this
  grind

theorem Cost.tableInnerLoop {fuel} : ∀ n {c}, Cost c (some 3) 14 (tableInnerLoop fuel n) := by
  intro n
  induction n with
  | zero => intro c; exact Cost.fuel.le rfl (by decide)
  | succ n ih =>
    intro c; unfold Grammar.tableInnerLoop
    refine Cost.le (Cost.atTs (z1 := some 0) (b1 := 0) (z2 := some 2) (b2 := 13) ?_ ?_) (by decide) (by decide)
    · rw [if_neg (by simp)]; exact Cost.pure _
    · rw [if_pos (by simp)]
      refine Cost.le (Cost.atTs (z1 := none) (b1 := 5) (z2 := some 1) (b2 := 12) ?_ ?_) (by decide) (by decide)
      · rw [if_pos rfl]; csteps [Cost.tableSep]
      · rw [if_neg (by simp)]
        refine Cost.le (Cost.atTs (z1 := some 0) (b1 := 0) (z2 := none) (b2 := 11) ?_ ?_) (by decide) (by decide)
        · rw [if_pos rfl]; exact Cost.pure _
        · rw [if_neg (by simp)]
          csteps [ih, correctC fun x hx => ⟨hx.1.1.2, hx.2⟩]

/-- takes a token unless the next one ends the table or starts the next field -/
theorem Cost.tableInnerLoopC {fuel n} (h : ∀ x, c x → TABLE_END.contains x = false ∧ x ≠ .lBracket) :
    Cost c none 14 (Grammar.tableInnerLoop fuel n) := by
  cases n with
  | zero => exact Cost.fuel.le rfl (by decide)
  | succ n =>
    unfold Grammar.tableInnerLoop
    refine Cost.le (Cost.atTs (z1 := none) (b1 := 0) (z2 := none) (b2 := 13) ?_ ?_) (by decide) (by decide)
    · refine Cost.absurd fun x hx => ?_
      have h1 := (h x hx.1).1
      have h2 := hx.2
      rw [h1] at h2; cases h2
    · rw [if_pos (by simp)]
      refine Cost.le (Cost.atTs (z1 := none) (b1 := 5) (z2 := none) (b2 := 12) ?_ ?_) (by decide) (by decide)
      · rw [if_pos rfl]; csteps [Cost.tableSep]
      · rw [if_neg (by simp)]
        refine Cost.le (Cost.atTs (z1 := none) (b1 := 0) (z2 := none) (b2 := 11) ?_ ?_) (by decide) (by decide)
        · refine Cost.absurd fun x hx => ?_
          have h1 := h x hx.1.1.1
          have h2 := hx.1.2
          have h3 := hx.2
          simp only [TABLE_END, TABLE_RECOVERY, TABLE_SEP, TokenSet.contains_new, TokenSet.contains_union] at h1 h2 h3
          simp at h1 h2 h3
          grind
        · rw [if_neg (by simp)]
          csteps [Cost.tableInnerLoop n, correctC fun x hx => ⟨(h x hx.1.1.1).1, hx.2⟩]

theorem Cost.tableLoop (hr : RC r) {fuel} : ∀ n {c}, Cost c (some 1) 96 (tableLoop r fuel n) := by
  intro n
  induction n with
  | zero => intro c; exact Cost.fuel.le rfl (by decide)
  | succ n ih =>
    intro c; unfold Grammar.tableLoop
    refine Cost.le (Cost.atTs (z1 := some 0) (b1 := 0) (z2 := none) (b2 := 95) ?_ ?_) (by decide) (by decide)
    · rw [if_neg (by simp)]; exact Cost.pure _
    · rw [if_pos (by simp)]
      refine Cost.le (Cost.split .lBracket (z1 := none) (b1 := 95) (z2 := none) (b2 := 95) ?_ ?_) (by decide) (by decide)
      · csteps [Cost.tableContentC hr fun x hx => hx.2, Cost.tableInnerLoop _, ih]
      · refine Cost.le (Cost.bind' (Cost.tableContent hr)
          (fun _ => Cost.bind (Cost.tableInnerLoop fuel) fun _ => ih)
          (fun _ => Cost.bind (Cost.tableInnerLoopC fun x hx => ⟨hx.1.2, hx.2⟩) fun _ => ih)) (by decide) (by decide)

theorem Cost.tableExpr (hr : RC r) {fuel} : Cost c none 10 (tableExpr r fuel) := by
  unfold Grammar.tableExpr; csteps [Cost.tableLoop hr _, Cost.expect]

theorem Cost.functionExpr (hr : RC r) {fuel} : Cost c none 40 (functionExpr r fuel) := by
  unfold Grammar.functionExpr; csteps [Cost.paramList, hr.block, Cost.expect]

theorem Cost.argList (hr : RC r) {fuel} : Cost c none 25 (argList r fuel) := by
  unfold Grammar.argList; csteps [Cost.expr hr, Cost.expect]

theorem Cost.callArgs (hr : RC r) {fuel} : Cost c none 30 (callArgs r fuel) := by
  unfold Grammar.callArgs; csteps [Cost.argList hr, Cost.tableExpr hr]

theorem Cost.callExpr (hr : RC r) {fuel l} : Cost c none 32 (callExpr r fuel l) := by
  unfold Grammar.callExpr; csteps [Cost.callArgs hr]

theorem Cost.indexExpr (hr : RC r) {l} : Cost c none 21 (indexExpr r l) := by
  unfold Grammar.indexExpr; csteps [Cost.index hr]

theorem Cost.methodCallExpr (hr : RC r) {fuel l} : Cost c none 12 (methodCallExpr r fuel l) := by
  unfold Grammar.methodCallExpr; csteps [Cost.callArgs hr, Cost.nameRef]

theorem Cost.dotExpr {l} : Cost c none 7 (dotExpr l) := by unfold Grammar.dotExpr; csteps [Cost.expect]

theorem Cost.postfixExpr (hr : RC r) {fuel} : ∀ n {c l b}, Cost c (some 2) 37 (postfixExpr r fuel n l b) := by
  intro n
  induction n with
  | zero => intro c l b; exact Cost.fuel.le rfl (by decide)
  | succ n ih =>
    intro c l b; unfold Grammar.postfixExpr
    csteps [Cost.callExpr hr, Cost.methodCallExpr hr, Cost.indexExpr hr, Cost.dotExpr, ih]

theorem Cost.parenExpr (hr : RC r) (h : ∀ x, c x → x = .lParen) : Cost c none 21 (parenExpr r) := by
  unfold Grammar.parenExpr; csteps [Cost.expectC h, Cost.expect, hr.expr]

theorem Cost.literal : Cost c none 5 literal := by unfold Grammar.literal; csteps []

theorem Cost.prefixExpr (hr : RC r) {n} : Cost c none 18 (prefixExpr r n) := by
  unfold Grammar.prefixExpr
  refine Cost.le (Cost.start (z := none) (b := 17) fun m => ?_) (by decide) (by decide)
  refine Cost.le (Cost.bind Cost.bumpAny (z2 := some 14) (b2 := 61) fun _ => ?_) (by decide) (by decide)
  refine Cost.le (Cost.bind hr.expr (z2 := some 1) (b2 := 1) ?_) (by decide) (by decide)
  intro x
  cases x
  · exact Cost.le Cost.panic (by decide) (by decide)
  · csteps []

theorem Cost.atomExpr (hr : RC r) {fuel} : Cost c (some 8) 44 (atomExpr r fuel) := by
  unfold Grammar.atomExpr
  refine Cost.le (Cost.current (z := some 7) (b := 43) fun k => ?_) (by decide) (by decide)
  by_cases hb : prefixBindingPower k > 0
  · rw [if_pos hb]
    refine Cost.le (Cost.bind (Cost.prefixExpr hr) (z2 := some 0) (b2 := 0) ?_) (by decide) (by decide)
    intro x
    cases x <;> exact Cost.pure _
  · rw [if_neg hb]
    refine Cost.le (Cost.atTs (z1 := none) (b1 := 5) (z2 := some 6) (b2 := 42) ?_ ?_) (by decide) (by decide)
    · rw [if_pos rfl]; csteps [Cost.literal]
    · rw [if_neg (by simp)]
      refine Cost.le (Cost.current (z := some 5) (b := 41) fun k => ?_) (by decide) (by decide)
      by_cases h1 : k = .functionKw
      · rw [if_pos (by simp [h1])]; csteps [Cost.functionExpr hr]
      rw [if_neg (by simpa using h1)]
      by_cases h1 : k = .lBrace
      · rw [if_pos (by simp [h1])]; csteps [Cost.tableExpr hr]
      rw [if_neg (by simpa using h1)]
      by_cases h1 : k = .ident
      · rw [if_pos (by simp [h1])]; csteps [Cost.nameRefC fun x hx => hx.2.trans h1]
      rw [if_neg (by simpa using h1)]
      by_cases h1 : k = .lParen
      · rw [if_pos (by simp [h1])]; csteps [Cost.parenExpr hr fun x hx => hx.2.trans h1]
      rw [if_neg (by simpa using h1)]
      csteps [Cost.errRecover]

theorem Cost.atomExprC (hr : RC r) {fuel} (h : ∀ x, c x → ExprStart x) : Cost c none 44 (Grammar.atomExpr r fuel) := by
  unfold Grammar.atomExpr
  refine Cost.le (Cost.current (z := none) (b := 43) fun k => ?_) (by decide) (by decide)
  by_cases hk : ExprStart k
  · have hb : ¬ prefixBindingPower k > 0 := by rcases hk with rfl | rfl <;> decide
    have hl : ∀ x, c x → LITERAL_FIRST.contains x = false := fun x hx => by rcases h x hx with rfl | rfl <;> decide
    rw [if_neg hb]
    refine Cost.le (Cost.atTs (z1 := none) (b1 := 5) (z2 := none) (b2 := 42) ?_ ?_) (by decide) (by decide)
    · exact Cost.le (Cost.absurd fun y hy => by have := hy.2; rw [hl y hy.1.1] at this; cases this) (by decide) (by decide)
    · rw [if_neg (by simp)]
      refine Cost.le (Cost.current (z := none) (b := 41) fun k => ?_) (by decide) (by decide)
      by_cases h1 : k = .functionKw
      · rw [if_pos (by simp [h1])]; csteps [Cost.functionExpr hr]
      rw [if_neg (by simpa using h1)]
      by_cases h1 : k = .lBrace
      · rw [if_pos (by simp [h1])]; csteps [Cost.tableExpr hr]
      rw [if_neg (by simpa using h1)]
      by_cases h1 : k = .ident
      · rw [if_pos (by simp [h1])]; csteps [Cost.nameRefC fun x hx => hx.2.trans h1]
      rw [if_neg (by simpa using h1)]
      by_cases h2 : k = .lParen
      · rw [if_pos (by simp [h2])]; csteps [Cost.parenExpr hr fun x hx => hx.2.trans h2]
      exact Cost.le (Cost.absurd fun y hy => by rcases h y hy.1.1.1 with e | e <;> (rw [hy.2] at e; contradiction)) (by decide) (by decide)
  · exact Cost.le (Cost.absurd fun y hy => hk (hy.2 ▸ h y hy.1)) (by decide) (by decide)

private theorem lhs_tail (hr : RC r) {fuel} (x : Option (Nat × Bool)) : Cost c (some 2) 37 (match x with
    | none => (pure none : Prog (Option Nat))
    | some (l, canCall) => do return some (← Grammar.postfixExpr r fuel fuel l canCall)) := by
  cases x with
  | none => exact (Cost.pure _).le (by decide) (by decide)
  | some x =>
    obtain ⟨l, b⟩ := x
    show Cost c (some 2) 37 (Grammar.postfixExpr r fuel fuel l b >>= fun x => pure (some x))
    csteps [Cost.postfixExpr hr _]

theorem Cost.lhs (hr : RC r) {fuel} : Cost c (some 11) 47 (lhs r fuel) := by
  unfold Grammar.lhs
  refine Cost.le (Cost.current (z := some 10) (b := 46) fun k => ?_) (by decide) (by decide)
  by_cases hb : prefixBindingPower k > 0
  · rw [if_pos hb]; csteps [hr.expr]
  · rw [if_neg hb]
    exact Cost.le (Cost.bind (Cost.atomExpr hr) fun x => lhs_tail hr x) (by decide) (by decide)

theorem Cost.lhsC (hr : RC r) {fuel} (h : ∀ x, c x → ExprStart x) : Cost c none 47 (Grammar.lhs r fuel) := by
  unfold Grammar.lhs
  refine Cost.le (Cost.current (z := none) (b := 46) fun k => ?_) (by decide) (by decide)
  by_cases hb : prefixBindingPower k > 0
  · rw [if_pos hb]; csteps [hr.expr]
  · rw [if_neg hb]
    exact Cost.le (Cost.bind (Cost.atomExprC hr fun x hx => h x hx.1) fun x => lhs_tail hr x) (by decide) (by decide)

theorem Cost.exprBpLoop (hr : RC r) {m} : ∀ n {c l}, Cost c (some 1) 19 (exprBpLoop r m n l) := by
  intro n
  induction n with
  | zero => intro c l; exact Cost.fuel.le rfl (by decide)
  | succ n ih => intro c l; unfold Grammar.exprBpLoop; csteps [hr.expr, ih]

private theorem exprBp_tail (hr : RC r) {fuel n} (x : Option Nat) : Cost c (some 1) 19 (match x with
    | none => (pure none : Prog (Option Nat))
    | some l => do return some (← Grammar.exprBpLoop r n fuel l)) := by
  cases x with
  | none => exact (Cost.pure _).le (by decide) (by decide)
  | some l =>
    show Cost c (some 1) 19 (Grammar.exprBpLoop r n fuel l >>= fun x => pure (some x))
    csteps [Cost.exprBpLoop hr _]

theorem Cost.exprBp (hr : RC r) {fuel n} : Cost c (some exprZ) exprB (exprBp r fuel n) := by
  unfold Grammar.exprBp
  exact Cost.le (Cost.bind (Cost.lhs hr) fun x => exprBp_tail hr x) (by decide) (by decide)

theorem Cost.exprBpC (hr : RC r) {fuel n} (h : ∀ x, c x → ExprStart x) : Cost c none exprB (Grammar.exprBp r fuel n) := by
  unfold Grammar.exprBp
  exact Cost.le (Cost.bind (Cost.lhsC hr h) fun x => exprBp_tail hr x) (by decide) (by decide)

/-! ### statements -/

theorem Cost.elseBranch (hr : RC r) : Cost c none 20 (elseBranch r) := by
  unfold Grammar.elseBranch; csteps [hr.block]

theorem Cost.elseifBranch (hr : RC r) : ∀ n {c}, Cost c none 40 (elseifBranch r n) := by
  intro n
  induction n with
  | zero => intro c; exact Cost.fuel.le rfl (by decide)
  | succ n ih =>
    intro c; unfold Grammar.elseifBranch; csteps [Cost.exprSingle hr, Cost.expect, hr.block, Cost.elseBranch hr, ih]

theorem Cost.ifStmt (hr : RC r) {fuel} : Cost c none 40 (ifStmt r fuel) := by
  unfold Grammar.ifStmt
  csteps [Cost.exprSingle hr, Cost.expect, hr.block, Cost.elseBranch hr, Cost.elseifBranch hr _]

theorem Cost.gotoStmt : Cost c none 8 gotoStmt := by unfold Grammar.gotoStmt; csteps [Cost.nameRef]

theorem Cost.labelDelim : Cost c (some 4) 5 labelDelim := by unfold Grammar.labelDelim; csteps [Cost.expect]

theorem Cost.labelDelimC (h : ∀ x, c x → x = .doubleColon) : Cost c none 5 Grammar.labelDelim := by
  unfold Grammar.labelDelim; csteps [Cost.expectC h]

theorem Cost.labelStmt : Cost c none 19 labelStmt := by
  unfold Grammar.labelStmt
  refine Cost.le (Cost.atK (z1 := none) (b1 := 18) (z2 := none) (b2 := 0) ?_ ?_) (by decide) (by decide)
  · rw [if_neg (by simp)]
    csteps [Cost.labelDelimC fun x hx => by simpa using hx.2, Cost.labelDelim, Cost.nameR]
  · rw [if_pos (by simp)]; exact Cost.panic

theorem Cost.whileStmt (hr : RC r) : Cost c none 30 (whileStmt r) := by
  unfold Grammar.whileStmt; csteps [Cost.exprSingle hr, Cost.expect, hr.block]

theorem Cost.genericFor (hr : RC r) {fuel} : Cost c (some 30) 80 (genericFor r fuel) := by
  unfold Grammar.genericFor; csteps [Cost.exprSingle hr, Cost.expect, Cost.multiNameR]

theorem Cost.numericFor (hr : RC r) {fuel} : Cost c (some 30) 80 (numericFor r fuel) := by
  unfold Grammar.numericFor; csteps [Cost.expr hr, Cost.name]

theorem Cost.forContent (hr : RC r) {fuel} : Cost c (some 34) 84 (forContent r fuel) := by
  unfold Grammar.forContent; csteps [Cost.genericFor hr, Cost.numericFor hr]

theorem Cost.forStmt (hr : RC r) {fuel} : Cost c none 50 (forStmt r fuel) := by
  unfold Grammar.forStmt; csteps [Cost.forContent hr, Cost.expect, hr.block]

theorem Cost.repeatUntilStmt (hr : RC r) : Cost c none 30 (repeatUntilStmt r) := by
  unfold Grammar.repeatUntilStmt; csteps [Cost.exprSingle hr, Cost.expect, hr.block]

theorem Cost.breakStmt : Cost c none 4 breakStmt := by unfold Grammar.breakStmt; csteps []

theorem Cost.localFunctionDefStmt (hr : RC r) {fuel} : Cost c none 50 (localFunctionDefStmt r fuel) := by
  unfold Grammar.localFunctionDefStmt; csteps [Cost.nameR, Cost.paramList, Cost.expect, hr.block]

theorem Cost.localAssignStmt (hr : RC r) {fuel} : Cost c none 50 (localAssignStmt r fuel) := by
  unfold Grammar.localAssignStmt; csteps [Cost.multiNameR, Cost.expr hr]

theorem Cost.localStmt (hr : RC r) {fuel} : Cost c none 51 (localStmt r fuel) := by
  unfold Grammar.localStmt; csteps [Cost.localFunctionDefStmt hr, Cost.localAssignStmt hr]

theorem Cost.exprStmtC (hr : RC r) {fuel} (h : ∀ x, c x → ExprStart x) : Cost c none 84 (exprStmt r fuel) := by
  unfold Grammar.exprStmt
  refine Cost.le (Cost.start (z := none) (b := 83) fun m => ?_) (by decide) (by decide)
  refine Cost.le (Cost.bind (Cost.exprC hr h) (z2 := some 18) (b2 := 80) fun _ => ?_) (by decide) (by decide)
  csteps [Cost.expr hr]

theorem Cost.indexPathLoop : ∀ n {c}, Cost c (some 2) 13 (indexPathLoop n) := by
  intro n
  induction n with
  | zero => intro c; exact Cost.fuel.le rfl (by decide)
  | succ n ih => intro c; unfold Grammar.indexPathLoop; csteps [Cost.nameRefR, ih]

theorem Cost.indexPath {fuel} : Cost c (some 10) 21 (indexPath fuel) := by
  unfold Grammar.indexPath; csteps [Cost.nameRefR, Cost.indexPathLoop _]

theorem Cost.functionDefContent {fuel} : Cost c (some 24) 40 (functionDefContent fuel) := by
  unfold Grammar.functionDefContent; csteps [Cost.nameR, Cost.indexPath]

theorem Cost.functionDefStmt (hr : RC r) {fuel} (h : ∀ x, c x → x = .functionKw) : Cost c none 60 (functionDefStmt r fuel) := by
  unfold Grammar.functionDefStmt; csteps [Cost.expectC h, Cost.functionDefContent, Cost.paramList, Cost.expect, hr.block]

theorem Cost.doStmt (hr : RC r) : Cost c none 30 (doStmt r) := by
  unfold Grammar.doStmt; csteps [Cost.expect, hr.block]

theorem Cost.returnStmt (hr : RC r) {fuel} : Cost c none 30 (returnStmt r fuel) := by
  unfold Grammar.returnStmt; csteps [Cost.expr hr]

theorem Cost.unmatchedEnd : Cost c none 4 unmatchedEnd := by unfold Grammar.unmatchedEnd; csteps []

theorem Cost.stmtCore (hr : RC r) {fuel} (h : ∀ x, c x → x ≠ .eof) : Cost c none 86 (stmtCore r fuel) := by
  unfold Grammar.stmtCore
  refine Cost.le (Cost.current (z := none) (b := 85) fun k => ?_) (by decide) (by decide)
  by_cases h1 : k = .ifKw
  · rw [if_pos (by simp [h1])]; csteps [Cost.ifStmt hr]
  rw [if_neg (by simpa using h1)]
  by_cases h1 : k = .doubleColon
  · rw [if_pos (by simp [h1])]; csteps [Cost.labelStmt]
  rw [if_neg (by simpa using h1)]
  by_cases h1 : k = .gotoKw
  · rw [if_pos (by simp [h1])]; csteps [Cost.gotoStmt]
  rw [if_neg (by simpa using h1)]
  by_cases h1 : k = .localKw
  · rw [if_pos (by simp [h1])]; csteps [Cost.localStmt hr]
  rw [if_neg (by simpa using h1)]
  by_cases h1 : k = .repeatKw
  · rw [if_pos (by simp [h1])]; csteps [Cost.repeatUntilStmt hr]
  rw [if_neg (by simpa using h1)]
  by_cases h1 : k = .functionKw
  · rw [if_pos (by simp [h1])]; csteps [Cost.functionDefStmt hr fun x hx => hx.2.trans h1]
  rw [if_neg (by simpa using h1)]
  by_cases h1 : k = .returnKw
  · rw [if_pos (by simp [h1])]; csteps [Cost.returnStmt hr]
  rw [if_neg (by simpa using h1)]
  by_cases h1 : k = .doKw
  · rw [if_pos (by simp [h1])]; csteps [Cost.doStmt hr]
  rw [if_neg (by simpa using h1)]
  by_cases h1 : k = .whileKw
  · rw [if_pos (by simp [h1])]; csteps [Cost.whileStmt hr]
  rw [if_neg (by simpa using h1)]
  by_cases h1 : k = .forKw
  · rw [if_pos (by simp [h1])]; csteps [Cost.forStmt hr]
  rw [if_neg (by simpa using h1)]
  by_cases h1 : k = .breakKw
  · rw [if_pos (by simp [h1])]; csteps [Cost.breakStmt]
  rw [if_neg (by simpa using h1)]
  by_cases h1 : k = .ident
  · rw [if_pos (by simp [h1])]; exact Cost.le (Cost.bind (Cost.exprStmtC hr fun x hx => .inl (hx.2.trans h1)) fun _ => Cost.pure _) (by decide) (by decide)
  rw [if_neg (by simpa using h1)]
  by_cases h1 : k = .lParen
  · rw [if_pos (by simp [h1])]; exact Cost.le (Cost.bind (Cost.exprStmtC hr fun x hx => .inr (hx.2.trans h1)) fun _ => Cost.pure _) (by decide) (by decide)
  rw [if_neg (by simpa using h1)]
  by_cases h1 : k = .semicolon
  · rw [if_pos (by simp [h1])]
    exact (Cost.errAndBumpC fun x hx => ⟨h x hx.1, by rw [hx.2, h1]; decide⟩).le (by decide) (by decide)
  rw [if_neg (by simpa using h1)]
  refine Cost.le (Cost.atTs (z1 := none) (b1 := 10) (z2 := none) (b2 := 10) ?_ ?_) (by decide) (by decide)
  · rw [if_pos rfl]
    refine (Cost.errAndBumpC fun x hx => ⟨h x hx.1.1, ?_⟩).le (by decide) (by decide)
    rintro rfl
    exact _root_.absurd hx.2 (by decide)
  · rw [if_neg (by simp)]
    by_cases h1 : k = .endKw
    · rw [if_pos (by simp [h1])]; exact Cost.unmatchedEnd.le (by decide) (by decide)
    rw [if_neg (by simpa using h1)]
    exact (Cost.errAndBumpC fun x hx => ⟨h x hx.1.1, by rw [hx.1.2]; exact h1⟩).le (by decide) (by decide)

theorem Cost.stmt (hr : RC r) {fuel} (h : ∀ x, c x → x ≠ .eof) : Cost c none 87 (stmt r fuel) := by
  unfold Grammar.stmt; csteps [Cost.stmtCore hr h]

theorem Cost.blockLoop (hr : RC r) {fuel} {ts : TokenSet} (ht : ts.contains .eof = true) :
    ∀ n {c}, Cost c (some 1) 89 (blockLoop r fuel ts n) := by
  intro n
  induction n with
  | zero => intro c; exact Cost.fuel.le rfl (by decide)
  | succ n ih =>
    intro c; unfold Grammar.blockLoop
    refine Cost.le (Cost.atTs (z1 := some 0) (b1 := 0) (z2 := none) (b2 := 88) ?_ ?_) (by decide) (by decide)
    · rw [if_neg (by simp)]; exact Cost.pure _
    · rw [if_pos (by simp)]
      have hs : Cost (fun x => c x ∧ ts.contains x = false) none 87 (Grammar.stmt r fuel) :=
        Cost.stmt hr fun x hx e => by have := hx.2; rw [e, ht] at this; cases this
      csteps [hs, ih]

theorem Cost.blockRaw (hr : RC r) {fuel} {ts : TokenSet} (ht : ts.contains .eof = true) :
    Cost c (some blockZ) blockB (blockRaw r fuel ts) := by
  unfold Grammar.blockRaw; csteps [Cost.blockLoop hr ht _]

theorem RC.recN : ∀ n, RC (Grammar.recN n) := by
  intro n
  induction n with
  | zero =>
    exact ⟨fun _ => Cost.fuel.le (by decide) (by decide), Cost.fuel.le (by decide) (by decide), Cost.fuel.le (by decide) (by decide)⟩
  | succ n ih => exact ⟨fun h => Cost.exprBpC ih h, Cost.exprBp ih, Cost.blockRaw ih (by decide)⟩

theorem Cost.root {fuel} : Cost c (some 5) 94 (root fuel) := by
  have h : Cost (fun _ => True) (some blockZ) blockB (rootBlock fuel) := by
    unfold rootBlock; exact Cost.blockRaw (RC.recN fuel) (by decide)
  unfold Grammar.root
  csteps [h.weaken]

end Verif
