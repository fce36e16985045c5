import Verif.Proof.Recovery

/-
Error recovery of the grammar functions.
-/
set_option linter.unusedSimpArgs false
set_option linter.unusedVariables false
namespace Verif
open Item PTree P Grammar Spec

structure RR (r : Rec) : Prop where
  expr : ∀ {k σ c n}, k ∈ expressionHolders → R (k :: σ) c (r.exprBp n) (k :: σ) fun _ => any
  block : ∀ {k σ c}, R (k :: σ) c r.block (k :: σ) fun _ => any

/-- one step through a grammar function -/
macro "rstep" : tactic => `(tactic| with_reducible first
  | exact R.pure0 | exact R.panic | exact R.fuel
  | exact R.complete (by decide) | exact (R.complete (by decide)).weak
  | exact R.bump.weak | exact R.bumpAny.weak | exact R.bumpTs | exact R.accept
  | exact R.expect (fun _ _ _ _ => by decide)
  | refine R.current fun _ => ?_ | refine R.nth fun _ => ?_ | refine R.atK ?_ ?_ | refine R.atTs ?_ ?_
  | refine R.ite (fun _ => ?_) (fun _ => ?_)
  | refine R.bind (R.complete (by decide)) fun _ => ?_
  | refine R.bind0 ?_ fun _ => ?_)

syntax "rsteps" "[" term,* "]" : tactic
macro_rules
  | `(tactic| rsteps [$ts,*]) => do
    let ts := ts.getElems
    `(tactic| repeat' (first $[| with_reducible exact $ts]* $[| with_reducible exact R.weak $ts]* | rstep | dsimp only |
      contradiction))

variable {c : Cond} {σ : List SyntaxKind} {k : SyntaxKind} {r : Rec}

theorem R.nameUnchecked : R (k :: σ) c nameUnchecked (k :: σ) Top := by
  unfold Grammar.nameUnchecked; refine R.start .name fun _ => ?_; rsteps []

/-- the tokens in the set and `end` are `keeps` -/
def Keeps (rec : TokenSet) (keeps : List SyntaxKind) : Prop :=
  ∀ x, (x = .endKw ∨ rec.contains x = true) ↔ x ∈ keeps

theorem Keeps.no {rec keeps x} (h : Keeps rec keeps) (h1 : x ≠ .endKw) (h2 : rec.contains x = false) : x ∉ keeps := by
  intro hm
  rcases (h x).2 hm with h' | h'
  · exact h1 h'
  · rw [h2] at h'; simp at h'

theorem R.nameR {rec keeps} (hk : ∀ t i, c t i → lookahead t 0 ≠ .ident → nameKeeps k = some keeps)
    (hs : Keeps rec keeps) : R (k :: σ) c (nameR rec) (k :: σ) fun _ => any := by
  unfold Grammar.nameR
  refine R.atK ?_ ?_
  · exact R.ite (fun _ => R.bind0 R.nameUnchecked.weak fun _ => R.pure0) (fun h => absurd rfl h)
  · refine R.ite (fun h => by simp at h) (fun h => R.errRecover ?_ ?_ ?_)
    · rintro t i ⟨h1, h2⟩ h3
      exact .inr (.inl ⟨keeps, hk t i h1 h2, rfl, (hs _).1 h3⟩)
    · rintro t i n ⟨h1, h2⟩ h3 h4 h5
      refine .inl ⟨keeps, hk t i h1 h2, rfl, .inl ⟨_, rfl, ?_⟩⟩
      simp only [List.mem_cons, not_or]
      exact ⟨h2, hs.no h3 h4⟩
    · rintro t i ⟨h1, h2⟩ h3
      exact .inl ⟨keeps, hk t i h1 h2, rfl, .inr ⟨rfl, rfl⟩⟩

theorem R.nameRefUnchecked : R (k :: σ) c nameRefUnchecked (k :: σ) Top := by
  unfold Grammar.nameRefUnchecked; refine R.start .nameRef fun _ => ?_; rsteps []

theorem R.nameRefR : R (.indexPath :: σ) c (nameRefR INDEX_PATH_RECOVERY) (.indexPath :: σ) fun _ => any := by
  have hs : Keeps INDEX_PATH_RECOVERY (.dot :: .colon :: nameStop) := by
    intro x
    simp [INDEX_PATH_RECOVERY, STMT_RECOVERY, TokenSet.contains_union, TokenSet.contains_new, nameStop]
    grind
  unfold Grammar.nameRefR
  refine R.atK ?_ ?_
  · exact R.ite (fun _ => R.bind0 R.nameRefUnchecked.weak fun _ => R.pure0) (fun h => absurd rfl h)
  · refine R.ite (fun h => by simp at h) (fun h => R.errRecover ?_ ?_ ?_)
    · rintro t i ⟨h1, h2⟩ h3
      exact .inr (.inr (.inl ⟨rfl, rfl, (hs _).1 h3⟩))
    · rintro t i n ⟨h1, h2⟩ h3 h4 h5
      refine .inr (.inl ⟨rfl, rfl, .inl ⟨_, rfl, ?_⟩⟩)
      show _ ∉ _
      rw [List.mem_cons, not_or]
      exact ⟨h2, hs.no h3 h4⟩
    · rintro t i ⟨h1, h2⟩ h3
      exact .inr (.inl ⟨rfl, rfl, .inr ⟨rfl, rfl⟩⟩)

theorem R.nameRef : R (k :: σ) c nameRef (k :: σ) Top := by
  unfold Grammar.nameRef; refine R.start .nameRef fun _ => ?_; rsteps []

theorem R.name (h : ∀ t i, c t i → lookahead t 0 = .ident) : R (k :: σ) c name (k :: σ) fun _ => any := by
  unfold Grammar.name
  refine R.atK ?_ ?_
  · refine R.ite (fun _ => ?_) (fun h => absurd rfl h)
    refine R.start .name fun _ => ?_
    rsteps []
  · exact R.ite (fun h => by simp at h) (fun _ => R.error fun t i hc => absurd (h t i hc.1) hc.2)

theorem multi_keeps : Keeps (STMT_RECOVERY.union (TokenSet.new [.comma])) (.comma :: nameStop) := by
  intro x
  simp [STMT_RECOVERY, TokenSet.contains_union, TokenSet.contains_new, nameStop]
  grind

theorem R.multiNameRLoop {v} : ∀ n {c}, R (.multiName :: σ) c (multiNameRLoop (STMT_RECOVERY.union (TokenSet.new [.comma])) v n)
    (.multiName :: σ) fun _ => any := by
  intro n
  induction n with
  | zero => intro c; exact R.fuel
  | succ n ih => intro c; unfold Grammar.multiNameRLoop; rsteps [R.nameR (fun _ _ _ _ => rfl) multi_keeps, ih]

theorem R.multiNameR {fuel v} : R (k :: σ) c (multiNameR fuel STMT_RECOVERY v) (k :: σ) fun _ => any := by
  unfold Grammar.multiNameR
  refine R.start .multiName fun _ => ?_
  rsteps [R.nameR (fun _ _ _ _ => rfl) multi_keeps, R.multiNameRLoop _]

theorem R.paramList {fuel} : R (k :: σ) c (paramList fuel) (k :: σ) Top := by
  unfold Grammar.paramList
  refine R.start .paramList fun _ => ?_
  rsteps [R.multiNameR]
  all_goals
    unfold P.errAndBump
    refine R.errRecover ?_ ?_ ?_
    · rintro t i ⟨-, h2⟩ h3
      refine .inr (.inr (.inr (.inl ⟨rfl, rfl, ?_⟩)))
      rcases h3 with h3 | h3
      · exact h3
      · rw [TokenSet.C24_contains_empty] at h3; simp at h3
    · rintro t i n ⟨-, h2⟩ h3 h4 h5
      exact .inr (.inr (.inl ⟨rfl, rfl, .inl ⟨_, rfl, by simp [h2, h3]⟩⟩))
    · rintro t i ⟨-, h2⟩ h3
      exact .inr (.inr (.inl ⟨rfl, rfl, .inr ⟨rfl, rfl⟩⟩))

/-! ### expressions -/

theorem R.exprSingle (hr : RR r) (hk : k ∈ expressionHolders) : R (k :: σ) c (exprSingle r) (k :: σ) fun _ => any :=
  hr.expr hk

theorem R.exprMultiLoop (hr : RR r) : ∀ n {c}, R (.multivalExpr :: σ) c (exprMultiLoop r n) (.multivalExpr :: σ) fun _ => any := by
  intro n
  induction n with
  | zero => intro c; exact R.fuel
  | succ n ih => intro c; unfold Grammar.exprMultiLoop; rsteps [R.exprSingle hr (by decide), ih]

theorem R.expr (hr : RR r) {fuel} : R (k :: σ) c (expr r fuel) (k :: σ) Top := by
  unfold Grammar.expr
  refine R.start .multivalExpr fun _ => ?_
  rsteps [R.exprSingle hr (by decide), R.exprMultiLoop hr _]

theorem R.index (hr : RR r) : R (k :: σ) c (index r) (k :: σ) Top := by
  unfold Grammar.index
  refine R.start .index fun _ => ?_
  rsteps [R.exprSingle hr (by decide)]

theorem R.tableSep : R (k :: σ) c tableSep (k :: σ) Top := by
  unfold Grammar.tableSep
  refine R.start .tableSep fun _ => ?_
  rsteps []

theorem R.tableContent (hr : RR r) (h : ∀ t i, c t i → lookahead t 0 ∉ [SyntaxKind.rBrace, .endKw, .eof]) :
    R (k :: σ) c (tableContent r) (k :: σ) Top := by
  unfold Grammar.tableContent
  refine R.start .tableContent fun _ => ?_
  refine R.current fun x => ?_
  dsimp only
  refine R.ite (fun h1 => ?_) (fun h1 => R.ite (fun h2 => ?_) (fun h2 => R.atTs ?_ ?_))
  · refine R.nth fun _ => R.ite (fun _ => ?_) (fun _ => ?_)
    · refine R.start .keyValue fun _ => R.start .tableKey fun _ => ?_
      rsteps [R.nameUnchecked, R.exprSingle hr (by decide)]
    · refine R.start .positionalValue fun _ => ?_
      rsteps [R.exprSingle hr (by decide)]
  · refine R.start .keyValue fun _ => R.start .tableKey fun _ => ?_
    rsteps [R.index hr, R.exprSingle hr (by decide)]
  · refine R.ite (fun _ => ?_) (fun h => absurd rfl h)
    refine R.start .positionalValue fun _ => ?_
    rsteps [R.exprSingle hr (by decide)]
  · refine R.ite (fun h => by simp at h) (fun _ => R.bind0 (R.error ?_) fun _ => R.complete (by decide))
    rintro t i ⟨⟨⟨j, hj⟩, h4⟩, h5⟩
    have := h t j hj
    refine .inr (.inr (.inr (.inr (.inr (.inl ⟨rfl, rfl, ?_⟩)))))
    subst h4
    simp [EXPR_FIRST, LHS_FIRST, ATOM_EXPR_FIRST, LITERAL_FIRST, TokenSet.contains_union, TokenSet.contains_new] at h5
    simp [expressionStart]
    simp at h1 h2 this
    grind

theorem R.tableInnerLoop {fuel} : ∀ n {c}, R (.tableExpr :: σ) c (tableInnerLoop fuel n) (.tableExpr :: σ) fun _ => any := by
  intro n
  induction n with
  | zero => intro c; exact R.fuel
  | succ n ih =>
    intro c; unfold Grammar.tableInnerLoop tableCorrect; rsteps [R.tableSep, ih]
    all_goals
      refine R.errUntil ?_
      rintro t i ks rest hc rfl h1 h2
      refine .inr (.inr (.inr (.inr (.inl ⟨rfl, rfl, ?_, ?_, ?_⟩))))
      · rintro rfl
        simp [TABLE_END, TABLE_SEP, TABLE_RECOVERY, TokenSet.contains_union, TokenSet.contains_new] at hc h2
        grind
      · intro x hx
        have := h1 x hx
        simp [TABLE_RECOVERY, TABLE_SEP, TokenSet.contains_union, TokenSet.contains_new] at this
        simp [tableStop]
        grind
      · simp [TABLE_RECOVERY, TABLE_SEP, TokenSet.contains_union, TokenSet.contains_new] at h2
        simp [tableStop]
        grind

theorem R.tableLoop (hr : RR r) {fuel} : ∀ n {c}, R (.tableExpr :: σ) c (tableLoop r fuel n) (.tableExpr :: σ) fun _ => any := by
  intro n
  induction n with
  | zero => intro c; exact R.fuel
  | succ n ih =>
    intro c; unfold Grammar.tableLoop
    rsteps [R.tableInnerLoop _, ih]
    all_goals
      refine (R.tableContent hr ?_).weak
      intro t i hc
      simp [TABLE_END, TokenSet.contains_new] at hc
      simp
      grind

theorem R.tableExpr (hr : RR r) {fuel} : R (k :: σ) c (tableExpr r fuel) (k :: σ) Top := by
  unfold Grammar.tableExpr
  refine R.start .tableExpr fun _ => ?_
  rsteps [R.tableLoop hr _]

theorem R.functionExpr (hr : RR r) {fuel} : R (k :: σ) c (functionExpr r fuel) (k :: σ) Top := by
  unfold Grammar.functionExpr
  refine R.start .functionExpr fun _ => ?_
  rsteps [R.paramList, hr.block]

theorem R.argList (hr : RR r) {fuel} : R (k :: σ) c (argList r fuel) (k :: σ) Top := by
  unfold Grammar.argList
  refine R.start .argList fun _ => ?_
  rsteps [R.expr hr]

theorem R.callArgs (hr : RR r) {fuel} : R (k :: σ) c (callArgs r fuel) (k :: σ) Top := by
  unfold Grammar.callArgs
  refine R.atTs ?_ ?_
  all_goals
    refine R.ite (fun _ => R.panic) (fun _ => ?_)
    refine R.start .callArgs fun _ => ?_
    rsteps [R.argList hr, R.tableExpr hr]

theorem R.callExpr (hr : RR r) {fuel l} : R (k :: σ) (Top l) (callExpr r fuel l) (k :: σ) Top := by
  unfold Grammar.callExpr
  refine R.bind (R.precede (k := .callExpr) fun _ _ h => h) fun _ => ?_
  rsteps [R.callArgs hr]

theorem R.indexExpr (hr : RR r) {l} : R (k :: σ) (Top l) (indexExpr r l) (k :: σ) Top := by
  unfold Grammar.indexExpr
  refine R.bind (R.precede (k := .indexExpr) fun _ _ h => h) fun _ => ?_
  rsteps [R.index hr]

theorem R.methodCallExpr (hr : RR r) {fuel l} : R (k :: σ) (Top l) (methodCallExpr r fuel l) (k :: σ) Top := by
  unfold Grammar.methodCallExpr
  refine R.bind (R.precede (k := .methodCallExpr) fun _ _ h => h) fun _ => ?_
  rsteps [R.callArgs hr, R.nameRef]
  all_goals refine R.error fun t i hx => .inr (.inr (.inr (.inr (.inr (.inr (.inl ⟨rfl, rfl, ?_⟩))))))
  all_goals simp [CALL_FIRST, TokenSet.contains_union, TokenSet.contains_new] at hx
  all_goals simp
  all_goals grind

theorem R.dotExpr {l} : R (k :: σ) (Top l) (dotExpr l) (k :: σ) Top := by
  unfold Grammar.dotExpr
  refine R.bind (R.precede (k := .dotExpr) fun _ _ h => h) fun _ => ?_
  rsteps []

theorem R.postfixExpr (hr : RR r) {fuel} : ∀ n {l b}, R (k :: σ) (Top l) (postfixExpr r fuel n l b) (k :: σ) Top := by
  intro n
  induction n with
  | zero => intro l b; exact R.fuel
  | succ n ih =>
    intro l b; unfold Grammar.postfixExpr
    refine R.current fun _ => ?_
    have htop : ∀ {x : SyntaxKind} (t i), (Top l t i ∧ lookahead t 0 = x) → Top l t i := fun t i h => h.1
    refine R.pre (c' := Top l) ?_ htop
    cases b with
    | true =>
      simp only [Bool.true_and]
      refine R.atTs ?_ ?_
      all_goals
        refine R.pre (c' := Top l) ?_ fun t i h => h.1
        refine R.ite (fun _ => ?_) (fun _ => R.ite (fun _ => ?_) (fun _ => R.ite (fun _ => ?_)
          (fun _ => R.ite (fun _ => ?_) (fun _ => ?_))))
        · exact R.bind (R.callExpr hr) fun _ => ih
        · exact R.bind (R.methodCallExpr hr) fun _ => ih
        · exact R.bind (R.indexExpr hr) fun _ => ih
        · exact R.bind R.dotExpr fun _ => ih
        · exact R.pure fun _ _ h => h
    | false =>
      simp only [Bool.false_and]
      refine R.atTs ?_ ?_
      all_goals
        refine R.pre (c' := Top l) ?_ fun t i h => h.1
        refine R.ite (fun _ => ?_) (fun _ => R.ite (fun _ => ?_) (fun _ => R.ite (fun _ => ?_)
          (fun _ => R.ite (fun _ => ?_) (fun _ => ?_))))
        · exact R.bind (R.callExpr hr) fun _ => ih
        · exact R.bind (R.methodCallExpr hr) fun _ => ih
        · exact R.bind (R.indexExpr hr) fun _ => ih
        · exact R.bind R.dotExpr fun _ => ih
        · exact R.pure fun _ _ h => h

theorem R.parenExpr (hr : RR r) (h : ∀ t i, c t i → lookahead t 0 = .lParen) : R (k :: σ) c (parenExpr r) (k :: σ) Top := by
  unfold Grammar.parenExpr
  refine R.start .parenExpr fun _ => ?_
  refine R.bind0 (R.expect ?_) fun _ => ?_
  · rintro t i ⟨j, hj⟩ hne
    exact absurd (h t j hj) hne
  · rsteps [hr.expr (by decide)]

/-- the marker, if there is one, is on top -/
def OTop (a : Option Nat) : Cond := fun t i => ∀ m, a = some m → Top m t i

theorem R.literal : R (k :: σ) c literal (k :: σ) OTop := by
  unfold Grammar.literal
  refine R.atTs ?_ ?_
  all_goals
    refine R.ite (fun _ => R.panic) (fun _ => ?_)
    refine R.start .literal fun _ => ?_
    refine R.bind0 R.bumpAny.weak fun _ => R.bind (R.complete (by decide)) fun _ => R.pure ?_
    intro t i h m hm
    cases hm
    exact h

theorem R.prefixExpr (hr : RR r) {n} : R (k :: σ) c (prefixExpr r n) (k :: σ) OTop := by
  unfold Grammar.prefixExpr
  refine R.start .prefixExpr fun _ => ?_
  refine R.bind0 R.bumpAny.weak fun _ => R.bind0 (hr.expr (by decide)) fun a => ?_
  cases a with
  | none => exact R.panic
  | some a =>
    refine R.bind (R.complete (by decide)) fun _ => R.pure ?_
    intro t i h m hm
    cases hm
    exact h

/-- the same with the flag of `atom_expr` -/
def PTop (a : Option (Nat × Bool)) : Cond := fun t i => ∀ m, a = some m → Top m.1 t i

theorem R.atomExpr (hr : RR r) {fuel} (hk : k ∈ expressionHolders) : R (k :: σ) c (atomExpr r fuel) (k :: σ) PTop := by
  unfold Grammar.atomExpr
  refine R.current fun y => ?_
  dsimp only
  refine R.ite (fun h => ?_) (fun h => ?_)
  · refine R.bind (R.prefixExpr hr) fun a => ?_
    cases a with
    | none => exact R.pure fun _ _ _ _ hm => by cases hm
    | some a => exact R.pure fun _ _ h m hm => by cases hm; exact h a rfl
  have some' : ∀ {p : Prog Nat} {b : Bool} {c' : Cond}, R (k :: σ) c' p (k :: σ) Top →
      R (k :: σ) c' (p >>= fun a => Pure.pure (some (a, b))) (k :: σ) PTop := by
    intro p b c' hp
    refine R.bind hp fun a => R.pure fun _ _ h m hm => by cases hm; exact h
  refine R.atTs ?_ ?_
  · refine R.ite (fun _ => ?_) (fun h => absurd rfl h)
    refine R.bind R.literal fun a => R.pure fun _ _ h m hm => ?_
    cases a with
    | none => cases hm
    | some a => cases hm; exact h a rfl
  refine R.ite (fun h => by simp at h) (fun _ => R.current fun x => ?_)
  refine R.ite (fun h1 => some' (R.functionExpr hr)) (fun h1 => R.ite (fun h2 => some' (R.tableExpr hr)) (fun h2 =>
    R.ite (fun h3 => some' R.nameRef) (fun h3 => R.ite (fun h4 => some' (R.parenExpr hr ?_)) (fun h4 => ?_))))
  · intro t i hc
    rw [hc.2]
    simpa using h4
  · refine R.bind0 (R.errRecover ?_ ?_ ?_) fun _ => R.pure fun _ _ _ m hm => by cases hm
    · rintro t i hc h5
      refine .inr (.inr (.inr (.inr (.inl ⟨hk, rfl, ?_⟩))))
      simpa [EXPR_RECOVERY_SET, TokenSet.contains_new] using h5
    · rintro t i n ⟨⟨⟨_, e1⟩, e2⟩, e3⟩ h5 h6 h7
      refine .inr (.inr (.inr (.inl ⟨hk, rfl, .inl ⟨_, rfl, ?_⟩⟩)))
      rw [e3] at e1 e2 h5 h6 ⊢
      subst e1
      simp [EXPR_RECOVERY_SET, TokenSet.contains_new] at h6
      simp [LITERAL_FIRST, TokenSet.contains_union, TokenSet.contains_new] at e2
      simp at h1 h2 h3 h4
      have h8 : x ≠ .notKw ∧ x ≠ .hash ∧ x ≠ .minus := by
        refine ⟨?_, ?_, ?_⟩ <;> (rintro rfl; revert h; decide)
      simp [expressionStart]
      grind
    · intro t i _ _
      exact .inr (.inr (.inr (.inl ⟨hk, rfl, .inr ⟨rfl, rfl⟩⟩)))

theorem R.lhs (hr : RR r) {fuel} (hk : k ∈ expressionHolders) : R (k :: σ) c (lhs r fuel) (k :: σ) OTop := by
  unfold Grammar.lhs
  refine R.current fun y => ?_
  dsimp only
  refine R.ite (fun h => ?_) (fun h => ?_)
  · refine R.start .prefixExpr fun _ => ?_
    refine R.bind0 R.bumpAny.weak fun _ => R.bind0 (hr.expr (by decide)) fun a => ?_
    refine R.bind (R.complete (by decide)) fun _ => R.pure ?_
    intro t i h m hm
    cases hm
    exact h
  · refine R.bind (R.atomExpr hr hk) fun a => ?_
    cases a with
    | none => exact R.pure fun _ _ _ _ hm => by cases hm
    | some a =>
      obtain ⟨l, b⟩ := a
      refine R.bind (R.pre (R.postfixExpr hr fuel) fun t i h => h (l, b) rfl) fun _ => R.pure ?_
      intro t i h m hm
      cases hm
      exact h

theorem R.exprBpLoop (hr : RR r) {b} : ∀ n {l}, R (k :: σ) (Top l) (exprBpLoop r b n l) (k :: σ) Top := by
  intro n
  induction n with
  | zero => intro l; exact R.fuel
  | succ n ih =>
    intro l; unfold Grammar.exprBpLoop
    refine R.current fun y => ?_
    dsimp only
    refine R.ite (fun _ => R.pure fun _ _ h => h.1) (fun _ => ?_)
    refine R.bind R.bumpAny fun _ => R.bind (R.precede1 (k := .infixExpr) ?_) fun _ => ?_
    · rintro t i ⟨t1, i1, ⟨⟨kk, bf, af, cur, e⟩, -⟩, -, -, e4⟩
      exact ⟨_, kk, bf, af, cur, by rw [e4, e]⟩
    · exact R.bind0 (hr.expr (by decide)) fun _ => R.bind (R.complete (by decide)) fun _ => ih

theorem R.exprBp (hr : RR r) {fuel b} (hk : k ∈ expressionHolders) :
    R (k :: σ) c (exprBp r fuel b) (k :: σ) fun _ => any := by
  unfold Grammar.exprBp
  refine R.bind (R.lhs hr hk) fun a => ?_
  cases a with
  | none => exact R.pure0
  | some a => exact R.bind (R.pre (R.exprBpLoop hr fuel) fun t i h => h a rfl) fun _ => R.pure0

/-! ### statements -/

theorem R.elseBranch (hr : RR r) : R (k :: σ) c (elseBranch r) (k :: σ) Top := by
  unfold Grammar.elseBranch
  refine R.start .elseBranch fun _ => ?_
  rsteps [hr.block]

theorem R.elseifBranch (hr : RR r) : ∀ n {k σ c}, R (k :: σ) c (elseifBranch r n) (k :: σ) Top := by
  intro n
  induction n with
  | zero => intro k σ c; exact R.fuel
  | succ n ih =>
    intro k σ c; unfold Grammar.elseifBranch
    refine R.start .elseIfBranch fun _ => ?_
    rsteps [R.exprSingle hr (by decide), hr.block, R.elseBranch hr, ih]

theorem R.ifStmt (hr : RR r) {fuel} : R (k :: σ) c (ifStmt r fuel) (k :: σ) Top := by
  unfold Grammar.ifStmt
  refine R.start .ifStmt fun _ => ?_
  rsteps [R.exprSingle hr (by decide), hr.block, R.elseBranch hr, R.elseifBranch hr _]

theorem R.gotoStmt : R (k :: σ) c gotoStmt (k :: σ) Top := by
  unfold Grammar.gotoStmt
  refine R.start .gotoStmt fun _ => ?_
  rsteps [R.nameRef]

theorem R.labelDelim : R (k :: σ) c labelDelim (k :: σ) Top := by
  unfold Grammar.labelDelim
  refine R.start .labelDelim fun _ => ?_
  rsteps []

theorem label_keeps : Keeps STMT_RECOVERY nameStop := by
  intro x
  simp [STMT_RECOVERY, TokenSet.contains_new, nameStop]

theorem R.labelStmt : R (k :: σ) c labelStmt (k :: σ) Top := by
  unfold Grammar.labelStmt
  refine R.atK ?_ ?_
  all_goals
    refine R.ite (fun _ => R.panic) (fun _ => ?_)
    refine R.start .labelStmt fun _ => ?_
    rsteps [R.labelDelim, R.nameR (fun _ _ _ _ => rfl) label_keeps]

theorem R.whileStmt (hr : RR r) : R (k :: σ) c (whileStmt r) (k :: σ) Top := by
  unfold Grammar.whileStmt
  refine R.start .whileStmt fun _ => ?_
  rsteps [R.exprSingle hr (by decide), hr.block]

theorem R.genericFor (hr : RR r) {fuel} : R (k :: σ) c (genericFor r fuel) (k :: σ) Top := by
  unfold Grammar.genericFor
  refine R.atK ?_ ?_
  all_goals
    refine R.ite (fun _ => R.panic) (fun _ => ?_)
    refine R.start .genericFor fun _ => ?_
    rsteps [R.exprSingle hr (by decide), R.multiNameR]

theorem R.numericFor (hr : RR r) {fuel} : R (k :: σ) c (numericFor r fuel) (k :: σ) Top := by
  unfold Grammar.numericFor
  refine R.atK ?_ ?_
  · refine R.ite (fun _ => R.panic) (fun _ => ?_)
    refine R.start .numericFor fun _ => ?_
    refine R.bind0 (R.name ?_) fun _ => ?_
    · rintro t i ⟨j, h⟩; exact h.2
    · rsteps [R.expr hr]
  · exact R.ite (fun _ => R.panic) (fun h => by simp at h)

theorem R.forContent (hr : RR r) {fuel} : R (k :: σ) c (forContent r fuel) (k :: σ) Top := by
  unfold Grammar.forContent
  refine R.start .forContent fun _ => ?_
  rsteps [R.numericFor hr, R.genericFor hr]
  all_goals exact R.error fun t i hx => .inr (.inr (.inr (.inr (.inr (.inr (.inr ⟨rfl, rfl, hx.2⟩))))))

theorem R.forStmt (hr : RR r) {fuel} : R (k :: σ) c (forStmt r fuel) (k :: σ) Top := by
  unfold Grammar.forStmt
  refine R.start .forStmt fun _ => ?_
  rsteps [R.forContent hr, hr.block]

theorem R.repeatUntilStmt (hr : RR r) : R (k :: σ) c (repeatUntilStmt r) (k :: σ) Top := by
  unfold Grammar.repeatUntilStmt
  refine R.start .repeatUntilStmt fun _ => ?_
  rsteps [R.exprSingle hr (by decide), hr.block]

theorem R.breakStmt : R (k :: σ) c breakStmt (k :: σ) Top := by
  unfold Grammar.breakStmt
  refine R.start .breakStmt fun _ => ?_
  rsteps []

theorem lookahead_tail (t : List SyntaxKind) (n : Nat) : lookahead t.tail n = lookahead t (n + 1) := by
  cases t <;> simp

theorem local_keeps : Keeps (STMT_RECOVERY.union (TokenSet.new [.lParen])) (.lParen :: nameStop) := by
  intro x
  simp [STMT_RECOVERY, TokenSet.contains_union, TokenSet.contains_new, nameStop]
  grind

theorem R.localFunctionDefStmt (hr : RR r) {fuel} (h : ∀ t i, c t i → lookahead t 1 = .functionKw) :
    R (k :: σ) c (localFunctionDefStmt r fuel) (k :: σ) Top := by
  unfold Grammar.localFunctionDefStmt
  refine R.start .localFunctionDefStmt fun _ => ?_
  refine R.bind R.bump fun _ => R.bind0 (R.expect ?_) fun _ => ?_
  · rintro t i ⟨t1, i1, ⟨j, hj⟩, h2, rfl, -⟩ hne
    rw [lookahead_tail, h t1 j hj] at hne
    exact absurd rfl hne
  · rsteps [R.paramList, R.nameR (fun _ _ _ _ => rfl) local_keeps, hr.block]

theorem R.localAssignStmt (hr : RR r) {fuel} : R (k :: σ) c (localAssignStmt r fuel) (k :: σ) Top := by
  unfold Grammar.localAssignStmt
  refine R.start .localAssignStmt fun _ => ?_
  rsteps [R.expr hr, R.multiNameR]

theorem R.localStmt (hr : RR r) {fuel} : R (k :: σ) c (localStmt r fuel) (k :: σ) Top := by
  unfold Grammar.localStmt
  refine R.nth fun x => R.ite (fun h => R.localFunctionDefStmt hr fun t i hc => ?_) (fun _ => R.localAssignStmt hr)
  rw [hc.2]; simpa using h

/-- a statement that is an expression or an assignment -/
theorem R.exprStmt (hr : RR r) {fuel} : R (k :: σ) c (exprStmt r fuel) (k :: σ) Top := by
  unfold Grammar.exprStmt
  intro t0 s a s' hi hc hrun
  have hs : ∀ kk, R (kk :: k :: σ) any (Grammar.expr r fuel >>= fun _ => P.complete s.ev kk) (k :: σ) Top →
      True := fun _ _ => trivial
  have h2 : wpF (Grammar.exprStmt r fuel) s (fun b s'' => b = a ∧ s'' = s') := (wpF_iff _ _ _).2 ⟨a, s', hrun, rfl, rfl⟩
  simp only [Grammar.exprStmt, wpF_bind, wpF_start, wpF_accept, wpF_ite] at h2
  rw [wpF_iff] at h2
  obtain ⟨a1, s1, r1, h2⟩ := h2
  have start : ∀ kk, Fit t0 (kk :: k :: σ) ⟨s.toks, s.ev + 1, [], ⟨s.ev, false, [], s.cur⟩ :: s.stack⟩ := by
    intro kk
    obtain ⟨m, h3, h4⟩ := hi
    exact ⟨s.toks, ⟨m, s.toks, h3, h4, rfl⟩, rfl⟩
  by_cases hk : lookahead s1.toks 0 = .eq
  · have h3 := (h2.1 hk).2.1 trivial
    have f1 := (R.expr hr t0 _ _ _ (start .assignStmt) (c := any) trivial r1).1
    have f2 : Fit t0 (.assignStmt :: k :: σ) ⟨s1.toks.tail, s1.ev + 1, .tok (lookahead s1.toks 0) :: s1.cur, s1.stack⟩ :=
      fit_push f1 (lookahead_ne (by rw [hk]; simp))
    rw [wpF_iff] at h3
    obtain ⟨a2, s2, r2, h3⟩ := h3
    have f3 := (R.expr hr t0 _ _ _ f2 (c := any) trivial r2).1
    rw [wpF_iff] at h3
    obtain ⟨a3, s3, r3, rfl, rfl⟩ := h3
    exact R.complete (c := any) (by decide) t0 _ _ _ f3 trivial r3
  · have h3 := (h2.2 hk).2 (by simp)
    have f1 := (R.expr hr t0 _ _ _ (start .exprStmt) (c := any) trivial r1).1
    rw [wpF_iff] at h3
    obtain ⟨a3, s3, r3, rfl, rfl⟩ := h3
    exact R.complete (c := any) (by decide) t0 _ _ _ f1 trivial r3

theorem R.indexPathLoop : ∀ n {c}, R (.indexPath :: σ) c (indexPathLoop n) (.indexPath :: σ) fun _ => any := by
  intro n
  induction n with
  | zero => intro c; exact R.fuel
  | succ n ih => intro c; unfold Grammar.indexPathLoop; rsteps [R.nameRefR, ih]

theorem R.indexPath {fuel} : R (k :: σ) c (indexPath fuel) (k :: σ) Top := by
  unfold Grammar.indexPath
  refine R.start .indexPath fun _ => ?_
  rsteps [R.nameRefR, R.indexPathLoop _]

theorem def_keeps : Keeps FUNCTION_DEF_RECOVERY (.lParen :: nameStop) := by
  intro x
  simp [FUNCTION_DEF_RECOVERY, STMT_RECOVERY, TokenSet.contains_union, TokenSet.contains_new, nameStop]
  grind

theorem def_keeps2 : Keeps ((TokenSet.new [.lParen]).union FUNCTION_DEF_RECOVERY) (.lParen :: nameStop) := by
  intro x
  simp [FUNCTION_DEF_RECOVERY, STMT_RECOVERY, TokenSet.contains_union, TokenSet.contains_new, nameStop]
  grind

theorem R.functionDefContent {fuel} : R (k :: σ) c (functionDefContent fuel) (k :: σ) Top := by
  unfold Grammar.functionDefContent
  refine R.start .functionDefContent fun _ => ?_
  have path : ∀ {c' : Cond} {σ : List SyntaxKind} {m : Nat}, R (.functionDefContent :: k :: σ) c'
      (do
        let m1 ← P.precede (← Grammar.indexPath fuel)
        if ← P.atK .colon then
          P.bump .colon
          Grammar.nameR FUNCTION_DEF_RECOVERY
          let _ ← P.complete m1 .functionMethod
        else
          Grammar.nameR FUNCTION_DEF_RECOVERY
          let _ ← P.complete m1 .functionStatic
        P.complete m .functionDefContent) (k :: σ) Top := by
    intro c' σ m t0 s a s' hi hc hrun
    have h2 := (wpF_iff _ _ (fun b s'' => b = a ∧ s'' = s')).2 ⟨a, s', hrun, rfl, rfl⟩
    simp only [wpF_bind] at h2
    rw [wpF_iff] at h2
    obtain ⟨a1, s1, r1, h2⟩ := h2
    obtain ⟨f1, top⟩ := R.indexPath t0 _ _ _ hi (c := any) trivial r1
    rw [wpF_iff] at h2
    obtain ⟨a2, s2, r2, h2⟩ := h2
    have f2 : ∀ kk, Fit t0 (kk :: .functionDefContent :: k :: σ) s2 := fun kk =>
      (R.precede (c := Top a1) (fun _ _ h => h) t0 _ _ _ f1 top r2).1
    simp only [wpF_atK, wpF_ite, wpF_bind] at h2
    by_cases hk : lookahead s2.toks 0 = .colon
    · have h3 := h2.1 (by simpa using hk)
      rw [wpF_iff] at h3
      obtain ⟨a3, s3, r3, h3⟩ := h3
      have f3 := (R.bump (c := any) t0 _ _ _ (f2 .functionMethod) trivial r3).1
      rw [wpF_iff] at h3
      obtain ⟨a4, s4, r4, h3⟩ := h3
      have f4 := (R.nameR (c := any) (fun _ _ _ _ => rfl) def_keeps t0 _ _ _ f3 trivial r4).1
      rw [wpF_iff] at h3
      obtain ⟨a5, s5, r5, h3⟩ := h3
      have f5 := (R.complete (c := any) (by decide) t0 _ _ _ f4 trivial r5).1
      rw [wpF_iff] at h3
      obtain ⟨a6, s6, r6, rfl, rfl⟩ := h3
      exact R.complete (c := any) (by decide) t0 _ _ _ f5 trivial r6
    · have h3 := h2.2 (by simpa using hk)
      rw [wpF_iff] at h3
      obtain ⟨a4, s4, r4, h3⟩ := h3
      have f4 := (R.nameR (c := any) (fun _ _ _ _ => rfl) def_keeps t0 _ _ _ (f2 .functionStatic) trivial r4).1
      rw [wpF_iff] at h3
      obtain ⟨a5, s5, r5, h3⟩ := h3
      have f5 := (R.complete (c := any) (by decide) t0 _ _ _ f4 trivial r5).1
      rw [wpF_iff] at h3
      obtain ⟨a6, s6, r6, rfl, rfl⟩ := h3
      exact R.complete (c := any) (by decide) t0 _ _ _ f5 trivial r6
  refine R.atK ?_ ?_
  · refine R.nth fun x => R.ite (fun _ => ?_) (fun _ => path)
    refine R.bind0 (R.nameR (keeps := .lParen :: nameStop) ?_ def_keeps2) fun _ => R.complete (by decide)
    intro t i hc hne
    exact absurd hc.1.2 hne
  · refine R.nth fun x => R.ite (fun h => by simp at h) (fun _ => path)

theorem R.functionDefStmt (hr : RR r) {fuel} (h : ∀ t i, c t i → lookahead t 0 = .functionKw) :
    R (k :: σ) c (functionDefStmt r fuel) (k :: σ) Top := by
  unfold Grammar.functionDefStmt
  refine R.start .functionDefStmt fun _ => ?_
  refine R.bind0 (R.expect ?_) fun _ => ?_
  · rintro t i ⟨j, hj⟩ hne
    exact absurd (h t j hj) hne
  · rsteps [R.functionDefContent, R.paramList, hr.block]

theorem R.doStmt (hr : RR r) : R (k :: σ) c (doStmt r) (k :: σ) Top := by
  unfold Grammar.doStmt
  refine R.start .doStmt fun _ => ?_
  rsteps [hr.block]

theorem R.returnStmt (hr : RR r) {fuel} : R (k :: σ) c (returnStmt r fuel) (k :: σ) Top := by
  unfold Grammar.returnStmt
  refine R.start .returnStmt fun _ => ?_
  rsteps [R.expr hr]

theorem R.unmatchedEnd : R (.block :: σ) any unmatchedEnd (.block :: σ) fun _ => any := by
  unfold Grammar.unmatchedEnd
  refine R.errorNode ?_ (fun _ _ _ => trivial)
  intro s a s' _ hr
  have h2 : wpF (P.bump .endKw) s (fun b s'' => b = a ∧ s'' = s') := (wpF_iff _ _ _).2 ⟨a, s', hr, rfl, rfl⟩
  simp only [P.bump, wpF_bind, wpF_accept, wpF_ite, wpF_pure, wpF_panic] at h2
  by_cases hk : lookahead s.toks 0 = .endKw
  · have := h2.1 hk
    rw [← (this.2.1 trivial).2]
    refine ⟨[.endKw], s.ev + 1, ?_, by simp [hk], .inr (.inr (.inr (.inr (.inr (.inl ⟨rfl, rfl, rfl⟩)))))⟩
    rw [← hk]
    exact lookahead_ne (by rw [hk]; exact this.1)
  · have := h2.2 hk
    simp at this

theorem R.errAndBump {msg : String} (h1 : ∀ t i, c t i → lookahead t 0 ≠ .endKw ∧ lookahead t 0 ≠ .eof)
    (h2 : ∀ t i n, c t i → Skips k msg [lookahead t 0] n) : R (k :: σ) c (P.errAndBump msg) (k :: σ) fun _ => any := by
  unfold P.errAndBump
  refine R.errRecover ?_ ?_ ?_
  · rintro t i hc (h | h)
    · exact absurd h (h1 t i hc).1
    · rw [TokenSet.C24_contains_empty] at h; simp at h
  · intro t i n hc _ _ _; exact h2 t i n hc
  · intro t i hc h; exact absurd h (h1 t i hc).2

theorem R.stmtCore (hr : RR r) {fuel} (h : ∀ t i, c t i → lookahead t 0 ≠ .eof) :
    R (.block :: σ) c (stmtCore r fuel) (.block :: σ) fun _ => any := by
  unfold Grammar.stmtCore
  refine R.current fun x => ?_
  have hf : ∀ t i, (c t i ∧ lookahead t 0 = x) → (x == .functionKw) = true → lookahead t 0 = .functionKw := by
    rintro t i ⟨-, rfl⟩ h; simpa using h
  rsteps [R.ifStmt hr, R.labelStmt, R.gotoStmt, R.localStmt hr, R.repeatUntilStmt hr,
    R.returnStmt hr, R.doStmt hr, R.whileStmt hr, R.forStmt hr, R.breakStmt, R.exprStmt hr]
  · exact (R.functionDefStmt hr fun t i hc => hf t i hc (by assumption)).weak
  · refine R.errAndBump ?_ ?_
    · rintro t i ⟨h1, rfl⟩
      exact ⟨by simp_all, h t i h1⟩
    · rintro t i n ⟨h1, rfl⟩
      refine .inr (.inr (.inr (.inr (.inr (.inr (.inl ⟨rfl, rfl, ?_⟩))))))
      simp_all
  · refine R.errAndBump ?_ ?_
    · rintro t i ⟨⟨h1, rfl⟩, h2⟩
      refine ⟨?_, h t i h1⟩
      intro e
      rw [e] at h2
      revert h2; decide
    · rintro t i n ⟨⟨h1, rfl⟩, h2⟩
      refine .inr (.inr (.inr (.inr (.inr (.inr (.inr (.inl ⟨rfl, rfl, _, ?_, rfl⟩)))))))
      simp [LITERAL_FIRST, TokenSet.contains_new] at h2
      simp
      grind
  · exact R.pre R.unmatchedEnd fun _ _ _ => trivial
  · refine R.errAndBump ?_ ?_
    · rintro t i ⟨⟨h1, rfl⟩, h2⟩
      exact ⟨by simp_all, h t i h1⟩
    · rintro t i n ⟨⟨h1, rfl⟩, h2⟩
      refine .inr (.inr (.inr (.inr (.inr (.inr (.inr (.inr ⟨rfl, rfl, _, rfl, ?_, ?_⟩)))))))
      · simp [LITERAL_FIRST, TokenSet.contains_new] at h2
        simp_all
      · simp_all [statementStart]

theorem R.stmt (hr : RR r) {fuel} (h : ∀ t i, c t i → lookahead t 0 ≠ .eof) :
    R (.block :: σ) c (stmt r fuel) (.block :: σ) fun _ => any := by
  unfold Grammar.stmt; rsteps [R.stmtCore hr h]

theorem R.blockLoop (hr : RR r) {fuel} {e : TokenSet} (he : e.contains .eof = true) :
    ∀ n {c}, R (.block :: σ) c (blockLoop r fuel e n) (.block :: σ) fun _ => any := by
  intro n
  induction n with
  | zero => intro c; exact R.fuel
  | succ n ih =>
    intro c; unfold Grammar.blockLoop
    rsteps [ih]
    refine R.stmt hr ?_
    rintro t i ⟨-, h⟩ e
    rw [e, he] at h
    simp at h

theorem R.blockRaw (hr : RR r) {fuel} {e : TokenSet} (he : e.contains .eof = true) :
    R (k :: σ) c (blockRaw r fuel e) (k :: σ) fun _ => any := by
  unfold Grammar.blockRaw
  refine R.start .block fun _ => ?_
  rsteps [R.blockLoop hr he _]

theorem recN_rr : ∀ n, RR (recN n)
  | 0 => ⟨fun _ => R.fuel, R.fuel⟩
  | n + 1 => ⟨fun hk => R.exprBp (recN_rr n) hk, R.blockRaw (recN_rr n) (by decide)⟩

theorem R.root {fuel} : R (k :: σ) c (root fuel) (k :: σ) fun _ => any := by
  unfold Grammar.root rootBlock
  refine R.start .sourceFile fun _ => ?_
  rsteps [R.blockRaw (recN_rr _) (by decide)]

end Verif
