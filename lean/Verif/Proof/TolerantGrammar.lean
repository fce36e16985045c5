import Verif.Proof.Tolerant
import Verif.Proof.RecoveryGrammar

/-
The parts of the nodes the grammar functions build.
-/
set_option linter.unusedSimpArgs false
set_option linter.unusedVariables false
namespace Verif
open Item PTree P Grammar Spec Lua

theorem Spec.Pat.Matches.skipR {a b : Pat} {x : List Sym} (hb : b.Matches []) (h : a.Matches x) : (a ⬝ b).Matches x := by
  rw [← List.append_nil x]
  exact .seq h hb

theorem Spec.Pat.Matches.skipL {a b : Pat} {x : List Sym} (ha : a.Matches []) (h : b.Matches x) : (a ⬝ b).Matches x :=
  .seq ha h

theorem Spec.Pat.Matches.more1 {a : Pat} {x : List Sym} (h : a.Matches x) : (Pat.star a).Matches x := by
  rw [← List.append_nil x]
  exact .more h .nil

theorem Spec.Pat.Matches.seq3 {a b : Pat} {x y z : List Sym} (ha : a.Matches x) (hb : b.Matches (y ++ z)) :
    (a ⬝ b).Matches (x ++ y ++ z) := by
  rw [List.append_assoc]
  exact .seq ha hb

/-- finds out how a sequence of symbols matches a pattern -/
syntax "shp" : tactic
macro_rules
  | `(tactic| shp) => `(tactic| first
    | assumption
    | exact Pat.Matches.eps
    | exact Pat.Matches.nil
    | exact Pat.Matches.one rfl
    | exact Pat.Matches.one ⟨_, by decide, rfl⟩
    | (apply Pat.Matches.seq <;> shp)
    | (apply Pat.Matches.skipR <;> shp)
    | (apply Pat.Matches.seq3 <;> shp)
    | (apply Pat.Matches.skipL <;> shp)
    | (apply Pat.Matches.left; shp)
    | (apply Pat.Matches.right; shp)
    | (apply Pat.Matches.more <;> shp)
    | (apply Pat.Matches.more1; shp))

/-- one step through a grammar function -/
syntax "tstep" : tactic
macro_rules
  | `(tactic| tstep) => `(tactic| with_reducible first
    | exact T.panic | exact T.fuel
    | refine T.start fun _ => ?_
    | refine T.done (by with_unfolding_all shp) rfl
    | refine T.complete (b' := []) (by with_unfolding_all shp) ?_
    | (refine T.then E.bump fun _ _ hs => ?_; subst hs)
    | refine T.then E.expect fun _ _ _ => ?_
    | refine T.current fun _ => ?_ | refine T.nth fun _ => ?_ | refine T.atK ?_ ?_ | refine T.atTs ?_ ?_
    | refine T.accept ?_ ?_
    | refine T.ite (fun _ => ?_) (fun _ => ?_)
    | refine T.pure (by with_unfolding_all first | rfl | shp) (fun _ _ _ => trivial))

syntax "tsteps" "[" term,* "]" : tactic
macro_rules
  | `(tactic| tsteps [$ts,*]) => do
    let ts := ts.getElems
    `(tactic| repeat' (first | contradiction | (first
      $[| ((with_reducible refine T.then $ts ?_); intro _ _ hs; try subst hs)]*
      $[| ((with_reducible refine T.last $ts (fun _ _ hs => ?_) (fun _ _ _ _ => trivial)); first | exact hs | ((try subst hs); shp) | skip)]*
      | tstep | dsimp only)))

variable {c : Cond} {r : Rec}

/-- the program adds a node of this kind -/
abbrev EN (c : Cond) (p : Prog Nat) (k : SyntaxKind) : Prop := E c p (fun _ ss => ss = [.node k]) Top

/-- the program adds items that match this pattern -/
abbrev EP {α : Type} (c : Cond) (p : Prog α) (a : Pat) : Prop := E c p (fun _ ss => a.Matches ss) fun _ => any

theorem EP.errRecover {msg rec} : EP c (P.errRecover msg rec) (opt (nd .error)) :=
  E.errRecover.weak fun _ ss h => by
    rcases h with rfl | rfl
    · exact .right .eps
    · exact .left (.one rfl)

theorem EP.errAndBump {msg} : EP c (P.errAndBump msg) (opt (nd .error)) := EP.errRecover

theorem EN.nameUnchecked : EN c nameUnchecked .name := by
  intro b σ; unfold Grammar.nameUnchecked; tsteps []

theorem EP.nameR {rec} : EP c (nameR rec) name? := by
  intro b σ; unfold Grammar.nameR; tsteps [EN.nameUnchecked, EP.errRecover]
  rename_i h
  cases h with
  | left h => exact .left (.right h)
  | right h => exact .right h

theorem EN.nameRefUnchecked : EN c nameRefUnchecked .nameRef := by
  intro b σ; unfold Grammar.nameRefUnchecked; tsteps []

theorem EP.nameRefR {rec} : EP c (nameRefR rec) nameRef? := by
  intro b σ; unfold Grammar.nameRefR; tsteps [EN.nameRefUnchecked, EP.errRecover]
  rename_i h
  cases h with
  | left h => exact .left (.right h)
  | right h => exact .right h

theorem EN.nameRef : EN c nameRef .nameRef := by
  intro b σ; unfold Grammar.nameRef; tsteps []

theorem EP.name (h : ∀ t i, c t i → lookahead t 0 = .ident) : EP c name (nd .name) := by
  intro b σ; unfold Grammar.name
  refine T.atK ?_ ?_
  · tsteps []
  · intro s a s' hi hc hr
    exact absurd (h _ _ hc.1) hc.2

/-- more names -/
def moreNames : Pat := .star (tk .comma ⬝ name?)

theorem EP.multiNameRLoop {rec v} : ∀ n {c}, EP c (multiNameRLoop rec v n) moreNames := by
  intro n
  induction n with
  | zero => intro c b σ; exact T.fuel
  | succ n ih =>
    intro c b σ; unfold Grammar.multiNameRLoop
    tsteps [EP.nameR, ih]

theorem EP.multiNameR {fuel rec v} : EP c (multiNameR fuel rec v) (nd .multiName) := by
  intro b σ; unfold Grammar.multiNameR
  tsteps [EP.nameR, EP.multiNameRLoop _]

theorem EN.paramList {fuel} : EN c (paramList fuel) .paramList := by
  intro b σ; unfold Grammar.paramList
  tsteps [EP.multiNameR, EP.errAndBump]

/-! ### expressions -/

/-- what is known about the two functions the grammar is recursive through -/
structure RT (r : Rec) : Prop where
  expr : ∀ {c n}, 0 < n → EP c (r.exprBp n) expr?
  exprAt : ∀ {c n}, 0 < n → (∀ t i, c t i → lookahead t 0 ∈ exprFirst) → EP c (r.exprBp n) anExpr
  block : ∀ {c}, EP c r.block (nd .block)

theorem EP.exprSingle (hr : RT r) : EP c (exprSingle r) expr? := hr.expr (by decide)

theorem EP.exprSingleAt {c : Cond} {r : Rec} (hr : RT r) (h : ∀ t i, c t i → lookahead t 0 ∈ exprFirst) : EP c (Grammar.exprSingle r) anExpr :=
  hr.exprAt (by decide) h

theorem EP.exprMultiLoop (hr : RT r) : ∀ n {c}, EP c (exprMultiLoop r n) (.star (tk .comma ⬝ expr?)) := by
  intro n
  induction n with
  | zero => intro c b σ; exact T.fuel
  | succ n ih =>
    intro c b σ; unfold Grammar.exprMultiLoop
    tsteps [EP.exprSingle hr, ih]

theorem EN.expr (hr : RT r) {fuel} : EN c (expr r fuel) .multivalExpr := by
  intro b σ; unfold Grammar.expr
  tsteps [EP.exprSingle hr, EP.exprMultiLoop hr _]

theorem EN.index (hr : RT r) : EN c (index r) .index := by
  intro b σ; unfold Grammar.index
  tsteps [EP.exprSingle hr]

theorem EN.tableSep : EN c tableSep .tableSep := by
  intro b σ; unfold Grammar.tableSep P.bumpTs
  refine T.start fun _ => ?_
  have hp : E (fun t _ => ∃ i, c t i) (do if !(← P.atTs TABLE_SEP) then Prog.panic else P.bumpAny)
      (fun _ ss => (tks [.comma, .semicolon]).Matches ss) fun _ => any := by
    intro b σ
    refine T.atTs (T.ite (fun h => by simp at h) (fun _ => ?_)) (T.ite (fun _ => T.panic) (fun h => by simp at h))
    refine T.last E.bumpAny ?_ fun _ _ _ _ => trivial
    rintro _ ss ⟨x, rfl, t, i, ⟨-, h⟩, rfl⟩
    refine .one ⟨_, ?_, rfl⟩
    simp [TABLE_SEP, TokenSet.contains_new] at h
    simpa using h
  tsteps [hp]

theorem EN.tableContent (hr : RT r) : EN c (tableContent r) .tableContent := by
  intro b σ; unfold Grammar.tableContent
  refine T.start fun _ => T.current fun x => ?_
  dsimp only
  refine T.ite (fun h1 => ?_) (fun h1 => T.ite (fun h2 => ?_) (fun h2 => T.atTs ?_ ?_))
  · refine T.nth fun _ => T.ite (fun _ => ?_) (fun _ => ?_)
    · refine T.start fun _ => T.start fun _ => T.then EN.nameUnchecked fun _ _ hs => ?_
      subst hs
      refine T.complete (b' := []) (by shp) (T.then E.bump fun _ _ hs => ?_)
      subst hs
      refine T.then (EP.exprSingle hr) fun _ ss hs => T.complete (b' := []) ?_ ?_
      · exact .seq (.seq (.one rfl) (.left (.one rfl))) hs
      · tsteps []
    · refine T.start fun _ => T.then (EP.exprSingleAt hr ?_) fun _ _ hs => ?_
      · rintro t i ⟨j, ⟨-, h⟩, -⟩
        rw [h, show x = .ident by simpa using h1]; decide
      · tsteps []
  · refine T.start fun _ => T.start fun _ => T.then (EN.index hr) fun _ _ hs => ?_
    subst hs
    refine T.complete (b' := []) (by shp) (T.then E.expect fun _ _ hs => ?_)
    refine T.then (EP.exprSingle hr) fun _ ss hs => T.complete (b' := []) (by shp) ?_
    tsteps []
  · refine T.ite (fun _ => ?_) (fun h => absurd rfl h)
    refine T.start fun _ => T.then (EP.exprSingleAt hr ?_) fun _ _ hs => ?_
    · rintro t i ⟨j, -, h⟩
      simpa [contains_EXPR_FIRST] using h
    · tsteps []
  · refine T.ite (fun h => by simp at h) (fun _ => T.then E.error fun _ _ hs => ?_)
    subst hs
    tsteps []

/-- at a token where recovery stops -/
def stopped : Cond := fun t _ => TABLE_RECOVERY.contains (lookahead t 0) = true ∨ lookahead t 0 = .endKw ∨ lookahead t 0 = .eof

theorem EP.tableInnerStop {fuel} : ∀ n {c : Cond}, (∀ t i, c t i → stopped t i) →
    EP c (tableInnerLoop fuel n) (opt (nd .tableSep)) := by
  intro n
  cases n with
  | zero => intro c _ b σ; exact T.fuel
  | succ n =>
    intro c hc b σ; unfold Grammar.tableInnerLoop
    refine T.atTs (T.ite (fun h => by simp at h) (fun _ => ?_)) (T.ite (fun _ => ?_) (fun h => by simp at h))
    · tsteps []
    refine T.atTs (T.ite (fun _ => ?_) (fun h => absurd rfl h)) (T.ite (fun h => by simp at h) (fun _ => ?_))
    · tsteps [EN.tableSep]
    refine T.atTs (T.ite (fun _ => ?_) (fun h => absurd rfl h)) (T.ite (fun h => by simp at h) (fun _ => ?_))
    · tsteps []
    · intro s a s' hi h hr
      exfalso
      obtain ⟨⟨⟨h1, h2⟩, h3⟩, h4⟩ := h
      rcases hc _ _ h1 with h | h | h
      · rw [h4] at h; simp at h
      · rw [h] at h2; revert h2; decide
      · rw [h] at h2; revert h2; decide

theorem EP.tableInnerLoop {fuel} : ∀ n {c : Cond}, EP c (tableInnerLoop fuel n) (opt (nd .error) ⬝ opt (nd .tableSep)) := by
  intro n
  cases n with
  | zero => intro c b σ; exact T.fuel
  | succ n =>
    intro c b σ; unfold Grammar.tableInnerLoop
    refine T.atTs (T.ite (fun h => by simp at h) (fun _ => ?_)) (T.ite (fun _ => ?_) (fun h => by simp at h))
    · tsteps []
    refine T.atTs (T.ite (fun _ => ?_) (fun h => absurd rfl h)) (T.ite (fun h => by simp at h) (fun _ => ?_))
    · tsteps [EN.tableSep]
    refine T.atTs (T.ite (fun _ => ?_) (fun h => absurd rfl h)) (T.ite (fun h => by simp at h) (fun _ => ?_))
    · tsteps []
    · unfold tableCorrect
      refine T.then E.errUntil fun _ _ hs => ?_
      subst hs
      refine T.last (EP.tableInnerStop n fun t i h => h) (fun _ ss hs => ?_) fun _ _ _ _ => trivial
      exact .seq (.left (.one rfl)) hs

theorem EP.tableLoop (hr : RT r) {fuel} : ∀ n {c},
    EP c (tableLoop r fuel n) (.star (nd .tableContent ⬝ opt (nd .error) ⬝ opt (nd .tableSep))) := by
  intro n
  induction n with
  | zero => intro c b σ; exact T.fuel
  | succ n ih =>
    intro c b σ; unfold Grammar.tableLoop
    refine T.atTs (T.ite (fun h => by simp at h) (fun _ => ?_)) (T.ite (fun _ => ?_) (fun h => by simp at h))
    · tsteps []
    refine T.then (EN.tableContent hr) fun _ _ hs => T.then (EP.tableInnerLoop _) fun _ ss h1 => ?_
    subst hs
    refine T.last ih (fun _ s2 h2 => ?_) fun _ _ _ _ => trivial
    refine .more ?_ h2
    generalize hp : (opt (nd .error) ⬝ opt (nd .tableSep)) = p at h1
    cases h1 <;> cases hp
    rename_i x y h3 h4
    rw [← List.append_assoc]
    exact .seq (.seq (.one rfl) h3) h4

theorem EN.tableExpr (hr : RT r) {fuel} : EN c (tableExpr r fuel) .tableExpr := by
  intro b σ; unfold Grammar.tableExpr
  tsteps [EP.tableLoop hr _]

theorem EN.functionExpr (hr : RT r) {fuel} : EN c (functionExpr r fuel) .functionExpr := by
  intro b σ; unfold Grammar.functionExpr
  tsteps [EN.paramList, hr.block]

theorem EN.argList (hr : RT r) {fuel} : EN c (argList r fuel) .argList := by
  intro b σ; unfold Grammar.argList
  tsteps [EN.expr hr]

theorem EN.callArgs (hr : RT r) {fuel} : EN c (callArgs r fuel) .callArgs := by
  intro b σ; unfold Grammar.callArgs
  refine T.atTs (T.ite (fun h => by simp at h) (fun _ => ?_)) (T.ite (fun _ => T.panic) (fun h => by simp at h))
  refine T.start fun _ => T.current fun x => ?_
  dsimp only
  refine T.ite (fun h1 => ?_) (fun h1 => T.ite (fun h2 => ?_) (fun h2 => T.ite (fun h3 => ?_) (fun h3 => T.panic)))
  · tsteps [EN.argList hr]
  · tsteps [EN.tableExpr hr]
  · refine T.then E.bumpAny fun _ _ hs => ?_
    obtain ⟨y, rfl, t, i, ⟨-, h⟩, rfl⟩ := hs
    rw [h, show x = .str by simpa using h3]
    tsteps []

/-- a node of an expression is replaced by another one -/
abbrev EX (p : Nat → Prog Nat) : Prop :=
  ∀ (l : Nat) (k : SyntaxKind) (b acc : List Sym) (σ : Opens), k ∈ exprKinds →
    T ((b, acc ++ [.node k]) :: σ) (Top l) (p l) b σ (fun _ ss => ∃ k ∈ exprKinds, ss = acc ++ [.node k]) Top

theorem anExpr_node {k : SyntaxKind} (h : k ∈ exprKinds) : anExpr.Matches [.node k] := .one ⟨k, h, rfl⟩

theorem EX.callExpr (hr : RT r) {fuel} : EX (callExpr r fuel) := by
  intro l k b acc σ hk; unfold Grammar.callExpr
  refine T.precede (fun _ _ h => h) fun m => T.then (EN.callArgs hr) fun _ _ hs => ?_
  subst hs
  exact T.done (.seq (anExpr_node hk) (.one rfl)) ⟨_, by decide, rfl⟩

theorem EX.indexExpr (hr : RT r) : EX (indexExpr r) := by
  intro l k b acc σ hk; unfold Grammar.indexExpr
  refine T.precede (fun _ _ h => h) fun m => T.then (EN.index hr) fun _ _ hs => ?_
  subst hs
  exact T.done (.seq (anExpr_node hk) (.one rfl)) ⟨_, by decide, rfl⟩

theorem EX.dotExpr : EX dotExpr := by
  intro l k b acc σ hk; unfold Grammar.dotExpr
  refine T.precede (fun _ _ h => h) fun m => T.then E.bump fun _ _ hs => T.then E.expect fun _ _ h2 => ?_
  subst hs
  exact T.done (.seq (.seq (anExpr_node hk) (.one rfl)) h2) ⟨_, by decide, rfl⟩

theorem EX.methodCallExpr (hr : RT r) {fuel} : EX (methodCallExpr r fuel) := by
  intro l k b acc σ hk; unfold Grammar.methodCallExpr
  have he := anExpr_node hk
  refine T.precede (fun _ _ h => h) fun m => T.then E.bump fun _ _ hs => T.then EN.nameRef fun _ _ h2 => ?_
  subst hs h2
  refine T.atTs (T.ite (fun _ => ?_) (fun h => absurd rfl h)) (T.ite (fun h => by simp at h) (fun _ => ?_))
  · refine T.then (EN.callArgs hr) fun _ _ hs => ?_
    subst hs
    exact T.done (.seq (.seq (.seq he (.one rfl)) (.one rfl)) (.left (.one rfl))) ⟨_, by decide, rfl⟩
  · refine T.then E.error fun _ _ hs => ?_
    subst hs
    exact T.done (.seq (.seq (.seq he (.one rfl)) (.one rfl)) (.right .eps)) ⟨_, by decide, rfl⟩

theorem T.bindX {β : Type} {p : Nat → Prog Nat} {l k b acc σ c b0 σ0} {f : Nat → Prog β} {L2 : β → List Sym → Prop}
    {q2 : β → Cond} (hp : EX p) (hk : k ∈ exprKinds) (hc : ∀ t i, c t i → Top l t i)
    (h : ∀ k a, k ∈ exprKinds → T ((b, acc ++ [.node k]) :: σ) (Top a) (f a) b0 σ0 L2 q2) :
    T ((b, acc ++ [.node k]) :: σ) c (p l >>= f) b0 σ0 L2 q2 := by
  intro s a s' hi h1 hr
  rw [show (p l >>= f) = (p l).bind f from rfl, runF_bind] at hr
  split at hr
  · rename_i x s1 h2
    obtain ⟨ss, h3, ⟨k', h4, rfl⟩, h5⟩ := hp l k b acc σ hk s x s1 hi (hc _ _ h1) h2
    exact h k' x h4 s1 a s' h3 h5 hr
  · simp at hr

theorem EX.postfixExpr (hr : RT r) {fuel} : ∀ n bb, EX fun l => postfixExpr r fuel n l bb := by
  intro n
  induction n with
  | zero => intro bb l k b acc σ hk; exact T.fuel
  | succ n ih =>
    intro bb l k b acc σ hk
    show T _ _ (Grammar.postfixExpr r fuel (n + 1) l bb) _ _ _ _
    unfold Grammar.postfixExpr
    refine T.current fun _ => ?_
    refine T.pre (c' := Top l) ?_ fun t i h => h.1
    have fin : T ((b, acc ++ [.node k]) :: σ) (Top l) (Pure.pure l : Prog Nat) b σ
        (fun _ ss => ∃ k ∈ exprKinds, ss = acc ++ [.node k]) Top := T.pure ⟨k, hk, rfl⟩ fun _ _ h => h
    have go : ∀ {p : Nat → Prog Nat}, EX p → T ((b, acc ++ [.node k]) :: σ) (Top l)
        (p l >>= fun l => Grammar.postfixExpr r fuel n l true) b σ (fun _ ss => ∃ k ∈ exprKinds, ss = acc ++ [.node k]) Top :=
      fun hp => T.bindX hp hk (fun _ _ h => h) fun k' a hk' => ih true a k' b acc σ hk'
    cases bb with
    | true =>
      simp only [Bool.true_and]
      refine T.atTs ?_ ?_
      all_goals
        refine T.pre (c' := Top l) ?_ fun t i h => h.1
        refine T.ite (fun _ => go (EX.callExpr hr)) (fun _ => T.ite (fun _ => go (EX.methodCallExpr hr)) (fun _ =>
          T.ite (fun _ => go (EX.indexExpr hr)) (fun _ => T.ite (fun _ => go EX.dotExpr) (fun _ => fin))))
    | false =>
      simp only [Bool.false_and]
      refine T.atTs ?_ ?_
      all_goals
        refine T.pre (c' := Top l) ?_ fun t i h => h.1
        refine T.ite (fun _ => go (EX.callExpr hr)) (fun _ => T.ite (fun _ => go (EX.methodCallExpr hr)) (fun _ =>
          T.ite (fun _ => go (EX.indexExpr hr)) (fun _ => T.ite (fun _ => go EX.dotExpr) (fun _ => fin))))

theorem EN.parenExpr (hr : RT r) (h : ∀ t i, c t i → lookahead t 0 = .lParen) : EN c (parenExpr r) .parenExpr := by
  intro b σ; unfold Grammar.parenExpr
  refine T.start fun _ => T.then (E.expectAt ?_) fun _ _ hs => ?_
  · rintro t i ⟨j, hj⟩; exact h t j hj
  subst hs
  tsteps [hr.expr (n := BindingPowers.lowest) (by decide)]

/-- an expression, or (unless `p0`) an error -/
def OL {β : Type} (p0 : Prop) (a : Option β) (ss : List Sym) : Prop :=
  (a = none ∧ ¬ p0 ∧ (opt (nd .error)).Matches ss) ∨ (a.isSome = true ∧ ∃ k ∈ exprKinds, ss = [.node k])

theorem OL.some {β : Type} {p0 : Prop} {a : β} {k : SyntaxKind} (h : k ∈ exprKinds) : OL p0 (some a) [.node k] :=
  .inr ⟨rfl, k, h, rfl⟩

theorem E.literal {p0} : E c literal (OL p0) OTop := by
  intro b σ; unfold Grammar.literal
  refine T.atTs (T.ite (fun h => by simp at h) (fun _ => ?_)) (T.ite (fun _ => T.panic) (fun h => by simp at h))
  refine T.start fun _ => T.then E.bumpAny fun _ _ hs => ?_
  obtain ⟨y, rfl, t, i, ⟨j, -, h⟩, rfl⟩ := hs
  refine T.complete (b' := []) (.one ⟨_, by simpa [contains_LITERAL_FIRST] using h, rfl⟩) (T.pure (OL.some (by decide)) ?_)
  intro t i h m hm
  cases hm
  exact h

theorem E.prefixNode (hr : RT r) {n} {f : Option Nat → Nat → Prog (Option Nat)} {p0} (hn : 0 < n)
    (hc : ∀ t i, c t i → lookahead t 0 ∈ unaryOps)
    (hf : ∀ a m, f a m = Prog.panic ∨ f a m = (do return some (← P.complete m .prefixExpr))) :
    E c (P.start >>= fun m => P.bumpAny >>= fun _ => r.exprBp n >>= fun a => f a m) (OL p0) OTop := by
  intro b σ
  refine T.start fun m => T.then E.bumpAny fun _ _ hs => T.then (hr.expr hn) fun a _ h2 => ?_
  obtain ⟨y, rfl, t, i, ⟨j, h⟩, rfl⟩ := hs
  rcases hf a m with e | e <;> rw [e]
  · exact T.panic
  · refine T.complete (b' := []) (.seq (.one ⟨_, hc _ _ h, rfl⟩) h2) (T.pure (OL.some (by decide)) ?_)
    intro t i h m hm
    cases hm
    exact h

theorem E.atomExpr (hr : RT r) {fuel} {p0 : Prop} (h0 : p0 → ∀ t i, c t i → lookahead t 0 ∈ exprFirst) :
    E c (atomExpr r fuel) (OL p0) PTop := by
  intro b σ; unfold Grammar.atomExpr
  refine T.current fun y => ?_
  dsimp only
  refine T.ite (fun h => ?_) (fun h => ?_)
  · unfold Grammar.prefixExpr
    refine T.then (E.prefixNode (p0 := p0) hr (f := fun a m => match a with
      | none => Prog.panic | some _ => do return some (← P.complete m .prefixExpr)) h ?_ ?_) fun a ss hs => ?_
    · rintro t i ⟨-, e⟩
      rw [e]; exact (prefix_pos_iff y).1 h
    · intro a m; cases a
      · exact .inl rfl
      · exact .inr rfl
    · cases a with
      | none =>
        refine T.pure ?_ fun _ _ _ _ hm => by cases hm
        rcases hs with ⟨-, h1, h2⟩ | ⟨h1, -⟩
        · exact .inl ⟨rfl, h1, h2⟩
        · simp at h1
      | some a =>
        refine T.pure ?_ fun _ _ h m hm => by cases hm; exact h a rfl
        rcases hs with ⟨h1, -⟩ | ⟨-, h1⟩
        · simp at h1
        · exact .inr ⟨rfl, h1⟩
  have some' : ∀ {p : Prog Nat} {bb : Bool} {c' : Cond} {k}, k ∈ exprKinds → EN c' p k →
      T ((b, []) :: σ) c' (p >>= fun a => Pure.pure (some (a, bb))) b σ (OL p0) PTop := by
    intro p bb c' k hk hp
    refine T.then hp fun a _ hs => T.pure ?_ fun _ _ h m hm => by cases hm; exact h
    subst hs
    exact OL.some hk
  refine T.atTs ?_ ?_
  · refine T.ite (fun _ => ?_) (fun h => absurd rfl h)
    refine T.then (E.literal (p0 := p0)) fun a ss hs => T.pure ?_ fun _ _ h m hm => ?_
    · rcases hs with ⟨rfl, h1, h2⟩ | ⟨h1, h2⟩
      · exact .inl ⟨rfl, h1, h2⟩
      · exact .inr ⟨by simpa using h1, h2⟩
    · cases a with
      | none => cases hm
      | some a => cases hm; exact h a rfl
  refine T.ite (fun h => by simp at h) (fun _ => T.current fun x => ?_)
  refine T.ite (fun h1 => some' (by decide) (EN.functionExpr hr)) (fun h1 =>
    T.ite (fun h2 => some' (by decide) (EN.tableExpr hr)) (fun h2 =>
    T.ite (fun h3 => some' (by decide) EN.nameRef) (fun h3 =>
    T.ite (fun h4 => some' (by decide) (EN.parenExpr hr ?_)) (fun h4 => ?_))))
  · intro t i hc
    rw [hc.2]
    simpa using h4
  · by_cases hp : p0
    · intro s a s' hi hc hr
      exfalso
      obtain ⟨⟨⟨e0, e1⟩, e2⟩, e3⟩ := hc
      have := h0 hp _ _ e0
      rw [e3] at this e1 e2
      subst e1
      have h5 := mt (prefix_pos_iff x).2 h
      simp [contains_LITERAL_FIRST, literalKinds] at e2
      simp [unaryOps] at h5
      simp at h1 h2 h3 h4
      simp [exprFirst, literalKinds] at this
      grind
    · refine T.then EP.errRecover fun _ ss hs => T.pure (.inl ⟨rfl, hp, hs⟩) fun _ _ _ m hm => by cases hm

theorem E.lhs (hr : RT r) {fuel} {p0 : Prop} (h0 : p0 → ∀ t i, c t i → lookahead t 0 ∈ exprFirst) :
    E c (lhs r fuel) (OL p0) OTop := by
  intro b σ; unfold Grammar.lhs
  refine T.current fun y => ?_
  dsimp only
  refine T.ite (fun h => ?_) (fun h => ?_)
  · refine T.last (E.prefixNode (p0 := p0) hr (f := fun _ m => do return some (← P.complete m .prefixExpr)) h ?_ ?_)
      (fun _ _ h => h) fun _ _ _ h => h
    · rintro t i ⟨-, e⟩
      rw [e]; exact (prefix_pos_iff y).1 h
    · exact fun _ _ => .inr rfl
  · refine T.then (E.atomExpr hr (p0 := p0) fun hp t i hc => h0 hp t i hc.1) fun a ss hs => ?_
    cases a with
    | none =>
      refine T.pure ?_ fun _ _ _ _ hm => by cases hm
      rcases hs with ⟨-, h1, h2⟩ | ⟨h1, -⟩
      · exact .inl ⟨rfl, h1, h2⟩
      · simp at h1
    | some a =>
      obtain ⟨l, bb⟩ := a
      rcases hs with ⟨h1, -⟩ | ⟨-, k, hk, rfl⟩
      · simp at h1
      refine T.bindX (p := fun l => Grammar.postfixExpr r fuel fuel l bb) (EX.postfixExpr hr fuel bb) hk ?_ fun k' a hk' => ?_
      · intro t i h; exact h (l, bb) rfl
      · refine T.pure (OL.some hk') ?_
        intro t i h m hm
        cases hm
        exact h

theorem EX.exprBpLoop (hr : RT r) {n0} (hn : 0 < n0) : ∀ n, EX fun l => exprBpLoop r n0 n l := by
  intro n
  induction n with
  | zero => intro l k b acc σ hk; exact T.fuel
  | succ n ih =>
    intro l k b acc σ hk
    show T _ _ (Grammar.exprBpLoop r n0 (n + 1) l) _ _ _ _
    unfold Grammar.exprBpLoop
    refine T.current fun y => ?_
    dsimp only
    refine T.ite (fun _ => T.pure ⟨k, hk, rfl⟩ fun _ _ h => h.1) (fun hb => ?_)
    refine T.then E.bumpAny fun _ _ hs => ?_
    obtain ⟨z, rfl, t, i, ⟨-, h⟩, rfl⟩ := hs
    rw [h]
    have hy : y ∈ infixOps := mem_infixOps_of_ibp1 (by show 0 < (infixBindingPower y).1; omega)
    refine T.precede1 ?_ fun m => ?_
    · rintro t i ⟨t1, i1, ⟨⟨kk, bf, af, cur, e⟩, -⟩, -, -, e4⟩
      exact ⟨_, kk, bf, af, cur, by rw [e4, e]⟩
    · refine T.then (hr.expr (ibp_pos_of_mem hy).2) fun _ ss hs => T.complete (b' := []) ?_ ?_
      · exact .seq (.seq (a := anExpr) (x := [.node k]) (anExpr_node hk) (.one ⟨y, isBinary_of_mem hy, rfl⟩)) hs
      · exact ih _ _ _ _ _ (by decide)

theorem E.exprBp (hr : RT r) {fuel n} (hn : 0 < n) {p0 : Prop} (h0 : p0 → ∀ t i, c t i → lookahead t 0 ∈ exprFirst) :
    E c (exprBp r fuel n) (OL p0) fun _ => any := by
  intro b σ; unfold Grammar.exprBp
  refine T.then (E.lhs hr h0) fun a ss hs => ?_
  cases a with
  | none =>
    refine T.pure ?_ fun _ _ _ => trivial
    rcases hs with ⟨-, h1, h2⟩ | ⟨h1, -⟩
    · exact .inl ⟨rfl, h1, h2⟩
    · simp at h1
  | some a =>
    rcases hs with ⟨h1, -⟩ | ⟨-, k, hk, rfl⟩
    · simp at h1
    refine T.bindX (p := fun l => Grammar.exprBpLoop r n fuel l) (EX.exprBpLoop hr hn fuel) hk ?_ fun k' a hk' => ?_
    · intro t i h; exact h a rfl
    · exact T.pure (OL.some hk') fun _ _ _ => trivial

/-! ### statements -/

theorem EN.elseBranch (hr : RT r) : EN c (elseBranch r) .elseBranch := by
  intro b σ; unfold Grammar.elseBranch
  tsteps [hr.block]

theorem EN.elseifBranch (hr : RT r) : ∀ n {c}, EN c (elseifBranch r n) .elseIfBranch := by
  intro n
  induction n with
  | zero => intro c b σ; exact T.fuel
  | succ n ih =>
    intro c b σ; unfold Grammar.elseifBranch
    tsteps [EP.exprSingle hr, hr.block, EN.elseBranch hr, ih]

theorem EN.ifStmt (hr : RT r) {fuel} : EN c (ifStmt r fuel) .ifStmt := by
  intro b σ; unfold Grammar.ifStmt
  tsteps [EP.exprSingle hr, hr.block, EN.elseBranch hr, EN.elseifBranch hr _]

theorem EN.gotoStmt : EN c gotoStmt .gotoStmt := by
  intro b σ; unfold Grammar.gotoStmt
  tsteps [EN.nameRef]

theorem EN.labelDelim : EN c labelDelim .labelDelim := by
  intro b σ; unfold Grammar.labelDelim
  tsteps []

theorem EN.labelStmt : EN c labelStmt .labelStmt := by
  intro b σ; unfold Grammar.labelStmt
  tsteps [EN.labelDelim, EP.nameR]

theorem EN.whileStmt (hr : RT r) : EN c (whileStmt r) .whileStmt := by
  intro b σ; unfold Grammar.whileStmt
  tsteps [EP.exprSingle hr, hr.block]

theorem EN.genericFor (hr : RT r) {fuel} : EN c (genericFor r fuel) .genericFor := by
  intro b σ; unfold Grammar.genericFor
  tsteps [EP.exprSingle hr, EP.multiNameR]

theorem EN.numericFor (hr : RT r) {fuel} : EN c (numericFor r fuel) .numericFor := by
  intro b σ; unfold Grammar.numericFor
  refine T.atK (T.ite (fun h => by simp at h) (fun _ => ?_)) (T.ite (fun _ => T.panic) (fun h => by simp at h))
  refine T.start fun _ => T.then (EP.name ?_) fun _ _ hs => ?_
  · rintro t i ⟨j, h⟩; exact h.2
  · tsteps [EN.expr hr]

theorem EN.forContent (hr : RT r) {fuel} : EN c (forContent r fuel) .forContent := by
  intro b σ; unfold Grammar.forContent
  refine T.start fun _ => T.atK (T.ite (fun _ => ?_) (fun h => absurd rfl h)) (T.ite (fun h => by simp at h) (fun _ => ?_))
  · tsteps [EN.numericFor hr, EN.genericFor hr]
  · refine T.then E.error fun _ _ hs => ?_
    subst hs
    tsteps []

theorem EN.forStmt (hr : RT r) {fuel} : EN c (forStmt r fuel) .forStmt := by
  intro b σ; unfold Grammar.forStmt
  tsteps [EN.forContent hr, hr.block]

theorem EN.repeatUntilStmt (hr : RT r) : EN c (repeatUntilStmt r) .repeatUntilStmt := by
  intro b σ; unfold Grammar.repeatUntilStmt
  tsteps [EP.exprSingle hr, hr.block]

theorem EN.breakStmt : EN c breakStmt .breakStmt := by
  intro b σ; unfold Grammar.breakStmt
  tsteps []

theorem EN.localFunctionDefStmt (hr : RT r) {fuel} (h : ∀ t i, c t i → lookahead t 1 = .functionKw) :
    EN c (localFunctionDefStmt r fuel) .localFunctionDefStmt := by
  intro b σ; unfold Grammar.localFunctionDefStmt
  refine T.start fun _ => T.then E.bump fun _ _ hs => T.then (E.expectAt ?_) fun _ _ h2 => ?_
  · rintro t i ⟨t1, i1, ⟨j, hj⟩, h2, rfl, -⟩
    rw [lookahead_tail, h t1 j hj]
  subst hs h2
  tsteps [EN.paramList, EP.nameR, hr.block]

theorem EN.localAssignStmt (hr : RT r) {fuel} : EN c (localAssignStmt r fuel) .localAssignStmt := by
  intro b σ; unfold Grammar.localAssignStmt
  tsteps [EN.expr hr, EP.multiNameR]

theorem EP.localStmt (hr : RT r) {fuel} : EP c (localStmt r fuel) (nds stmtKinds) := by
  intro b σ; unfold Grammar.localStmt
  refine T.nth fun x => T.ite (fun h => T.last (EN.localFunctionDefStmt hr fun t i hc => ?_) ?_ ?_)
    (fun _ => T.last (EN.localAssignStmt hr) ?_ ?_)
  · rw [hc.2]; simpa using h
  · rintro _ _ rfl; exact .one ⟨_, by decide, rfl⟩
  · intros; trivial
  · rintro _ _ rfl; exact .one ⟨_, by decide, rfl⟩
  · intros; trivial

theorem EP.exprStmt (hr : RT r) {fuel} : EP c (exprStmt r fuel) (nds stmtKinds) := by
  intro b σ; unfold Grammar.exprStmt
  refine T.start fun _ => T.then (EN.expr hr) fun _ _ hs => ?_
  subst hs
  refine T.accept ?_ ?_
  · refine T.ite (fun _ => T.then (EN.expr hr) fun _ _ hs => ?_) (fun h => absurd rfl h)
    subst hs
    refine T.post (T.done (L := fun _ ss => (nds stmtKinds).Matches ss) (by shp) (.one ⟨_, by decide, rfl⟩))
      (fun _ _ h => h) fun _ _ _ _ => trivial
  · refine T.ite (fun h => by simp at h) (fun _ => ?_)
    refine T.post (T.done (L := fun _ ss => (nds stmtKinds).Matches ss) (by shp) (.one ⟨_, by decide, rfl⟩))
      (fun _ _ h => h) fun _ _ _ _ => trivial

theorem EP.indexPathLoop : ∀ n {c}, EP c (indexPathLoop n) (.star (tk .dot ⬝ nameRef?)) := by
  intro n
  induction n with
  | zero => intro c b σ; exact T.fuel
  | succ n ih =>
    intro c b σ; unfold Grammar.indexPathLoop
    tsteps [EP.nameRefR, ih]

theorem EN.indexPath {fuel} : EN c (indexPath fuel) .indexPath := by
  intro b σ; unfold Grammar.indexPath
  tsteps [EP.nameRefR, EP.indexPathLoop _]

/-- at an identifier there is always a name -/
theorem EP.nameRAt {rec} (h : ∀ t i, c t i → lookahead t 0 = .ident) : EP c (Grammar.nameR rec) (nd .name) := by
  intro b σ; unfold Grammar.nameR
  refine T.atK ?_ ?_
  · tsteps [EN.nameUnchecked]
  · intro s a s' hi hc hr
    exact absurd (h _ _ hc.1) hc.2

theorem EN.functionDefContent {fuel} : EN c (functionDefContent fuel) .functionDefContent := by
  intro b σ; unfold Grammar.functionDefContent
  refine T.start fun m => ?_
  have path : ∀ {c' : Cond}, T (([], []) :: (b, []) :: σ) c'
      (do
        let m1 ← P.precede (← Grammar.indexPath fuel)
        if ← P.atK .colon then
          P.bump .colon
          Grammar.nameR FUNCTION_DEF_RECOVERY
          let _ ← P.complete m1 .functionMethod
        else
          Grammar.nameR FUNCTION_DEF_RECOVERY
          let _ ← P.complete m1 .functionStatic
        P.complete m .functionDefContent) b σ (fun _ ss => ss = [.node .functionDefContent]) Top := by
    intro c'
    refine T.then EN.indexPath fun _ _ hs => ?_
    subst hs
    refine T.precede (fun _ _ h => h) fun m1 => ?_
    tsteps [EP.nameR]
  refine T.atK ?_ ?_
  · refine T.nth fun x => T.ite (fun _ => ?_) (fun _ => path)
    refine T.then (EP.nameRAt ?_) fun _ ss hs => ?_
    · rintro t i ⟨⟨-, h⟩, -⟩; exact h
    · cases hs with
      | one h => subst h; tsteps []
  · refine T.nth fun x => T.ite (fun h => by simp at h) (fun _ => path)

theorem EN.functionDefStmt (hr : RT r) {fuel} (h : ∀ t i, c t i → lookahead t 0 = .functionKw) :
    EN c (functionDefStmt r fuel) .functionDefStmt := by
  intro b σ; unfold Grammar.functionDefStmt
  refine T.start fun _ => T.then (E.expectAt ?_) fun _ _ hs => ?_
  · rintro t i ⟨j, hj⟩; exact h t j hj
  subst hs
  tsteps [EN.functionDefContent, EN.paramList, hr.block]

theorem EN.doStmt (hr : RT r) : EN c (doStmt r) .doStmt := by
  intro b σ; unfold Grammar.doStmt
  tsteps [hr.block]

theorem EN.returnStmt (hr : RT r) {fuel} : EN c (returnStmt r fuel) .returnStmt := by
  intro b σ; unfold Grammar.returnStmt
  tsteps [EN.expr hr]

theorem E.unmatchedEnd : E c unmatchedEnd (fun _ ss => ss = [.node .error]) fun _ => any := by
  unfold Grammar.unmatchedEnd
  refine E.errorNode ?_
  rintro s a s' - hr
  have h2 : wpF (P.bump .endKw) s (fun b s'' => b = a ∧ s'' = s') := (wpF_iff _ _ _).2 ⟨a, s', hr, rfl, rfl⟩
  simp only [P.bump, wpF_bind, wpF_accept, wpF_ite, wpF_pure, wpF_panic] at h2
  by_cases hk : lookahead s.toks 0 = .endKw
  · have := h2.1 hk
    rw [← (this.2.1 trivial).2]
    exact ⟨[.endKw], s.ev + 1, by simp [hk], fun _ => trivial⟩
  · have := h2.2 hk
    simp at this

/-- a statement or an error node -/
def stmtOrError : Pat := .alt (nds stmtKinds) (nd .error)

theorem EP.stmtCore (hr : RT r) {fuel} : EP c (stmtCore r fuel) stmtOrError := by
  intro b σ; unfold Grammar.stmtCore
  refine T.current fun x => ?_
  have st : ∀ {c' : Cond} {p : Prog Nat} {k : SyntaxKind}, EN c' p k → k ∈ stmtKinds →
      T ((b, []) :: σ) c' (p >>= fun _ => (Pure.pure PUnit.unit : Prog Unit)) b σ (fun _ ss => stmtOrError.Matches ss) fun _ => any := by
    intro c' p k hp hk
    refine T.then hp fun _ _ hs => T.pure ?_ fun _ _ _ => trivial
    subst hs
    exact .left (.one ⟨k, hk, rfl⟩)
  have sp : ∀ {c' : Cond} {p : Prog Nat}, EP c' p (nds stmtKinds) →
      T ((b, []) :: σ) c' (p >>= fun _ => (Pure.pure PUnit.unit : Prog Unit)) b σ (fun _ ss => stmtOrError.Matches ss) fun _ => any := by
    intro c' p hp
    exact T.then hp fun _ _ hs => T.pure (.left hs) fun _ _ _ => trivial
  have er : ∀ {c' : Cond} {p : Prog Unit}, E c' p (fun _ ss => ss = [.node .error]) (fun _ => any) →
      T ((b, []) :: σ) c' p b σ (fun _ ss => stmtOrError.Matches ss) fun _ => any := by
    intro c' p hp
    refine T.last hp ?_ fun _ _ _ _ => trivial
    rintro _ _ rfl
    exact .right (.one rfl)
  refine T.ite (fun _ => st (EN.ifStmt hr) (by decide)) (fun _ => ?_)
  refine T.ite (fun _ => st EN.labelStmt (by decide)) (fun _ => ?_)
  refine T.ite (fun _ => st EN.gotoStmt (by decide)) (fun _ => ?_)
  refine T.ite (fun _ => sp (EP.localStmt hr)) (fun _ => ?_)
  refine T.ite (fun _ => st (EN.repeatUntilStmt hr) (by decide)) (fun _ => ?_)
  refine T.ite (fun h => st (EN.functionDefStmt hr ?_) (by decide)) (fun _ => ?_)
  · rintro t i ⟨-, rfl⟩; simpa using h
  refine T.ite (fun _ => st (EN.returnStmt hr) (by decide)) (fun _ => ?_)
  refine T.ite (fun _ => st (EN.doStmt hr) (by decide)) (fun _ => ?_)
  refine T.ite (fun _ => st (EN.whileStmt hr) (by decide)) (fun _ => ?_)
  refine T.ite (fun _ => st (EN.forStmt hr) (by decide)) (fun _ => ?_)
  refine T.ite (fun _ => st EN.breakStmt (by decide)) (fun _ => ?_)
  refine T.ite (fun _ => sp (EP.exprStmt hr)) (fun _ => ?_)
  refine T.ite (fun _ => sp (EP.exprStmt hr)) (fun _ => ?_)
  refine T.ite (fun h => er (E.errAndBump ?_)) (fun _ => ?_)
  · rintro t i ⟨-, rfl⟩; simp at h; rw [h]; decide
  refine T.atTs (T.ite (fun _ => er (E.errAndBump ?_)) (fun h => absurd rfl h)) (T.ite (fun h => by simp at h) (fun _ => ?_))
  · rintro t i ⟨-, h⟩ e; rw [e] at h; revert h; decide
  refine T.ite (fun _ => er E.unmatchedEnd) (fun h => er (E.errAndBump ?_))
  rintro t i ⟨⟨-, rfl⟩, -⟩; simpa using h

theorem EP.stmt (hr : RT r) {fuel} : EP c (stmt r fuel) (stmtOrError ⬝ opt (tk .semicolon)) := by
  intro b σ; unfold Grammar.stmt
  tsteps [EP.stmtCore hr]

theorem EP.blockLoop (hr : RT r) {fuel e} : ∀ n {c}, EP c (blockLoop r fuel e n) (.star (stmtOrError ⬝ opt (tk .semicolon))) := by
  intro n
  induction n with
  | zero => intro c b σ; exact T.fuel
  | succ n ih =>
    intro c b σ; unfold Grammar.blockLoop
    tsteps [EP.stmt hr, ih]

theorem EP.blockRaw (hr : RT r) {fuel e} : EP c (blockRaw r fuel e) (nd .block) := by
  intro b σ; unfold Grammar.blockRaw
  tsteps [EP.blockLoop hr _]

theorem recN_rt : ∀ n, RT (recN n)
  | 0 => ⟨fun _ _ _ => T.fuel, fun _ _ _ _ => T.fuel, fun _ _ => T.fuel⟩
  | n + 1 => ⟨fun hn => (E.exprBp (recN_rt n) hn (p0 := False) (fun h => h.elim)).weak fun a ss h => by
      rcases h with ⟨-, -, h⟩ | ⟨-, k, hk, rfl⟩
      · cases h with
        | left h => exact .left (.right h)
        | right h => exact .right h
      · exact .left (.left (anExpr_node hk)),
    fun hn h0 => (E.exprBp (recN_rt n) hn (p0 := True) (fun _ => h0)).weak fun a ss h => by
      rcases h with ⟨-, h, -⟩ | ⟨-, k, hk, rfl⟩
      · exact absurd trivial h
      · exact anExpr_node hk,
    EP.blockRaw (recN_rt n)⟩

theorem EP.root {fuel} : EP c (root fuel) (nd .sourceFile) := by
  intro b σ; unfold Grammar.root rootBlock
  tsteps [EP.blockRaw (recN_rt _)]

end Verif
