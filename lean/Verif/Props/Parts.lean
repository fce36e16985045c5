import Verif.Props.Tolerant
import Verif.Proof.AstProof
import Verif.Spec.Parts
import Verif.Props.AstExamples

/-
C104: the accessors of the typed syntax tree on files with errors.
-/
namespace Verif
open Spec Lua

/-! ### counting symbols -/

private theorem mem_of_isBinary {k : SyntaxKind} (h : isBinary k) : k ∈ infixOps := by
  unfold isBinary at h
  revert h; cases k <;> decide

/-- every match has between `m` and `n` of these symbols -/
private def Counts (P : Sym → Bool) (p : Pat) (m n : Nat) : Prop := ∀ ss, p.Matches ss → m ≤ ss.countP P ∧ ss.countP P ≤ n

variable {P : Sym → Bool}

private theorem Counts.seq {a b : Pat} {m n m' n' : Nat} (h1 : Counts P a m n) (h2 : Counts P b m' n') :
    Counts P (a ⬝ b) (m + m') (n + n') := by
  intro ss h
  cases h with
  | seq x y =>
    have := h1 _ x; have := h2 _ y
    rw [List.countP_append]; omega

private theorem Counts.opt {a : Pat} {m n : Nat} (h1 : Counts P a m n) : Counts P (opt a) 0 n := by
  intro ss h
  cases h with
  | left x => have := h1 _ x; omega
  | right x => cases x; simp

private theorem Counts.alt {a b : Pat} {m n m' n' : Nat} (h1 : Counts P a m n) (h2 : Counts P b m' n') :
    Counts P (.alt a b) (min m m') (max n n') := by
  intro ss h
  cases h with
  | left x => have := h1 _ x; omega
  | right x => have := h2 _ x; omega

private theorem Counts.star {a : Pat} {m n : Nat} (h1 : Counts P a m n) (hn : n = 0) : Counts P (.star a) 0 0 := by
  intro ss h
  generalize e : Pat.star a = q at h
  induction h with
  | nil => simp
  | more x y _ ih =>
    cases e
    have := h1 _ x; have := ih rfl
    subst hn
    rw [List.countP_append]; omega
  | _ => cases e

private theorem Counts.yes {p : Sym → Prop} (hp : ∀ x, p x → P x = true) : Counts P (.one p) 1 1 := by
  intro ss h
  cases h with
  | one h => have := hp _ h; simp [this]

private theorem Counts.no {p : Sym → Prop} (hp : ∀ x, p x → P x = false) : Counts P (.one p) 0 0 := by
  intro ss h
  cases h with
  | one h => have := hp _ h; simp [this]

private theorem Counts.maybe {p : Sym → Prop} : Counts P (.one p) 0 1 := by
  intro ss h
  cases h with
  | one h => rw [List.countP_cons]; simp; split <;> omega

private theorem Counts.le {p : Pat} {m n m' n' : Nat} (h : Counts P p m n) (h1 : m' ≤ m) (h2 : n ≤ n') : Counts P p m' n' :=
  fun ss x => ⟨Nat.le_trans h1 (h ss x).1, Nat.le_trans (h ss x).2 h2⟩

private theorem all_eq {b : Bool} {s : Sym} (h : P s = b) : ∀ x, x = s → P x = b := fun _ e => e ▸ h
private theorem all_nodes {b : Bool} {ks : List SyntaxKind} (h : ∀ k ∈ ks, P (.node k) = b) :
    ∀ x, (∃ k ∈ ks, x = Sym.node k) → P x = b := by rintro x ⟨k, hk, rfl⟩; exact h k hk
private theorem all_toks {b : Bool} {ks : List SyntaxKind} (h : ∀ k ∈ ks, P (.tok k) = b) :
    ∀ x, (∃ k ∈ ks, x = Sym.tok k) → P x = b := by rintro x ⟨k, hk, rfl⟩; exact h k hk
private theorem all_expr {b : Bool} (h : ∀ k ∈ exprKinds, P (.node k) = b) : ∀ x, IsExpr x → P x = b := by
  rintro x ⟨k, hk, rfl⟩; exact h k hk
private theorem all_bin {b : Bool} (h : ∀ k ∈ infixOps, P (.tok k) = b) : ∀ x, (∃ op, isBinary op ∧ x = Sym.tok op) → P x = b := by
  rintro x ⟨k, hk, rfl⟩
  exact h k (mem_of_isBinary hk)

macro "part_count1" : tactic => `(tactic|
  first
  | exact Counts.yes (all_eq (by decide))
  | exact Counts.no (all_eq (by decide))
  | exact Counts.yes (all_nodes (by decide))
  | exact Counts.no (all_nodes (by decide))
  | exact Counts.yes (all_toks (by decide))
  | exact Counts.no (all_toks (by decide))
  | exact Counts.yes (all_expr (by decide))
  | exact Counts.no (all_expr (by decide))
  | exact Counts.yes (all_bin (by decide))
  | exact Counts.no (all_bin (by decide))
  | exact Counts.maybe
  | (with_reducible apply Counts.seq)
  | (with_reducible apply Counts.opt)
  | (with_reducible apply Counts.alt)
  | (with_reducible apply Counts.star)
  | exact (rfl : _ = 0))

macro "part_counts" : tactic => `(tactic| (
  dsimp only [shape, tk, tks, nd, nds, expr?, name?, nameRef?, anExpr, sepBy]
  exact Counts.le (by repeat' part_count1) (by decide) (by decide)))

/-! ### one part -/

private theorem can_expr_mem {k : SyntaxKind} (h : Ast.Can.expr k = true) : k ∈ exprKinds := by
  cases k <;> first | decide | exact absurd h (by decide)


private theorem one_of_count {l : List Red} {Q : Red → Bool} (h : l.countP Q = 1) :
    ∃ a p b, l = a ++ p :: b ∧ Q p = true ∧ (∀ q ∈ a ++ b, Q q = false) ∧ l.find? Q = some p := by
  induction l with
  | nil => simp at h
  | cons x xs ih =>
    by_cases hx : Q x = true
    · have h0 : xs.countP Q = 0 := by rw [List.countP_cons] at h; simp [hx] at h; simpa using h
      refine ⟨[], x, xs, rfl, hx, ?_, by simp [hx]⟩
      intro q hq
      have := List.countP_eq_zero.1 h0 q hq
      simpa using this
    · have hx' : Q x = false := by simpa using hx
      rw [List.countP_cons] at h; simp [hx'] at h
      obtain ⟨a, p, b, rfl, h2, h3, h4⟩ := ih h
      refine ⟨x :: a, p, b, rfl, h2, ?_, by simp [hx', h4]⟩
      intro q hq
      rcases List.mem_cons.1 hq with rfl | hq
      · exact hx'
      · exact h3 q hq

private theorem none_of_count {l : List Red} {Q : Red → Bool} (h : l.countP Q = 0) :
    (∀ q ∈ l, Q q = false) ∧ l.find? Q = none := by
  have := List.countP_eq_zero.1 h
  refine ⟨fun q hq => by simpa using this q hq, ?_⟩
  rw [List.find?_eq_none]; exact this

private theorem parts_count {k : SyntaxKind} {m n : Nat} (h : Counts P (shape k) m n) {text : Text} {tree : Green}
    {errors : List SyntaxError} (ht : parseText text = .ok (tree, errors)) {r : Red} (hr : Below (Red.root tree) r)
    (hk : r.kind = k) : m ≤ (parts r).countP (fun q => P (sym q)) ∧ (parts r).countP (fun q => P (sym q)) ≤ n := by
  have := h _ (hk ▸ C103_shape text tree errors ht r hr)
  rwa [List.countP_map] at this

/-- the accessor finds the first part with the symbol -/
private def Finds (e : Accessor) : Prop := ∀ r, e.get r = (parts r).find? fun q => sym q == e.finds

private theorem finds_tok {k kk : SyntaxKind} {get : Red → Option Red} (hg : get = Ast.token kk) (hk : kk.isTrivia = false) :
    Finds ⟨k, .tok kk, get⟩ := by
  intro r
  subst hg
  show Ast.token kk r = _
  rw [token_parts kk hk]
  congr 1; funext e
  rw [Bool.eq_iff_iff]
  simp [sym_tok]

private theorem finds_node {k kk : SyntaxKind} {get : Red → Option Red} {can : SyntaxKind → Bool} (hg : get = Ast.child can)
    (hc : ∀ j, can j = (j == kk)) : Finds ⟨k, .node kk, get⟩ := by
  intro r
  subst hg
  show Ast.child can r = _
  rw [child_parts]
  congr 1; funext e
  rw [Bool.eq_iff_iff]
  simp [sym_node, hc]

/-- `b` is an expression -/
private def exprB : Sym → Bool
  | .node k => decide (k ∈ exprKinds)
  | .tok _ => false

private theorem exprB_iff {s : Sym} : exprB s = true ↔ IsExpr s := by
  cases s with
  | node k => simp [exprB, IsExpr]
  | tok k => simp [exprB, IsExpr]

macro "part_finds" : tactic => `(tactic| first | exact finds_tok rfl rfl | exact finds_node rfl fun _ => rfl)

private theorem required_ok : ∀ e ∈ requiredParts, Counts (· == e.finds) (shape e.kind) 1 1 ∧ Finds e := by
  unfold requiredParts
  repeat' (first | exact List.forall_mem_nil _ | refine List.forall_mem_cons.2 ⟨⟨?_, ?_⟩, ?_⟩)
  all_goals first | part_finds | part_counts

private theorem optional_ok : ∀ e ∈ optionalParts, Counts (· == e.finds) (shape e.kind) 0 1 ∧ Finds e := by
  unfold optionalParts
  repeat' (first | exact List.forall_mem_nil _ | refine List.forall_mem_cons.2 ⟨⟨?_, ?_⟩, ?_⟩)
  all_goals first | part_finds | part_counts

private theorem requiredExpr_ok : ∀ e ∈ requiredExpr, Counts exprB (shape e.1) 1 1 ∧ e.2 = Ast.child Ast.Can.expr := by
  unfold requiredExpr
  repeat' (first | exact List.forall_mem_nil _ | refine List.forall_mem_cons.2 ⟨⟨?_, ?_⟩, ?_⟩)
  all_goals first | rfl | part_counts

private theorem optionalExpr_ok : ∀ e ∈ optionalExpr, Counts exprB (shape e.1) 0 1 ∧ e.2 = Ast.child Ast.Can.expr := by
  unfold optionalExpr
  repeat' (first | exact List.forall_mem_nil _ | refine List.forall_mem_cons.2 ⟨⟨?_, ?_⟩, ?_⟩)
  all_goals first | rfl | part_counts

variable {text : Text} {tree : Green} {errors : List SyntaxError}

/-- **C104**: these accessors find their part on every node of their kind, in every file, and there is only one. -/
theorem C104_required (ht : parseText text = .ok (tree, errors)) (e : Accessor) (he : e ∈ requiredParts) (r : Red)
    (hr : Below (Red.root tree) r) (hk : r.kind = e.kind) : ∃ p, e.get r = some p ∧ OnlyPart r p e.finds := by
  obtain ⟨hc, hf⟩ := required_ok e he
  have := parts_count hc ht hr hk
  obtain ⟨a, p, b, h1, h2, h3, h4⟩ := one_of_count (Nat.le_antisymm this.2 this.1)
  exact ⟨p, by rw [hf]; exact h4, a, b, h1, by simpa using h2, fun q hq => by simpa using h3 q hq⟩

/-- **C104**: these accessors find the only part of their sort, and find nothing only when there is none. -/
theorem C104_optional (ht : parseText text = .ok (tree, errors)) (e : Accessor) (he : e ∈ optionalParts) (r : Red)
    (hr : Below (Red.root tree) r) (hk : r.kind = e.kind) :
    (e.get r = none ∧ ∀ q ∈ parts r, sym q ≠ e.finds) ∨ ∃ p, e.get r = some p ∧ OnlyPart r p e.finds := by
  obtain ⟨hc, hf⟩ := optional_ok e he
  have h := parts_count hc ht hr hk
  rcases Nat.le_one_iff_eq_zero_or_eq_one.1 h.2 with h0 | h1
  · left
    have := none_of_count h0
    exact ⟨by rw [hf]; exact this.2, fun q hq => by simpa using this.1 q hq⟩
  · right
    obtain ⟨a, p, b, h1, h2, h3, h4⟩ := one_of_count h1
    exact ⟨p, by rw [hf]; exact h4, a, b, h1, by simpa using h2, fun q hq => by simpa using h3 q hq⟩

private theorem expr_some {r : Red} (h : (parts r).countP (fun q => exprB (sym q)) = 1) : ∃ p, OnlyExpr r p ∧
    Ast.child Ast.Can.expr r = if sym p = .node .parenExpr then none else some p := by
  obtain ⟨a, p, b, h1, h2, h3, -⟩ := one_of_count h
  refine ⟨p, ⟨a, b, h1, exprB_iff.1 h2, fun q hq hx => ?_⟩, ?_⟩
  · have := h3 q hq
    rw [exprB_iff.2 hx] at this; cases this
  · rw [child_parts, h1]
    have no : ∀ q ∈ a ++ b, (q.green.isNode && Ast.Can.expr q.kind) = false := by
      intro q hq
      have hq' := h3 q hq
      cases hn : q.green.isNode with
      | false => rfl
      | true =>
        have : sym q = .node q.kind := sym_node.2 ⟨hn, rfl⟩
        rw [this] at hq'
        simp only [exprB, decide_eq_false_iff_not] at hq'
        cases hx : Ast.Can.expr q.kind with
        | false => rfl
        | true => exact absurd (can_expr_mem hx) hq'
    rw [List.find?_append, List.find?_eq_none.2 (fun q hq => by simp [no q (List.mem_append_left _ hq)]), Option.none_or,
      List.find?_cons]
    obtain ⟨k, hk, hs⟩ := exprB_iff.1 h2
    have hp := sym_node.1 hs
    rw [hs, hp.1, hp.2]
    by_cases hpk : k = .parenExpr
    · subst hpk
      simp only [can_paren, Bool.and_false, if_true]
      exact List.find?_eq_none.2 (fun q hq => by simp [no q (List.mem_append_right _ hq)])
    · rw [expr_can hk hpk]; simp [hpk]

/-- **C104**: the accessor of the expression of a call, an index, a field or a positional table entry finds it on every
such node of every file, unless it is in parentheses. -/
theorem C104_required_expr (ht : parseText text = .ok (tree, errors)) (e : SyntaxKind × (Red → Option Red))
    (he : e ∈ requiredExpr) (r : Red) (hr : Below (Red.root tree) r) (hk : r.kind = e.1) :
    ∃ p, OnlyExpr r p ∧ e.2 r = if sym p = .node .parenExpr then none else some p := by
  obtain ⟨hc, hf⟩ := requiredExpr_ok e he
  have h := parts_count hc ht hr hk
  rw [hf]
  exact expr_some (Nat.le_antisymm h.2 h.1)

/-- **C104**: conditions and other single expressions. -/
theorem C104_optional_expr (ht : parseText text = .ok (tree, errors)) (e : SyntaxKind × (Red → Option Red))
    (he : e ∈ optionalExpr) (r : Red) (hr : Below (Red.root tree) r) (hk : r.kind = e.1) :
    (e.2 r = none ∧ ∀ q ∈ parts r, ¬ IsExpr (sym q)) ∨
    ∃ p, OnlyExpr r p ∧ e.2 r = if sym p = .node .parenExpr then none else some p := by
  obtain ⟨hc, hf⟩ := optionalExpr_ok e he
  have h := parts_count hc ht hr hk
  rw [hf]
  rcases Nat.le_one_iff_eq_zero_or_eq_one.1 h.2 with h0 | h1
  · left
    have h2 := none_of_count h0
    have h3 : ∀ q ∈ parts r, ¬ IsExpr (sym q) := fun q hq hx => by
      have := h2.1 q hq
      rw [exprB_iff.2 hx] at this; cases this
    refine ⟨?_, h3⟩
    rw [child_parts, List.find?_eq_none]
    intro q hq hx
    simp only [Bool.and_eq_true] at hx
    exact h3 q hq ⟨_, can_expr_mem hx.2, sym_node.2 ⟨hx.1, rfl⟩⟩
  · exact .inr (expr_some h1)

/-! ### examples -/

private def brokenParts : Text := "local function ) while do a..b. = if [".toList

/-- A file with nine errors that has nodes of all these kinds: a function without a name, without parentheses and
without an `end`, and a field without a name. -/
example : ∃ tree errors, parseText brokenParts = .ok (tree, errors) ∧ errors.length = 9 ∧
    ∀ k ∈ [SyntaxKind.localFunctionDefStmt, .paramList, .doStmt, .assignStmt, .dotExpr, .infixExpr, .error],
      ∃ r, Below (Red.root tree) r ∧ r.kind = k := by
  have h : (parseText brokenParts).toOption.map (fun p : Green × List SyntaxError => (p.2.length,
      decide (∀ k ∈ [SyntaxKind.localFunctionDefStmt, .paramList, .doStmt, .assignStmt, .dotExpr, .infixExpr, .error],
        (firstOf k 40 (Red.root p.1)).isSome = true))) = some (9, true) := by
    rw [parseText_eq_eval]
    decide +kernel
  cases e : parseText brokenParts with
  | error x => rw [e] at h; simp [Except.toOption] at h
  | ok p =>
    rw [e] at h
    simp only [Except.toOption, Option.map_some, Option.some.injEq, Prod.mk.injEq, decide_eq_true_eq] at h
    refine ⟨p.1, p.2, rfl, h.1, fun k hk => ?_⟩
    obtain ⟨r, hr⟩ := Option.isSome_iff_exists.1 (h.2 k hk)
    exact ⟨r, firstOf_below hr .self⟩

/-- The shapes do exclude something: a loop without a body, two lists after a `return`. -/
example : ¬ (shape .whileStmt).Matches [.tok .whileKw, .node .nameRef, .tok .doKw, .tok .endKw] ∧
    ¬ (shape .returnStmt).Matches [.tok .returnKw, .node .multivalExpr, .node .multivalExpr] := by
  constructor
  · intro h
    have : Counts (· == .node .block) (shape .whileStmt) 1 1 := by part_counts
    exact absurd (this _ h).1 (by decide)
  · intro h
    have : Counts (· == .node .multivalExpr) (shape .returnStmt) 0 1 := by part_counts
    exact absurd (this _ h).2 (by decide)

end Verif
