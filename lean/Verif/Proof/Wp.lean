import Verif.Proof.Frame
import Verif.Spec.LuaGrammar
import Verif.Props.TokenSet

/-
Weakest preconditions for the frame semantics, and specifications of grammar functions.
-/
set_option linter.unusedSimpArgs false
namespace Verif
open Item PTree

/-- `p` runs to completion from `s` (no panic, enough fuel) and ends in a state satisfying `Q`. -/
def wpF {α : Type} (p : Prog α) (s : FState) (Q : α → FState → Prop) : Prop :=
  match p.runF s with
  | .ok r => Q r.1 r.2
  | .error _ => False

theorem wpF_iff {α : Type} (p : Prog α) (s : FState) (Q : α → FState → Prop) :
    wpF p s Q ↔ ∃ a s', p.runF s = .ok (a, s') ∧ Q a s' := by
  unfold wpF
  cases h : p.runF s with
  | ok r => simp only [Except.ok.injEq]; grind
  | error e => simp

theorem runF_bind {α β : Type} (p : Prog α) (f : α → Prog β) : ∀ s,
    (p.bind f).runF s = match p.runF s with
      | .ok (a, s') => (f a).runF s'
      | .error e => .error e := by
  induction p with
  | pure a => intro s; simp [Prog.bind, Prog.runF]
  | nth n k ih => intro s; simp [Prog.bind, Prog.runF, ih]
  | advance k ih =>
    intro s; simp only [Prog.bind, Prog.runF, ih]
    split <;> simp_all
  | start k ih => intro s; simp [Prog.bind, Prog.runF, ih]
  | startError k ih => intro s; simp [Prog.bind, Prog.runF, ih]
  | complete m kd k ih =>
    intro s; simp only [Prog.bind, Prog.runF]
    split
    · split
      · rw [ih]
      · rfl
    · rfl
  | precede c k ih =>
    intro s; simp only [Prog.bind, Prog.runF]
    split
    · rw [ih]
    · rfl
  | completeError m e k ih =>
    intro s; simp only [Prog.bind, Prog.runF]
    split
    · split
      · rw [ih]
      · rfl
    · rfl
  | error e k ih => intro s; simp [Prog.bind, Prog.runF, ih]
  | panic => intro s; simp [Prog.bind, Prog.runF]
  | outOfFuel => intro s; simp [Prog.bind, Prog.runF]

@[simp] theorem wpF_bind {α β : Type} (p : Prog α) (f : α → Prog β) (s Q) :
    wpF (p >>= f) s Q ↔ wpF p s (fun a s' => wpF (f a) s' Q) := by
  show wpF (p.bind f) s Q ↔ _
  simp only [wpF_iff]
  rw [runF_bind]
  constructor
  · rintro ⟨b, s2, h, hq⟩
    split at h
    · rename_i a s1 h1
      exact ⟨a, s1, h1, b, s2, h, hq⟩
    · simp at h
  · rintro ⟨a, s1, h1, b, s2, h2, hq⟩
    exact ⟨b, s2, by rw [h1]; exact h2, hq⟩

@[simp] theorem wpF_pure {α : Type} (a : α) (s Q) : wpF (pure a : Prog α) s Q ↔ Q a s := by
  show wpF (Prog.pure a) s Q ↔ _
  simp [wpF, Prog.runF]

@[simp] theorem wpF_pure' {α : Type} (a : α) (s Q) : wpF (Prog.pure a) s Q ↔ Q a s := by
  simp [wpF, Prog.runF]

@[simp] theorem lookahead_cons (k ts) : lookahead (k :: ts) 0 = k := by simp [lookahead]
@[simp] theorem lookahead_cons1 (k ts n) : lookahead (k :: ts) (n + 1) = lookahead ts n := by
  simp [lookahead]
@[simp] theorem lookahead_nil (n) : lookahead [] n = .eof := by simp [lookahead]

theorem lookahead_eq {toks : List SyntaxKind} {k : SyntaxKind} (h : lookahead toks 0 = k)
    (hk : k ≠ .eof) : ∃ ts, toks = k :: ts := by
  cases toks with
  | nil => simp at h; exact absurd h.symm hk
  | cons a ts => simp at h; exact ⟨ts, by rw [h]⟩

@[simp] theorem wpF_current (s Q) : wpF P.current s Q ↔ Q (lookahead s.toks 0) s := by
  simp [P.current, wpF, Prog.runF]
@[simp] theorem wpF_nth (n s Q) : wpF (P.nth n) s Q ↔ Q (lookahead s.toks n) s := by
  simp [P.nth, wpF, Prog.runF]
@[simp] theorem wpF_atK (k s Q) : wpF (P.atK k) s Q ↔ Q (lookahead s.toks 0 == k) s := by
  simp [P.atK]
@[simp] theorem wpF_atTs (ts s Q) : wpF (P.atTs ts) s Q ↔ Q (ts.contains (lookahead s.toks 0)) s := by
  simp [P.atTs]

@[simp] theorem wpF_start (s Q) : wpF P.start s Q ↔
    Q s.ev ⟨s.toks, s.ev + 1, [], ⟨s.ev, false, [], s.cur⟩ :: s.stack⟩ := by
  simp [P.start, wpF, Prog.runF]
@[simp] theorem wpF_startError (s Q) : wpF P.startError s Q ↔
    Q s.ev ⟨s.toks, s.ev + 1, [], ⟨s.ev, true, [], s.cur⟩ :: s.stack⟩ := by
  simp [P.startError, wpF, Prog.runF]
@[simp] theorem wpF_complete (m k toks ev cur bf outer st Q) :
    wpF (P.complete m k) ⟨toks, ev, cur, ⟨m, false, bf, outer⟩ :: st⟩ Q ↔
    k ≠ .tombstone ∧ Q m ⟨toks, ev + 1, .node m k bf cur.reverse :: outer, st⟩ := by
  simp [P.complete, wpF, Prog.runF]
  by_cases hk : k = .tombstone <;> simp [hk]
@[simp] theorem wpF_completeError (m e toks ev cur bf outer st Q) :
    wpF (P.completeError m e) ⟨toks, ev, cur, ⟨m, true, bf, outer⟩ :: st⟩ Q ↔
    Q () ⟨toks, ev + 1, .errNode cur.reverse e :: outer, st⟩ := by
  simp [P.completeError, wpF, Prog.runF]
@[simp] theorem wpF_pushError (e s Q) :
    wpF (P.pushError e) s Q ↔ Q () ⟨s.toks, s.ev + 1, .err e :: s.cur, s.stack⟩ := by
  simp [P.pushError, wpF, Prog.runF]
@[simp] theorem wpF_error (e s Q) :
    wpF (P.error e) s Q ↔ Q () ⟨s.toks, s.ev + 1, .err (.message e) :: s.cur, s.stack⟩ := by
  simp [P.error]
@[simp] theorem wpF_bumpExpect (s Q) :
    wpF P.bumpExpect s Q ↔ lookahead s.toks 0 ≠ .eof ∧
      Q () ⟨s.toks.tail, s.ev + 1, .tok (lookahead s.toks 0) :: s.cur, s.stack⟩ := by
  simp only [P.bumpExpect, wpF, Prog.runF]
  by_cases h : lookahead s.toks 0 = .eof <;> simp [h, Prog.runF]
@[simp] theorem wpF_panic {α} (s Q) : wpF (Prog.panic : Prog α) s Q ↔ False := by
  simp [wpF, Prog.runF]
@[simp] theorem wpF_fuel {α} (s Q) : wpF (Prog.outOfFuel : Prog α) s Q ↔ False := by
  simp [wpF, Prog.runF]

@[simp] theorem wpF_precede_head (cm k bf af toks ev cur st Q) :
    wpF (P.precede cm) ⟨toks, ev, .node cm k bf af :: cur, st⟩ Q ↔
    Q ev ⟨toks, ev + 1, [], ⟨ev, false, [.node cm k bf af], cur⟩ :: st⟩ := by
  simp [P.precede, wpF, Prog.runF, splitNode]
@[simp] theorem wpF_precede_tok (cm k bf af t toks ev cur st Q) :
    wpF (P.precede cm) ⟨toks, ev, .tok t :: .node cm k bf af :: cur, st⟩ Q ↔
    Q ev ⟨toks, ev + 1, [], ⟨ev, false, [.node cm k bf af, .tok t], cur⟩ :: st⟩ := by
  simp [P.precede, wpF, Prog.runF, splitNode]

@[simp] theorem wpF_ite {α} {c : Prop} [Decidable c] (p q : Prog α) (s Q) :
    wpF (if c then p else q) s Q ↔ (c → wpF p s Q) ∧ (¬ c → wpF q s Q) := by
  by_cases h : c <;> simp [h]

@[simp] theorem wpF_accept (k s Q) : wpF (P.accept k) s Q ↔
    (lookahead s.toks 0 = k → k ≠ .eof ∧
      Q true ⟨s.toks.tail, s.ev + 1, .tok (lookahead s.toks 0) :: s.cur, s.stack⟩) ∧
    (lookahead s.toks 0 ≠ k → Q false s) := by
  simp only [P.accept, wpF_bind, wpF_atK, wpF_ite, beq_iff_eq, wpF_bumpExpect, wpF_pure]
  grind

@[simp] theorem wpF_bump (k ts ev cur st Q) :
    wpF (P.bump k) ⟨k :: ts, ev, cur, st⟩ Q ↔
      k ≠ .eof ∧ Q () ⟨ts, ev + 1, .tok k :: cur, st⟩ := by
  simp [P.bump]

@[simp] theorem wpF_bumpAny (k ts ev cur st Q) :
    wpF P.bumpAny ⟨k :: ts, ev, cur, st⟩ Q ↔
      k ≠ .eof ∧ Q () ⟨ts, ev + 1, .tok k :: cur, st⟩ := by
  simp only [P.bumpAny, P.acceptAny, wpF_bind, wpF_current, wpF_ite, lookahead_cons, wpF_bumpExpect,
    wpF_pure, bne_iff_ne, Bool.false_eq_true, wpF_panic, List.tail_cons]
  grind

theorem wpF_mono {α} {p : Prog α} {s} {Q R : α → FState → Prop} (h : wpF p s Q)
    (hqr : ∀ a s, Q a s → R a s) : wpF p s R := by
  rw [wpF_iff] at h ⊢
  obtain ⟨a, s', h1, h2⟩ := h
  exact ⟨a, s', h1, hqr _ _ h2⟩

/-- No error among the items. -/
def clean (items : List Item) : Prop := errorsL (toTreeL items) = []

@[simp] theorem clean_append (a b) : clean (a ++ b) ↔ clean a ∧ clean b := by simp [clean]
@[simp] theorem clean_nil : clean [] := by simp [clean, toTreeL, errorsL]
@[simp] theorem clean_tok (k is) : clean (.tok k :: is) ↔ clean is := by
  simp [clean, toTreeL, errorsL, toTree, PTree.errors]
@[simp] theorem clean_err (k is) : ¬ clean (.err k :: is) := by
  simp [clean, toTreeL, errorsL, toTree, PTree.errors]
@[simp] theorem clean_errNode (c k is) : ¬ clean (.errNode c k :: is) := by
  simp [clean, toTreeL, errorsL, toTree, PTree.errors]
@[simp] theorem clean_node (p k bf af is) :
    clean (.node p k bf af :: is) ↔ clean bf ∧ clean af ∧ clean is := by
  simp [clean, toTreeL, errorsL, toTree, PTree.errors, and_assoc]

mutual
/-- Facts about every tree the parser builds, with or without errors: error nodes only wrap tokens, a
literal node is exactly one literal token, a name is one identifier, a use of a name is one identifier or (after a
syntax error) empty, leaves are never `Eof`. -/
def shaped : PTree → Prop
  | .tok k => k ≠ .eof
  | .err _ => True
  | .errNode cs _ => shapedToks cs
  | .node k cs => ((k = .literal → ∃ l ∈ Lua.literalKinds, cs = [.tok l]) ∧ (k = .name → cs = [.tok .ident]) ∧
      (k = .nameRef → cs = [.tok .ident] ∨ ∃ e, cs = [.err e])) ∧ shapedL cs
def shapedL : List PTree → Prop
  | [] => True
  | t :: ts => shaped t ∧ shapedL ts
def shapedToks : List PTree → Prop
  | [] => True
  | .tok k :: ts => k ≠ .eof ∧ shapedToks ts
  | _ => False
end

@[simp] theorem shapedL_append (a b) : shapedL (a ++ b) ↔ shapedL a ∧ shapedL b := by
  induction a with
  | nil => simp [shapedL]
  | cons x xs ih => simp [shapedL, ih, and_assoc]

/-- The items are well shaped. -/
def goodL (items : List Item) : Prop := shapedL (toTreeL items)

@[simp] theorem goodL_append (a b) : goodL (a ++ b) ↔ goodL a ∧ goodL b := by simp [goodL]
@[simp] theorem goodL_nil : goodL [] := by simp [goodL, toTreeL, shapedL]
@[simp] theorem goodL_tok (k is) : goodL (.tok k :: is) ↔ k ≠ .eof ∧ goodL is := by
  simp [goodL, toTreeL, shapedL, toTree, shaped]
@[simp] theorem goodL_err (k is) : goodL (.err k :: is) ↔ goodL is := by
  simp [goodL, toTreeL, shapedL, toTree, shaped]
@[simp] theorem goodL_node (p k bf af is) :
    goodL (.node p k bf af :: is) ↔
      ((k = .literal → ∃ l ∈ Lua.literalKinds, toTreeL bf ++ toTreeL af = [.tok l]) ∧
        (k = .name → toTreeL bf ++ toTreeL af = [.tok .ident]) ∧
        (k = .nameRef → toTreeL bf ++ toTreeL af = [.tok .ident] ∨ ∃ e, toTreeL bf ++ toTreeL af = [.err e])) ∧
      goodL bf ∧ goodL af ∧ goodL is := by
  simp [goodL, toTreeL, shapedL, toTree, shaped, and_assoc]

/-- Token kinds under the items. -/
def yld (items : List Item) : List SyntaxKind := yieldL (toTreeL items)

@[simp] theorem yld_append (a b) : yld (a ++ b) = yld a ++ yld b := by simp [yld]
@[simp] theorem yld_nil : yld [] = [] := by simp [yld, toTreeL, yieldL]
@[simp] theorem yld_tok (k is) : yld (.tok k :: is) = k :: yld is := by
  simp [yld, toTreeL, yieldL, toTree, PTree.yield]
@[simp] theorem yld_err (k is) : yld (.err k :: is) = yld is := by
  simp [yld, toTreeL, yieldL, toTree, PTree.yield]
@[simp] theorem yld_errNode (c k is) : yld (.errNode c k :: is) = yld c ++ yld is := by
  simp [yld, toTreeL, yieldL, toTree, PTree.yield]
@[simp] theorem yld_node (p k bf af is) :
    yld (.node p k bf af :: is) = yld bf ++ yld af ++ yld is := by
  simp [yld, toTreeL, yieldL, toTree, PTree.yield]

/-- no `Eof` among the tokens (the lexer never produces it) -/
def NE (toks : List SyntaxKind) : Prop := SyntaxKind.eof ∉ toks

@[simp] theorem NE_append (a b) : NE (a ++ b) ↔ NE a ∧ NE b := by simp [NE]
@[simp] theorem NE_cons (a b) : NE (a :: b) ↔ a ≠ .eof ∧ NE b := by
  simp [NE]; intro _; exact ⟨fun h => Ne.symm h, fun h => Ne.symm h⟩
@[simp] theorem NE_nil : NE [] := by simp [NE]

/-- What `Spec` says about the final state. -/
def Post (toks : List SyntaxKind) (cur : List Item) (st : List Frame)
    (P : List Item → List SyntaxKind → Prop) (s' : FState) : Prop :=
  ∃ items toks' ev', s' = ⟨toks', ev', items.reverse ++ cur, st⟩ ∧ toks = yld items ++ toks' ∧
    P items toks'

/-- Specification of a grammar function on the remaining tokens `toks`: it runs to completion, adds
`items` whose leaves are exactly the tokens it consumed, leaves everything else alone, and
`P result items remaining` holds. -/
def Spec {α : Type} (p : Prog α) (toks : List SyntaxKind)
    (P : α → List Item → List SyntaxKind → Prop) : Prop :=
  ∀ ev cur st, wpF p ⟨toks, ev, cur, st⟩ fun a s' => Post toks cur st (P a) s'

theorem Spec.use {α : Type} {p : Prog α} {toks P ev cur st} {Q : α → FState → Prop}
    (h : Spec p toks P)
    (hq : ∀ a items toks' ev', toks = yld items ++ toks' → (NE toks → NE toks') →
      toks'.length ≤ toks.length → P a items toks' →
      Q a ⟨toks', ev', items.reverse ++ cur, st⟩) : wpF p ⟨toks, ev, cur, st⟩ Q := by
  refine wpF_mono (h ev cur st) ?_
  rintro a s ⟨items, toks', ev', rfl, h1, h2⟩
  refine hq a items toks' ev' h1 ?_ ?_ h2
  · rw [h1]; simp
  · rw [h1]; simp

theorem Spec.done {toks : List SyntaxKind} {ev' : Nat} {cur all : List Item} {st : List Frame}
    {toks' : List SyntaxKind} {P : List Item → List SyntaxKind → Prop}
    (items : List Item) (h : all = items.reverse ++ cur) (hy : toks = yld items ++ toks')
    (hp : P items toks') : Post toks cur st P ⟨toks', ev', all, st⟩ :=
  ⟨items, toks', ev', by rw [h], hy, hp⟩

theorem Spec.mono {α : Type} {p : Prog α} {toks P R} (h : Spec p toks P)
    (hpr : ∀ a items toks', toks = yld items ++ toks' → P a items toks' → R a items toks') :
    Spec p toks R := by
  intro ev cur st
  refine wpF_mono (h ev cur st) ?_
  rintro a s ⟨items, toks', ev', h0, h1, h2⟩
  exact ⟨items, toks', ev', h0, h1, hpr _ _ _ h1 h2⟩

end Verif
