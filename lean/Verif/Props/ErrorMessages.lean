import Verif.Proof.HonestGrammar
import Verif.Props.Reparse

/-
C62: what the syntax errors say and where they are.
-/
namespace Verif
open Spec PTree Lexer Lua P Grammar

mutual
def PTree.marks : PTree → List Mark
  | .tok k => [.tok k]
  | .err e => [.err e]
  | .errNode cs e => .err e :: marksL cs
  | .node k cs => (if k = .error then [.bad] else []) ++ marksL cs
def PTree.marksL : List PTree → List Mark
  | [] => []
  | t :: ts => marks t ++ marksL ts
end

private theorem marksL_app (a b : List PTree) : marksL (a ++ b) = marksL a ++ marksL b := by
  induction a with
  | nil => simp [marksL]
  | cons x xs ih => simp [marksL, ih]

mutual
private theorem marks_toTree : ∀ (i : Item), marks (Item.toTree i) = i.marks
  | .tok k => rfl
  | .err e => rfl
  | .errNode cs e => by simp [Item.toTree, PTree.marks, Item.marks, marks_toTreeL cs]
  | .node p k bf af => by
    simp [Item.toTree, PTree.marks, Item.marks, marksL_app, marks_toTreeL bf, marks_toTreeL af]
private theorem marks_toTreeL : ∀ (is : List Item), marksL (Item.toTreeL is) = Item.marksL is
  | [] => rfl
  | i :: is => by simp [Item.toTreeL, PTree.marksL, Item.marksL, marks_toTree i, marks_toTreeL is]
end

/-- the tree of every token sequence only has true messages -/
theorem parseKinds_truth {ks : List SyntaxKind} (hne : NE ks) {ts : List PTree}
    (h : parseKinds ks = .ok (calls (.node .sourceFile [.node .block ts]))) (hy : yieldL ts = ks) :
    Truth ks (marksL ts) [] := by
  have hs := root_spec ks hne 0 [] []
  rw [wpF_iff] at hs
  obtain ⟨a, s', h1, items, toks', ev', rfl, h2, h3, ⟨p, q, af, rfl⟩, h4, h5⟩ := hs
  subst h3
  have hk : Inv ks _ := K.root (c := fun _ => True) ks _ _ _ (by simp [Inv, allMarks, stackMarks, Truth]) trivial h1
  obtain ⟨s2, h6, _, h7⟩ := run_process _ _ _ _ h1 rfl
  have hp : parseKinds ks = .ok (calls (.node .sourceFile [.node .block (Item.toTreeL af)])) := by
    simp only [parseKinds, h6]
    simpa [Item.toTreeL, Item.toTree, callsL] using h7
  have hyy : yieldL (Item.toTreeL af) = ks := by simp at h2; rw [h2]; rfl
  have e := parseKinds_ts h hy hp hyy
  rw [e, marks_toTreeL]
  simpa [Inv, allMarks, stackMarks, Item.marks] using hk

private theorem truth_rest {ks rest : List SyntaxKind} {ms : List Mark} (h : Truth ks ms rest) : rest <:+ ks := by
  induction ms generalizing ks with
  | nil => simp [Truth] at h; simp [h]
  | cons m ms ih =>
    cases m with
    | tok k => obtain ⟨ts, rfl, h⟩ := h; exact (ih h).trans (List.suffix_cons _ _)
    | err e => exact ih h.2
    | bad => exact h.elim

mutual
private theorem truth_yield : ∀ (t : PTree) {ks rest}, Truth ks (marks t) rest → ks = yield t ++ rest
  | .tok k, ks, rest, h => by obtain ⟨ts, rfl, h⟩ := h; simp [Truth] at h; simp [PTree.yield, h]
  | .err e, ks, rest, h => by simpa [PTree.marks, Truth, PTree.yield] using h.2
  | .errNode cs e, ks, rest, h => by simpa [PTree.yield] using truth_yieldL cs h.2
  | .node k cs, ks, rest, h => by
    simp only [PTree.marks] at h
    split at h
    · exact h.elim
    · simpa [PTree.yield] using truth_yieldL cs (by simpa using h)
private theorem truth_yieldL : ∀ (ts : List PTree) {ks rest}, Truth ks (marksL ts) rest → ks = yieldL ts ++ rest
  | [], ks, rest, h => by simpa [PTree.marksL, Truth, PTree.yieldL] using h
  | t :: ts, ks, rest, h => by
    obtain ⟨m, h1, h2⟩ := truth_append.1 h
    rw [truth_yield t h1, truth_yieldL ts h2]; simp [PTree.yieldL]
end

/-- an error is at a place where it is true -/
private def TrueAt (n : Nat) (todo : List Lx) (e : SyntaxError) : Prop :=
  ∃ a, a <:+ todo ∧ e.range.start = n - wlen a ∧ Says e.msg (lookahead (realKinds a) 0)

private theorem TrueAt.mono {n todo todo' e} (h : TrueAt n todo e) (hs : todo <:+ todo') : TrueAt n todo' e := by
  obtain ⟨a, h1, h2, h3⟩ := h
  exact ⟨a, h1.trans hs, h2, h3⟩

mutual
private theorem place_true (n : Nat) : ∀ (t : PTree) (todo : List Lx) {rest},
    Truth (realKinds todo) (marks t) rest → ∀ e ∈ (place n t todo).errs, TrueAt n todo e
  | .tok k, todo, rest, h => by
    simp only [place]
    cases afterTriv todo <;> simp
  | .err e, todo, rest, h => by
    intro x hx
    simp [place] at hx
    subst hx
    exact ⟨todo, List.suffix_refl _, rfl, h.1⟩
  | .errNode cs e, todo, rest, h => by
    intro x hx
    simp only [place, List.mem_append, List.mem_singleton] at hx
    rcases hx with hx | rfl
    · exact (placeL_true n cs (afterTriv todo) (by rw [realKinds_afterTriv]; exact h.2) x hx).mono (suffix_afterTriv _)
    · exact ⟨afterTriv todo, suffix_afterTriv _, rfl, by rw [realKinds_afterTriv]; exact h.1⟩
  | .node k cs, todo, rest, h => by
    intro x hx
    simp only [PTree.marks] at h
    split at h
    · exact h.elim
    · exact (placeL_true n cs (afterTriv todo) (by rw [realKinds_afterTriv]; exact h) x hx).mono (suffix_afterTriv _)
private theorem placeL_true (n : Nat) : ∀ (ts : List PTree) (todo : List Lx) {rest},
    Truth (realKinds todo) (marksL ts) rest → ∀ e ∈ (placeL n ts todo).errs, TrueAt n todo e
  | [], todo, rest, h => by simp [placeL]
  | t :: ts, todo, rest, h => by
    intro x hx
    obtain ⟨m, h1, h2⟩ := truth_append.1 h
    simp only [placeL, List.mem_append] at hx
    rcases hx with hx | hx
    · exact place_true n t todo h1 x hx
    · have := realKinds_suffix n (truth_yield t h1)
      exact (placeL_true n ts _ (by rw [this]; exact h2) x hx).mono (place_rest n t todo)
end

theorem nextKind_first {start : Nat} {a : List Lx} {pos : Nat} (h : pos ≤ start) :
    nextKind pos start (toksOf a) = lookahead (realKinds a) 0 := by
  induction a generalizing start with
  | nil => simp [toksOf, nextKind, realKinds]
  | cons l ls ih =>
    simp only [toksOf, List.map_cons, nextKind]
    by_cases ht : l.1.isTrivia = true
    · rw [if_neg (by simp [ht])]
      have : realKinds (l :: ls) = realKinds ls := by simp [realKinds, isTriv, ht]
      rw [this]; exact ih (by omega)
    · rw [if_pos ⟨h, by simpa using ht⟩]
      simp [realKinds, isTriv, ht]

theorem nextKind_skip {start : Nat} {pre a : List Lx} (hne : ∀ l ∈ pre, l.2 ≠ []) :
    nextKind (start + wlen pre) start (toksOf (pre ++ a)) = lookahead (realKinds a) 0 := by
  induction pre generalizing start with
  | nil => simpa using nextKind_first (Nat.le_refl _)
  | cons l ls ih =>
    have hl : 0 < l.2.len := Text.len_pos (hne l (by simp))
    simp only [List.cons_append, toksOf, List.map_cons, nextKind]
    rw [if_neg (by simp only [wlen_cons]; omega)]
    have := ih (start := start + l.2.len) fun x hx => hne x (by simp [hx])
    rw [wlen_cons, ← Nat.add_assoc]
    exact this

/-- **C62**: the errors of parsing a text are the syntax errors followed by those of the lexer, and every syntax error
says something true of the first token at or after the place where its range begins. -/
theorem C62_messages (text : Text) (tree : Green) (errors : List SyntaxError) (tokens : List Token)
    (lexErrors : List SyntaxError) (h : parseText text = .ok (tree, errors))
    (ht : tokenize text = .ok (tokens, lexErrors)) :
    ∃ syn, errors = syn ++ lexErrors ∧ ∀ e ∈ syn, Says e.msg (nextKind e.range.start 0 tokens) := by
  obtain ⟨ls, ts, h1, h2, h3, -, h5⟩ := parseText_main text
  rw [h] at h5
  simp only [Except.ok.injEq, Prod.mk.injEq] at h5
  obtain ⟨-, rfl⟩ := h5
  rw [tokenize_eq h1] at ht
  simp only [Except.ok.injEq, Prod.mk.injEq] at ht
  obtain ⟨rfl, rfl⟩ := ht
  obtain ⟨hw, htk, hne, heof⟩ := lexemes_lx h1
  refine ⟨_, rfl, ?_⟩
  have hne' : NE (realKinds (ls.map lxOf)) := by
    intro hm
    simp only [realKinds, List.mem_map] at hm
    obtain ⟨l, hl, e⟩ := hm
    exact heof l (by simpa using (List.mem_filter.mp hl).1) e
  have tr := parseKinds_truth hne' h2 h3
  intro e he
  obtain ⟨a, ⟨pre, hp⟩, e2, e3⟩ := placeL_true text.len ts (ls.map lxOf) tr e he
  have hlen : text.len = wlen (ls.map lxOf) := by rw [wlen, hw]
  have hst : e.range.start = 0 + wlen pre := by
    rw [e2, hlen, ← hp]; simp
  rw [← htk, ← hp, hst, nextKind_skip (fun l hl => hne l (by rw [← hp]; simp [hl]))]
  exact e3

end Verif

namespace Verif
open Spec PTree Lexer Lua P Grammar

theorem nodesL_app (off : Nat) (a b : List Green) :
    Green.nodesL off (a ++ b) = Green.nodesL off a ++ Green.nodesL (off + (Green.textL a).len) b := by
  induction a generalizing off with
  | nil => simp [Green.nodesL, Green.textL, Text.len]
  | cons x xs ih => simp [Green.nodesL, ih, Green.textL, Green.len, Nat.add_assoc]

theorem nodesL_leaf (off : Nat) (ls : List Lx) : Green.nodesL off (ls.map leaf) = [] := by
  induction ls generalizing off with
  | nil => rfl
  | cons l ls ih => simp only [List.map_cons, Green.nodesL, leaf, Green.nodes, List.nil_append]; exact ih _

theorem wlen_lead (ls : List Lx) : (Green.textL (lead ls)).len + wlen (afterTriv ls) = wlen ls := by
  have := congrArg Text.len (lead_text ls)
  simpa [wlen] using this

theorem wlen_place (n : Nat) (t : PTree) (todo : List Lx) :
    (Green.textL (place n t todo).greens).len + wlen (place n t todo).rest = wlen todo := by
  have := congrArg Text.len (place_text n t todo)
  simpa [wlen] using this

theorem wlen_placeL (n : Nat) (ts : List PTree) (todo : List Lx) :
    (Green.textL (placeL n ts todo).greens).len + wlen (placeL n ts todo).rest = wlen todo := by
  have := congrArg Text.len (placeL_text n ts todo)
  simpa [wlen] using this

/-- errors and error nodes correspond -/
private structure Corr (off : Nat) (greens : List Green) (errs : List SyntaxError) : Prop where
  node : ∀ e ∈ errs, e.range.start = e.range.stop ∨
    ∃ p ∈ Green.nodesL off greens, p.2.kind = .error ∧ e.range = p.2.range p.1
  err : ∀ p ∈ Green.nodesL off greens, p.2.kind = .error → ∃ e ∈ errs, e.range = p.2.range p.1

private theorem Corr.append {off g1 e1 g2 e2} (h1 : Corr off g1 e1) (h2 : Corr (off + (Green.textL g1).len) g2 e2) :
    Corr off (g1 ++ g2) (e1 ++ e2) := by
  constructor
  · intro e he
    rw [nodesL_app]
    rcases List.mem_append.1 he with he | he
    · rcases h1.node e he with h | ⟨p, hp, h⟩
      · exact .inl h
      · exact .inr ⟨p, List.mem_append_left _ hp, h⟩
    · rcases h2.node e he with h | ⟨p, hp, h⟩
      · exact .inl h
      · exact .inr ⟨p, List.mem_append_right _ hp, h⟩
  · intro p hp hk
    rw [nodesL_app] at hp
    rcases List.mem_append.1 hp with hp | hp
    · obtain ⟨e, he, h⟩ := h1.err p hp hk; exact ⟨e, List.mem_append_left _ he, h⟩
    · obtain ⟨e, he, h⟩ := h2.err p hp hk; exact ⟨e, List.mem_append_right _ he, h⟩

private theorem Corr.leaves (off : Nat) (ls : List Lx) : Corr off (ls.map leaf) [] :=
  ⟨by simp, by simp [nodesL_leaf]⟩

mutual
private theorem place_corr (n : Nat) : ∀ (t : PTree) (todo : List Lx) {ks rest}, wlen todo ≤ n →
    Truth ks (marks t) rest → Corr (n - wlen todo) (place n t todo).greens (place n t todo).errs
  | .tok k, todo, ks, rest, hn, h => by
    simp only [place]
    cases afterTriv todo with
    | nil => exact Corr.leaves _ _
    | cons l r =>
      have := Corr.leaves (n - wlen todo) (todo.takeWhile isTriv ++ [l])
      simpa [lead] using this
  | .err e, todo, ks, rest, hn, h => by
    simp only [place]
    refine ⟨fun x hx => ?_, by simp [Green.nodesL]⟩
    simp at hx; subst hx; exact .inl rfl
  | .errNode cs e, todo, ks, rest, hn, h => by
    have hw := wlen_lead todo
    have hp := wlen_placeL n cs (afterTriv todo)
    have ih := placeL_corr n cs (afterTriv todo) (by omega) h.2
    have h1 := (Corr.leaves (n - wlen todo) (todo.takeWhile isTriv)).append (g2 := [.node .error (placeL n cs (afterTriv todo)).greens])
      (e2 := (place n (.errNode cs e) todo).errs) ?_
    · simpa [place, lead] using h1
    · have hoff : n - wlen todo + (Green.textL (lead todo)).len = n - wlen (afterTriv todo) := by omega
      rw [show (todo.takeWhile isTriv).map leaf = lead todo from rfl, hoff]
      have hr : (⟨n - wlen (afterTriv todo), n - wlen (placeL n cs (afterTriv todo)).rest⟩ : Range) =
          (Green.node .error (placeL n cs (afterTriv todo)).greens).range (n - wlen (afterTriv todo)) := by
        simp only [Green.range, Range.ofLen, Green.len, Green.text, Range.mk.injEq, true_and]
        omega
      constructor
      · intro x hx
        simp only [place, List.mem_append, List.mem_singleton] at hx
        rcases hx with hx | rfl
        · rcases ih.node x hx with h | ⟨p, hp, h⟩
          · exact .inl h
          · exact .inr ⟨p, by simp [Green.nodesL, Green.nodes, hp], h⟩
        · refine .inr ⟨(n - wlen (afterTriv todo), .node .error (placeL n cs (afterTriv todo)).greens), ?_, rfl, hr⟩
          simp [Green.nodesL, Green.nodes]
      · intro p hp hk
        simp only [Green.nodesL, Green.nodes, List.append_nil, List.mem_cons] at hp
        rcases hp with rfl | hp
        · exact ⟨_, by simp only [place, List.mem_append, List.mem_singleton]; exact .inr rfl, hr⟩
        · obtain ⟨x, hx, h⟩ := ih.err p hp hk
          exact ⟨x, by simp only [place, List.mem_append]; exact .inl hx, h⟩
  | .node k cs, todo, ks, rest, hn, h => by
    have hw := wlen_lead todo
    have hp := wlen_placeL n cs (afterTriv todo)
    simp only [PTree.marks] at h
    split at h
    · exact h.elim
    rename_i hne
    have ih := placeL_corr n cs (afterTriv todo) (by omega) (by simpa using h)
    have h1 := (Corr.leaves (n - wlen todo) (todo.takeWhile isTriv)).append (g2 := [.node k (placeL n cs (afterTriv todo)).greens])
      (e2 := (placeL n cs (afterTriv todo)).errs) ?_
    · simpa [place, lead] using h1
    · have hoff : n - wlen todo + (Green.textL (lead todo)).len = n - wlen (afterTriv todo) := by omega
      rw [show (todo.takeWhile isTriv).map leaf = lead todo from rfl, hoff]
      constructor
      · intro x hx
        rcases ih.node x hx with h | ⟨p, hp, h⟩
        · exact .inl h
        · exact .inr ⟨p, by simp [Green.nodesL, Green.nodes, hp], h⟩
      · intro p hp hk
        simp only [Green.nodesL, Green.nodes, List.append_nil, List.mem_cons] at hp
        rcases hp with rfl | hp
        · exact absurd hk hne
        · exact ih.err p hp hk
private theorem placeL_corr (n : Nat) : ∀ (ts : List PTree) (todo : List Lx) {ks rest}, wlen todo ≤ n →
    Truth ks (marksL ts) rest → Corr (n - wlen todo) (placeL n ts todo).greens (placeL n ts todo).errs
  | [], todo, ks, rest, hn, h => by simpa [placeL] using Corr.leaves (n - wlen todo) []
  | t :: ts, todo, ks, rest, hn, h => by
    obtain ⟨m, h1, h2⟩ := truth_append.1 h
    have hw := wlen_place n t todo
    have a := place_corr n t todo hn h1
    have b := placeL_corr n ts (place n t todo).rest (by omega) h2
    rw [show n - wlen (place n t todo).rest = n - wlen todo + (Green.textL (place n t todo).greens).len by omega] at b
    exact a.append b
end

/-- the errors lie between two places, in order -/
private def Ordered (lo hi : Nat) (es : List SyntaxError) : Prop :=
  lo ≤ hi ∧ es.Pairwise (fun a b => a.range.stop ≤ b.range.start) ∧
    ∀ e ∈ es, lo ≤ e.range.start ∧ e.range.start ≤ e.range.stop ∧ e.range.stop ≤ hi

private theorem Ordered.append {a b c : Nat} {e1 e2} (h1 : Ordered a b e1) (h2 : Ordered b c e2) :
    Ordered a c (e1 ++ e2) := by
  obtain ⟨p1, p2, p3⟩ := h1
  obtain ⟨q1, q2, q3⟩ := h2
  refine ⟨by omega, List.pairwise_append.2 ⟨p2, q2, ?_⟩, ?_⟩
  · intro x hx y hy; have := p3 x hx; have := q3 y hy; omega
  · intro e he
    rcases List.mem_append.1 he with he | he
    · have := p3 e he; omega
    · have := q3 e he; omega

private theorem Ordered.widen {a b a' b' : Nat} {e} (h : Ordered a b e) (h1 : a' ≤ a) (h2 : b ≤ b') : Ordered a' b' e := by
  obtain ⟨p1, p2, p3⟩ := h
  exact ⟨by omega, p2, fun e he => by have := p3 e he; omega⟩

private theorem toks_errs (n : Nat) : ∀ (ts : List PTree) (todo : List Lx), shapedToks ts → (placeL n ts todo).errs = []
  | [], todo, h => by simp [placeL]
  | .tok k :: ts, todo, h => by
    simp only [placeL, toks_errs n ts _ h.2, List.append_nil, place]
    cases afterTriv todo <;> rfl
  | .err _ :: _, _, h => h.elim
  | .errNode _ _ :: _, _, h => h.elim
  | .node _ _ :: _, _, h => h.elim

mutual
private theorem place_order (n : Nat) : ∀ (t : PTree) (todo : List Lx), shaped t →
    Ordered (n - wlen todo) (n - wlen (place n t todo).rest) (place n t todo).errs
  | .tok k, todo, h => by
    have hw := wlen_place n (.tok k) todo
    have : (place n (.tok k) todo).errs = [] := by
      simp only [place]; cases afterTriv todo <;> rfl
    rw [this]
    exact ⟨by omega, .nil, by simp⟩
  | .err e, todo, h => by
    refine ⟨by simp [place], by simp [place], ?_⟩
    intro x hx; simp [place] at hx; subst hx; simp [Range.empty, place]
  | .errNode cs e, todo, h => by
    have hw := wlen_lead todo
    have hp := wlen_placeL n cs (afterTriv todo)
    have : (placeL n cs (afterTriv todo)).errs = [] := toks_errs n cs _ h
    simp only [place, this, List.nil_append]
    refine ⟨by omega, by simp, ?_⟩
    intro x hx; simp at hx; subst hx
    simp only; omega
  | .node k cs, todo, h => by
    have hw := wlen_lead todo
    exact (placeL_order n cs (afterTriv todo) h.2).widen (by omega) (Nat.le_refl _)
private theorem placeL_order (n : Nat) : ∀ (ts : List PTree) (todo : List Lx), shapedL ts →
    Ordered (n - wlen todo) (n - wlen (placeL n ts todo).rest) (placeL n ts todo).errs
  | [], todo, h => by simp [placeL, Ordered]
  | t :: ts, todo, h => (place_order n t todo h.1).append (placeL_order n ts _ h.2)
end

/-- **C62**: the syntax errors come in the order of the text and do not overlap, each is at a point or covers a node of
kind `Error`, and each node of kind `Error` is reported. -/
theorem C62_places (text : Text) (tree : Green) (errors : List SyntaxError) (tokens : List Token)
    (lexErrors : List SyntaxError) (h : parseText text = .ok (tree, errors))
    (ht : tokenize text = .ok (tokens, lexErrors)) :
    ∃ syn, errors = syn ++ lexErrors ∧ syn.Pairwise (fun a b => a.range.stop ≤ b.range.start) ∧
      (∀ e ∈ syn, e.range.start = e.range.stop ∨
        ∃ p ∈ tree.nodes 0, p.2.kind = .error ∧ e.range = p.2.range p.1) ∧
      (∀ p ∈ tree.nodes 0, p.2.kind = .error → ∃ e ∈ syn, e.range = p.2.range p.1) := by
  obtain ⟨ls, ts, h1, h2, h3, ⟨h4, -⟩, h5⟩ := parseText_main text
  rw [h] at h5
  simp only [Except.ok.injEq, Prod.mk.injEq] at h5
  obtain ⟨rfl, rfl⟩ := h5
  rw [tokenize_eq h1] at ht
  simp only [Except.ok.injEq, Prod.mk.injEq] at ht
  obtain ⟨rfl, rfl⟩ := ht
  obtain ⟨hw, htk, hne, heof⟩ := lexemes_lx h1
  refine ⟨_, rfl, (placeL_order _ _ _ h4).2.1, ?_⟩
  have hne' : NE (realKinds (ls.map lxOf)) := by
    intro hm
    simp only [realKinds, List.mem_map] at hm
    obtain ⟨l, hl, e⟩ := hm
    exact heof l (by simpa using (List.mem_filter.mp hl).1) e
  have tr := parseKinds_truth hne' h2 h3
  have hlen : text.len = wlen (ls.map lxOf) := by rw [wlen, hw]
  have c := (placeL_corr text.len ts (ls.map lxOf) (by omega) tr).append
    (Corr.leaves _ (placeL text.len ts (ls.map lxOf)).rest)
  rw [show text.len - wlen (ls.map lxOf) = 0 by omega, List.append_nil] at c
  have hn : ∀ g : List Green, Green.nodes 0 (.node .sourceFile [.node .block g]) =
      (0, .node .sourceFile [.node .block g]) :: (0, .node .block g) :: Green.nodesL 0 g := by
    intro g; simp [Green.nodes, Green.nodesL]
  rw [hn]
  constructor
  · intro e he
    rcases c.node e he with h | ⟨p, hp, h⟩
    · exact .inl h
    · exact .inr ⟨p, by simp [hp], h⟩
  · intro p hp hk
    simp only [List.mem_cons] at hp
    rcases hp with rfl | rfl | hp
    · simp [Green.kind] at hk
    · simp [Green.kind] at hk
    · exact c.err p hp hk

/-- **C62** for `SourceFile::parse`: it reports the errors of parsing the text, and then those of validation. -/
theorem C62_source_file (text : Text) (tree : Green) (errors : List SyntaxError)
    (h : sourceFileParse text = .ok (tree, errors)) :
    ∃ syn lexErrors more tokens, errors = syn ++ lexErrors ++ more ∧ tokenize text = .ok (tokens, lexErrors) ∧
      parseText text = .ok (tree, syn ++ lexErrors) ∧
      (∀ e ∈ syn, Says e.msg (nextKind e.range.start 0 tokens)) ∧
      (∀ e ∈ more, ∃ p ∈ tree.nodes 0, ∃ es, Validation.validateNode p.1 p.2 = .ok es ∧ e ∈ es) := by
  obtain ⟨tree', errs, more, h1, h2, h3, -⟩ := sourceFileParse_eq text
  rw [h] at h2
  simp only [Except.ok.injEq, Prod.mk.injEq] at h2
  obtain ⟨rfl, rfl⟩ := h2
  obtain ⟨ls, hl⟩ := lexemes_exists text
  obtain ⟨syn, rfl, h4⟩ := C62_messages text tree errs _ _ h1 (tokenize_eq hl)
  exact ⟨syn, _, more, _, rfl, tokenize_eq hl, h1, h4, h3⟩

/-- The theorems have content: a text with five errors, three of them with an `Error` node around a token. -/
private def messy : Text := "local = 1\nend f(".toList

private def messyTree : Green :=
  .node .sourceFile [.node .block [.node .localAssignStmt [.token .localKw "local".toList,
  .token .whitespace " ".toList, .node .multiName [.node .error [.token .eq "=".toList]]],
  .token .whitespace " ".toList, .node .error [.token .number "1".toList], .token .whitespace "\n".toList,
  .node .error [.token .endKw "end".toList], .token .whitespace " ".toList,
  .node .exprStmt [.node .multivalExpr [.node .callExpr [.node .nameRef [.token .ident "f".toList],
  .node .callArgs [.node .argList [.token .lParen "(".toList, .node .multivalExpr [.node .error []]]]]]]]]

private def messyErrors : List SyntaxError :=
  [⟨"expected a name", ⟨6, 7⟩⟩, ⟨"A literal cannot be the start of a statement", ⟨8, 9⟩⟩,
    ⟨"Unmatched end token", ⟨10, 13⟩⟩, ⟨"Expected an expression", ⟨16, 16⟩⟩, ⟨"Expected RParen, got Eof", ⟨16, 16⟩⟩]

private theorem messy_parse : parseText messy = .ok (messyTree, messyErrors) := by
  rw [parseText_eq_eval]
  decide +kernel

example : ∃ tokens, tokenize messy = .ok (tokens, []) ∧ (∀ e ∈ messyErrors, Says e.msg (nextKind e.range.start 0 tokens)) ∧
    messyErrors.map (fun e => nextKind e.range.start 0 tokens) = [.eq, .number, .endKw, .eof, .eof] := by
  obtain ⟨ls, hl⟩ := lexemes_exists messy
  have ht : tokenize messy = .ok ([⟨.localKw, 5⟩, ⟨.whitespace, 1⟩, ⟨.eq, 1⟩, ⟨.whitespace, 1⟩, ⟨.number, 1⟩,
      ⟨.whitespace, 1⟩, ⟨.endKw, 3⟩, ⟨.whitespace, 1⟩, ⟨.ident, 1⟩, ⟨.lParen, 1⟩], []) := by rfl
  obtain ⟨syn, h1, h2⟩ := C62_messages _ _ _ _ _ messy_parse ht
  rw [List.append_nil] at h1
  subst h1
  exact ⟨_, ht, h2, by decide⟩

/-- A message is not true of every token. -/
example : Says "Expected RParen, got Eof" .eof ∧ ¬ Says "Expected an expression" .ident := by
  refine ⟨.inl ⟨.rParen, by decide, by decide⟩, ?_⟩
  rintro (⟨e, h, -⟩ | ⟨h, -⟩ | ⟨-, h⟩ | ⟨h, -⟩ | ⟨h, -⟩ | ⟨h, -⟩ | ⟨h, -⟩ | ⟨h, -⟩ | ⟨h, -⟩ | ⟨h, -⟩)
  · revert h; cases e <;> decide
  · revert h; decide
  · exact h (by decide)
  all_goals revert h; decide

end Verif
