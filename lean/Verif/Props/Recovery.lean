import Verif.Proof.RecoveryGrammar
import Verif.Props.ErrorMessages

/-
C100: error recovery, what is skipped and in which construct.
-/
namespace Verif
open Spec PTree Lexer Lua P Grammar

/-! ### trees -/

mutual
private def fitsT (k : SyntaxKind) : PTree → List SyntaxKind → List SyntaxKind → Prop
  | .tok x, toks, rest => toks = x :: rest
  | .err e, toks, rest => Stays k e.display (lookahead toks 0) ∧ toks = rest
  | .errNode cs e, toks, rest =>
    ∃ ks, cs = ks.map PTree.tok ∧ toks = ks ++ rest ∧ Skips k e.display ks (lookahead rest 0)
  | .node k' cs, toks, rest => k' ≠ .error ∧ fitsTL k' cs toks rest
private def fitsTL (k : SyntaxKind) : List PTree → List SyntaxKind → List SyntaxKind → Prop
  | [], toks, rest => toks = rest
  | t :: ts, toks, rest => ∃ mid, fitsT k t toks mid ∧ fitsTL k ts mid rest
end

private theorem fitsTL_append {k : SyntaxKind} {a b : List PTree} {toks rest : List SyntaxKind} :
    fitsTL k (a ++ b) toks rest ↔ ∃ mid, fitsTL k a toks mid ∧ fitsTL k b mid rest := by
  induction a generalizing toks with
  | nil => simp [fitsTL]
  | cons x xs ih =>
    simp only [List.cons_append, fitsTL, ih]
    constructor
    · rintro ⟨m, h1, m2, h2, h3⟩; exact ⟨m2, ⟨m, h1, h2⟩, h3⟩
    · rintro ⟨m2, ⟨m, h1, h2⟩, h3⟩; exact ⟨m, h1, m2, h2, h3⟩

private theorem toTreeL_toks (ks : List SyntaxKind) : Item.toTreeL (ks.map Item.tok) = ks.map PTree.tok := by
  induction ks with
  | nil => rfl
  | cons k ks ih => simp [Item.toTreeL, Item.toTree, ih]

mutual
private theorem fitsT_of : ∀ (i : Item) {k toks rest}, fits k i toks rest → fitsT k (Item.toTree i) toks rest
  | .tok _, _, _, _, h => h
  | .err _, _, _, _, h => h
  | .errNode cs e, _, _, _, h => by
    obtain ⟨ks, rfl, h2, h3⟩ := h
    exact ⟨ks, toTreeL_toks ks, h2, h3⟩
  | .node p k' bf af, _, _, _, h => by
    obtain ⟨h1, m, h2, h3⟩ := h
    exact ⟨h1, fitsTL_append.2 ⟨m, fitsTL_of bf h2, fitsTL_of af h3⟩⟩
private theorem fitsTL_of : ∀ (is : List Item) {k toks rest}, fitsL k is toks rest → fitsTL k (Item.toTreeL is) toks rest
  | [], _, _, _, h => h
  | i :: is, _, _, _, h => by
    obtain ⟨m, h1, h2⟩ := h
    exact ⟨m, fitsT_of i h1, fitsTL_of is h2⟩
end

private theorem parseKinds_fits {ks : List SyntaxKind} (hne : NE ks) {ts : List PTree}
    (h : parseKinds ks = .ok (calls (.node .sourceFile [.node .block ts]))) (hy : yieldL ts = ks) :
    fitsTL .block ts ks [] := by
  have hs := root_spec ks hne 0 [] []
  rw [wpF_iff] at hs
  obtain ⟨a, s', h1, items, toks', ev', rfl, h2, h3, ⟨p, q, af, rfl⟩, h4, h5⟩ := hs
  subst h3
  have hi : Fit ks [.block] ⟨ks, 0, [], []⟩ := ⟨ks, rfl, rfl⟩
  have hk := (R.root (k := .block) (σ := []) (c := any) ks _ _ _ hi trivial h1).1
  obtain ⟨s2, h6, _, h7⟩ := run_process _ _ _ _ h1 rfl
  have hp : parseKinds ks = .ok (calls (.node .sourceFile [.node .block (Item.toTreeL af)])) := by
    simp only [parseKinds, h6]
    simpa [Item.toTreeL, Item.toTree, callsL] using h7
  have hyy : yieldL (Item.toTreeL af) = ks := by simp at h2; rw [h2]; rfl
  have e := parseKinds_ts h hy hp hyy
  rw [e]
  obtain ⟨m, rfl, h8⟩ := hk
  simp [fitsL, fits] at h8
  exact fitsTL_of af h8

private theorem yieldL_toks (ks : List SyntaxKind) : yieldL (ks.map PTree.tok) = ks := by
  induction ks with
  | nil => rfl
  | cons k ks ih => simp [PTree.yieldL, PTree.yield, ih]

mutual
private theorem fits_yield : ∀ (t : PTree) {k ks rest}, fitsT k t ks rest → ks = yield t ++ rest
  | .tok k, _, ks, rest, h => by simp only [fitsT] at h; simpa [PTree.yield] using h
  | .err e, _, ks, rest, h => by simpa [PTree.yield] using h.2
  | .errNode cs e, _, ks, rest, h => by
    obtain ⟨xs, rfl, h2, -⟩ := h
    simpa [PTree.yield, yieldL_toks] using h2
  | .node k cs, _, ks, rest, h => by simpa [PTree.yield] using fits_yieldL cs h.2
private theorem fits_yieldL : ∀ (ts : List PTree) {k ks rest}, fitsTL k ts ks rest → ks = yieldL ts ++ rest
  | [], _, ks, rest, h => by simpa [fitsTL, PTree.yieldL] using h
  | t :: ts, _, ks, rest, h => by
    obtain ⟨m, h1, h2⟩ := h
    rw [fits_yield t h1, fits_yieldL ts h2]; simp [PTree.yieldL]
end

/-! ### places -/

private theorem withOffsets_app (off : Nat) (a b : List Green) : Green.withOffsets off (a ++ b) =
    Green.withOffsets off a ++ Green.withOffsets (off + (Green.textL a).len) b := by
  induction a generalizing off with
  | nil => simp [Green.withOffsets, Green.textL, Text.len]
  | cons x xs ih => simp [Green.withOffsets, ih, Green.textL, Green.len, Nat.add_assoc]

private theorem withOffsets_leaf {off : Nat} {ls : List Lx} {c : Nat × Green} (h : c ∈ Green.withOffsets off (ls.map leaf)) :
    c.2.isNode = false := by
  induction ls generalizing off with
  | nil => simp [Green.withOffsets] at h
  | cons l ls ih =>
    simp only [List.map_cons, Green.withOffsets, List.mem_cons] at h
    rcases h with rfl | h
    · rfl
    · exact ih h

/-- an error that covers an error node, a child of a node of the kind `k` -/
private def SkipAt (n : Nat) (todo : List Lx) (k : SyntaxKind) (c : Nat × Green) (e : SyntaxError) : Prop :=
  c.2.isNode = true ∧ c.2.kind = .error ∧ c.2.range c.1 = e.range ∧ ∃ a, a <:+ todo ∧ e.range.stop = n - wlen a ∧
    Skips k e.msg (realTokens c.2) (lookahead (realKinds a) 0)

/-- an error at a point of a node of the kind `k` -/
private def StayAt (n : Nat) (todo : List Lx) (k : SyntaxKind) (off : Nat) (gs : List Green) (e : SyntaxError) : Prop :=
  ∃ a, a <:+ todo ∧ e.range = Range.empty (n - wlen a) ∧ off ≤ n - wlen a ∧ n - wlen a ≤ off + (Green.textL gs).len ∧
    Stays k e.msg (lookahead (realKinds a) 0)

private def Direct (n : Nat) (todo : List Lx) (k : SyntaxKind) (off : Nat) (gs : List Green) (e : SyntaxError) : Prop :=
  StayAt n todo k off gs e ∨ ∃ c ∈ Green.withOffsets off gs, SkipAt n todo k c e

/-- errors and error nodes in a piece of a node of the kind `k` -/
private structure RecAt (n : Nat) (todo : List Lx) (k : SyntaxKind) (off : Nat) (gs : List Green)
    (errs : List SyntaxError) : Prop where
  fwd : ∀ e ∈ errs, Direct n todo k off gs e ∨ ∃ p ∈ Green.nodesL off gs, Direct n todo p.2.kind p.1 p.2.children e
  bwd : ∀ c ∈ Green.withOffsets off gs, c.2.isNode = true → c.2.kind = .error → ∃ e ∈ errs, SkipAt n todo k c e
  inner : ∀ p ∈ Green.nodesL off gs, ∀ c ∈ Green.withOffsets p.1 p.2.children, c.2.isNode = true → c.2.kind = .error →
    ∃ e ∈ errs, SkipAt n todo p.2.kind c e

private theorem SkipAt.mono {n todo todo' k c e} (h : SkipAt n todo k c e) (hs : todo <:+ todo') : SkipAt n todo' k c e := by
  obtain ⟨h1, h2, h3, a, h4, h5⟩ := h
  exact ⟨h1, h2, h3, a, h4.trans hs, h5⟩

private theorem Direct.mono {n todo todo' k off gs e} (h : Direct n todo k off gs e) (hs : todo <:+ todo') :
    Direct n todo' k off gs e := by
  rcases h with ⟨a, h1, h2⟩ | ⟨c, hc, h⟩
  · exact .inl ⟨a, h1.trans hs, h2⟩
  · exact .inr ⟨c, hc, h.mono hs⟩

private theorem RecAt.mono {n todo todo' k off gs es} (h : RecAt n todo k off gs es) (hs : todo <:+ todo') :
    RecAt n todo' k off gs es := by
  constructor
  · intro e he
    rcases h.fwd e he with h | ⟨p, hp, h⟩
    · exact .inl (h.mono hs)
    · exact .inr ⟨p, hp, h.mono hs⟩
  · intro c hc h1 h2
    obtain ⟨e, he, h⟩ := h.bwd c hc h1 h2
    exact ⟨e, he, h.mono hs⟩
  · intro p hp c hc h1 h2
    obtain ⟨e, he, h⟩ := h.inner p hp c hc h1 h2
    exact ⟨e, he, h.mono hs⟩

private theorem RecAt.append {n todo k off g1 e1 g2 e2} (h1 : RecAt n todo k off g1 e1)
    (h2 : RecAt n todo k (off + (Green.textL g1).len) g2 e2) : RecAt n todo k off (g1 ++ g2) (e1 ++ e2) := by
  constructor
  · intro e he
    rw [nodesL_app]
    rcases List.mem_append.1 he with he | he
    · rcases h1.fwd e he with (⟨a, q1, q2, q3, q4, q5⟩ | ⟨c, hc, h⟩) | ⟨p, hp, h⟩
      · exact .inl (.inl ⟨a, q1, q2, q3, by simp only [textL_append, Text.len_append]; omega, q5⟩)
      · exact .inl (.inr ⟨c, by rw [withOffsets_app]; exact List.mem_append_left _ hc, h⟩)
      · exact .inr ⟨p, List.mem_append_left _ hp, h⟩
    · rcases h2.fwd e he with (⟨a, q1, q2, q3, q4, q5⟩ | ⟨c, hc, h⟩) | ⟨p, hp, h⟩
      · exact .inl (.inl ⟨a, q1, q2, by omega, by simp only [textL_append, Text.len_append]; omega, q5⟩)
      · exact .inl (.inr ⟨c, by rw [withOffsets_app]; exact List.mem_append_right _ hc, h⟩)
      · exact .inr ⟨p, List.mem_append_right _ hp, h⟩
  · intro c hc q1 q2
    rw [withOffsets_app] at hc
    rcases List.mem_append.1 hc with hc | hc
    · obtain ⟨e, he, h⟩ := h1.bwd c hc q1 q2; exact ⟨e, List.mem_append_left _ he, h⟩
    · obtain ⟨e, he, h⟩ := h2.bwd c hc q1 q2; exact ⟨e, List.mem_append_right _ he, h⟩
  · intro p hp c hc q1 q2
    rw [nodesL_app] at hp
    rcases List.mem_append.1 hp with hp | hp
    · obtain ⟨e, he, h⟩ := h1.inner p hp c hc q1 q2; exact ⟨e, List.mem_append_left _ he, h⟩
    · obtain ⟨e, he, h⟩ := h2.inner p hp c hc q1 q2; exact ⟨e, List.mem_append_right _ he, h⟩

private theorem RecAt.leaves (n todo k off) (ls : List Lx) : RecAt n todo k off (ls.map leaf) [] := by
  refine ⟨by simp, ?_, by simp [nodesL_leaf]⟩
  intro c hc h
  rw [withOffsets_leaf hc] at h
  simp at h

private theorem toks_placed (n : Nat) : ∀ (ks : List SyntaxKind) (todo : List Lx),
    (placeL n (ks.map PTree.tok) todo).errs = [] ∧ ∃ ls : List Lx, (placeL n (ks.map PTree.tok) todo).greens = ls.map leaf
  | [], todo => ⟨rfl, [], rfl⟩
  | k :: ks, todo => by
    obtain ⟨h1, ls, h2⟩ := toks_placed n ks (place n (.tok k) todo).rest
    have h3 : (place n (.tok k) todo).errs = [] ∧ ∃ ls : List Lx, (place n (.tok k) todo).greens = ls.map leaf := by
      simp only [place]
      cases afterTriv todo with
      | nil => exact ⟨rfl, _, rfl⟩
      | cons l r => exact ⟨rfl, todo.takeWhile isTriv ++ [l], by simp [lead]⟩
    obtain ⟨h3, ls', h4⟩ := h3
    exact ⟨by simp [placeL, h1, h3], ls' ++ ls, by simp [placeL, h2, h4]⟩

private theorem realTokens_node {gs : List Green} : realTokens (.node .error gs) = realKinds (Green.leavesL gs) := by
  simp only [realTokens, realKinds, Green.leaves]
  rw [List.filter_map]
  rfl

private theorem realKinds_app (a b : List Lx) : realKinds (a ++ b) = realKinds a ++ realKinds b := by simp [realKinds]

mutual
private theorem place_rec (n : Nat) : ∀ (t : PTree) (todo : List Lx) {k rest}, wlen todo ≤ n →
    fitsT k t (realKinds todo) rest → RecAt n todo k (n - wlen todo) (place n t todo).greens (place n t todo).errs
  | .tok x, todo, k, rest, hn, h => by
    simp only [place]
    cases afterTriv todo with
    | nil => exact RecAt.leaves _ _ _ _ _
    | cons l r =>
      have := RecAt.leaves n todo k (n - wlen todo) (todo.takeWhile isTriv ++ [l])
      simpa [lead] using this
  | .err e, todo, k, rest, hn, h => by
    simp only [place]
    refine ⟨?_, by simp [Green.withOffsets], by simp [Green.nodesL]⟩
    intro x hx
    simp at hx
    subst hx
    exact .inl (.inl ⟨todo, List.suffix_refl _, rfl, Nat.le_refl _, by simp, h.1⟩)
  | .errNode cs e, todo, k, rest, hn, h => by
    have hw := wlen_lead todo
    have hp := wlen_placeL n cs (afterTriv todo)
    have hl := placeL_leaves n cs (afterTriv todo)
    have hy := fits_yield _ h
    obtain ⟨ks, rfl, h1, h2⟩ := h
    obtain ⟨herr, ls, hgr⟩ := toks_placed n ks (afterTriv todo)
    have hrest : realKinds (placeL n (ks.map PTree.tok) (afterTriv todo)).rest = rest :=
      realKinds_suffix (t := .errNode (ks.map PTree.tok) e) n hy
    have hks : realTokens (.node .error (placeL n (ks.map PTree.tok) (afterTriv todo)).greens) = ks := by
      rw [realTokens_node]
      have : realKinds (Green.leavesL (placeL n (ks.map PTree.tok) (afterTriv todo)).greens) ++
          realKinds (placeL n (ks.map PTree.tok) (afterTriv todo)).rest = ks ++ rest := by
        rw [← realKinds_app, hl, realKinds_afterTriv, h1]
      rw [hrest] at this
      exact List.append_cancel_right this
    have hsk : SkipAt n todo k (n - wlen (afterTriv todo),
        .node .error (placeL n (ks.map PTree.tok) (afterTriv todo)).greens)
        ⟨e.display, ⟨n - wlen (afterTriv todo), n - wlen (placeL n (ks.map PTree.tok) (afterTriv todo)).rest⟩⟩ := by
      refine ⟨rfl, rfl, ?_, (placeL n (ks.map PTree.tok) (afterTriv todo)).rest,
        (placeL_rest _ _ _).trans (suffix_afterTriv _), rfl, ?_⟩
      · simp only [Green.range, Range.ofLen, Green.len, Green.text, Range.mk.injEq, true_and]
        omega
      · rw [hks, hrest]; exact h2
    have hoff : n - wlen todo + (Green.textL (lead todo)).len = n - wlen (afterTriv todo) := by omega
    have h1 := (RecAt.leaves n todo k (n - wlen todo) (todo.takeWhile isTriv)).append
      (g2 := [.node .error (placeL n (ks.map PTree.tok) (afterTriv todo)).greens])
      (e2 := (place n (.errNode (ks.map PTree.tok) e) todo).errs) ?_
    · simpa [place, lead] using h1
    · rw [show (todo.takeWhile isTriv).map leaf = lead todo from rfl, hoff]
      simp only [place, herr, List.nil_append]
      constructor
      · intro x hx
        simp only [List.mem_singleton] at hx
        subst hx
        exact .inl (.inr ⟨_, by simp [Green.withOffsets], hsk⟩)
      · intro c hc _ _
        simp only [Green.withOffsets, List.mem_singleton] at hc
        subst hc
        exact ⟨_, by simp, hsk⟩
      · intro p hp c hc h3 _
        simp only [Green.nodesL, Green.nodes, hgr, nodesL_leaf, List.append_nil, List.mem_singleton] at hp
        subst hp
        rw [withOffsets_leaf hc] at h3
        simp at h3
  | .node k' cs, todo, k, rest, hn, h => by
    have hw := wlen_lead todo
    have hp := wlen_placeL n cs (afterTriv todo)
    have ih := (placeL_rec n cs (afterTriv todo) (by omega) (by rw [realKinds_afterTriv]; exact h.2)).mono (suffix_afterTriv todo)
    have hoff : n - wlen todo + (Green.textL (lead todo)).len = n - wlen (afterTriv todo) := by omega
    have h1 := (RecAt.leaves n todo k (n - wlen todo) (todo.takeWhile isTriv)).append
      (g2 := [.node k' (placeL n cs (afterTriv todo)).greens]) (e2 := (placeL n cs (afterTriv todo)).errs) ?_
    · simpa [place, lead] using h1
    · rw [show (todo.takeWhile isTriv).map leaf = lead todo from rfl, hoff]
      constructor
      · intro x hx
        rcases ih.fwd x hx with hd | ⟨p, hp, hd⟩
        · exact .inr ⟨(n - wlen (afterTriv todo), .node k' (placeL n cs (afterTriv todo)).greens),
            by simp [Green.nodesL, Green.nodes], hd⟩
        · exact .inr ⟨p, by simp [Green.nodesL, Green.nodes, hp], hd⟩
      · intro c hc _ h3
        simp only [Green.withOffsets, List.mem_singleton] at hc
        subst hc
        exact absurd h3 h.1
      · intro p hp c hc h3 h4
        simp only [Green.nodesL, Green.nodes, List.append_nil, List.mem_cons] at hp
        rcases hp with rfl | hp
        · exact ih.bwd c hc h3 h4
        · exact ih.inner p hp c hc h3 h4
private theorem placeL_rec (n : Nat) : ∀ (ts : List PTree) (todo : List Lx) {k rest}, wlen todo ≤ n →
    fitsTL k ts (realKinds todo) rest → RecAt n todo k (n - wlen todo) (placeL n ts todo).greens (placeL n ts todo).errs
  | [], todo, k, rest, hn, h => by simpa [placeL] using RecAt.leaves n todo k (n - wlen todo) []
  | t :: ts, todo, k, rest, hn, h => by
    obtain ⟨m, h1, h2⟩ := h
    have hw := wlen_place n t todo
    have a := place_rec n t todo hn h1
    have b := (placeL_rec n ts (place n t todo).rest (by omega)
      (by rw [realKinds_suffix n (fits_yield t h1)]; exact h2)).mono (place_rest n t todo)
    rw [show n - wlen (place n t todo).rest = n - wlen todo + (Green.textL (place n t todo).greens).len by omega] at b
    exact a.append b
end

/-! ### from offsets to nodes -/

private theorem elems_offsets (path : List Nat) : ∀ (gs : List Green) (i off : Nat) (c : Nat × Green),
    c ∈ Green.withOffsets off gs ↔ ∃ r ∈ Red.elemsFrom path i off gs, (r.off, r.green) = c
  | [], i, off, c => by simp [Green.withOffsets, Red.elemsFrom]
  | g :: gs, i, off, c => by
    simp only [Green.withOffsets, Red.elemsFrom, List.mem_cons, elems_offsets path gs (i + 1) (off + g.len) c,
      exists_eq_or_imp]
    constructor
    · rintro (h | h)
      · exact .inl h.symm
      · exact .inr h
    · rintro (h | h)
      · exact .inl h.symm
      · exact .inr h

private theorem child_offsets (r : Red) (c : Nat × Green) : (c ∈ Green.withOffsets r.off r.green.children ∧ c.2.isNode = true) ↔
    ∃ n ∈ r.children, (n.off, n.green) = c := by
  rw [elems_offsets r.path r.green.children 0 r.off c]
  constructor
  · rintro ⟨⟨n, hn, rfl⟩, h⟩
    exact ⟨n, List.mem_filter.2 ⟨hn, h⟩, rfl⟩
  · rintro ⟨n, hn, rfl⟩
    exact ⟨⟨n, (List.mem_filter.1 hn).1, rfl⟩, (List.mem_filter.1 hn).2⟩

mutual
private theorem nodes_child : ∀ (g : Green) (off : Nat) (p : Nat × Green), p ∈ g.nodes off →
    p = (off, g) ∨ ∃ c ∈ Green.withOffsets off g.children, c.2.isNode = true ∧ p ∈ c.2.nodes c.1
  | .token k t, off, p, h => by simp [Green.nodes] at h
  | .node k cs, off, p, h => by
    simp only [Green.nodes, List.mem_cons] at h
    rcases h with h | h
    · exact .inl h
    · exact .inr (nodesL_child cs off p h)
private theorem nodesL_child : ∀ (cs : List Green) (off : Nat) (p : Nat × Green), p ∈ Green.nodesL off cs →
    ∃ c ∈ Green.withOffsets off cs, c.2.isNode = true ∧ p ∈ c.2.nodes c.1
  | [], off, p, h => by simp [Green.nodesL] at h
  | g :: gs, off, p, h => by
    simp only [Green.nodesL, List.mem_append] at h
    rcases h with h | h
    · refine ⟨(off, g), by simp [Green.withOffsets], ?_, h⟩
      cases g with
      | token k t => simp [Green.nodes] at h
      | node k cs => rfl
    · obtain ⟨c, h1, h2⟩ := nodesL_child gs _ p h
      exact ⟨c, by simp [Green.withOffsets, h1], h2⟩
end

private theorem below_trans {a b c : Red} (h1 : Below a b) (h2 : Below b c) : Below a c := by
  induction h2 with
  | self => exact h1
  | child _ hc ih => exact .child ih hc

private theorem nodes_below (r : Red) : ∀ p ∈ r.green.nodes r.off, ∃ n, Below r n ∧ (n.off, n.green) = p := by
  induction r using red_ind with
  | h r ih =>
    intro p hp
    rcases nodes_child _ _ _ hp with rfl | ⟨c, h1, h2, h3⟩
    · exact ⟨r, .self, rfl⟩
    · obtain ⟨n, hn, rfl⟩ := (child_offsets r c).1 ⟨h1, h2⟩
      obtain ⟨m, h4, h5⟩ := ih n hn p h3
      exact ⟨m, below_trans (.child .self hn) h4, h5⟩

mutual
private theorem nodes_of_child : ∀ (g : Green) (off : Nat) (c : Nat × Green), c ∈ Green.withOffsets off g.children →
    ∀ p ∈ c.2.nodes c.1, p ∈ g.nodes off
  | .token k t, off, c, h, p, hp => by simp [Green.children, Green.withOffsets] at h
  | .node k cs, off, c, h, p, hp => by
    simp only [Green.nodes, List.mem_cons]
    exact .inr (nodesL_of_child cs off c h p hp)
private theorem nodesL_of_child : ∀ (cs : List Green) (off : Nat) (c : Nat × Green), c ∈ Green.withOffsets off cs →
    ∀ p ∈ c.2.nodes c.1, p ∈ Green.nodesL off cs
  | [], off, c, h, p, hp => by simp [Green.withOffsets] at h
  | g :: gs, off, c, h, p, hp => by
    simp only [Green.withOffsets, List.mem_cons] at h
    simp only [Green.nodesL, List.mem_append]
    rcases h with rfl | h
    · exact .inl hp
    · exact .inr (nodesL_of_child gs _ c h p hp)
end

private theorem below_nodes {r n : Red} (hr : r.green.isNode = true) (h : Below r n) :
    (n.off, n.green) ∈ r.green.nodes r.off ∧ n.green.isNode = true := by
  have self : ∀ (r : Red), r.green.isNode = true → (r.off, r.green) ∈ r.green.nodes r.off := by
    intro r h
    cases hg : r.green with
    | token k t => rw [hg] at h; simp [Green.isNode] at h
    | node k cs => simp [Green.nodes]
  have key : ∀ {r n : Red}, Below r n → r.green.isNode = true → n.green.isNode = true ∧
      ∀ p ∈ n.green.nodes n.off, p ∈ r.green.nodes r.off := by
    intro r n h hr
    induction h with
    | self => exact ⟨hr, fun p hp => hp⟩
    | @child p c _ hc ih =>
      have := (child_offsets p (c.off, c.green)).2 ⟨c, hc, rfl⟩
      exact ⟨this.2, fun q hq => ih.2 q (nodes_of_child _ _ _ this.1 q hq)⟩
  obtain ⟨h1, h2⟩ := key h hr
  exact ⟨h2 _ (self n h1), h1⟩

/-! ### the theorems -/

private theorem text_rec (text : Text) (tree : Green) (errors : List SyntaxError) (tokens : List Token)
    (lexErrors : List SyntaxError) (h : parseText text = .ok (tree, errors))
    (ht : tokenize text = .ok (tokens, lexErrors)) :
    ∃ syn lx, errors = syn ++ lexErrors ∧ tokens = toksOf lx ∧ text.len = wlen lx ∧ (∀ l ∈ lx, l.2 ≠ []) ∧
      tree.isNode = true ∧ RecAt text.len lx .sourceFile 0 [tree] syn := by
  obtain ⟨ls, ts, h1, h2, h3, -, h5⟩ := parseText_main text
  rw [h] at h5
  simp only [Except.ok.injEq, Prod.mk.injEq] at h5
  obtain ⟨rfl, rfl⟩ := h5
  rw [tokenize_eq h1] at ht
  simp only [Except.ok.injEq, Prod.mk.injEq] at ht
  obtain ⟨rfl, rfl⟩ := ht
  obtain ⟨hw, htk, hne, heof⟩ := lexemes_lx h1
  have hne' : NE (realKinds (ls.map lxOf)) := by
    intro hm
    simp only [realKinds, List.mem_map] at hm
    obtain ⟨l, hl, e⟩ := hm
    exact heof l (by simpa using (List.mem_filter.mp hl).1) e
  have tr := parseKinds_fits hne' h2 h3
  have hlen : text.len = wlen (ls.map lxOf) := by rw [wlen, hw]
  have c := (placeL_rec text.len ts (ls.map lxOf) (by omega) tr).append
    (RecAt.leaves _ _ _ _ (placeL text.len ts (ls.map lxOf)).rest)
  rw [show text.len - wlen (ls.map lxOf) = 0 by omega, List.append_nil] at c
  refine ⟨_, ls.map lxOf, rfl, htk.symm, hlen, hne, rfl, ?_⟩
  constructor
  · intro e he
    refine .inr ?_
    rcases c.fwd e he with hd | ⟨p, hp, hd⟩
    · exact ⟨(0, .node .block _), by simp [Green.nodesL, Green.nodes], hd⟩
    · exact ⟨p, by simp [Green.nodesL, Green.nodes, hp], hd⟩
  · intro x hx _ hk
    simp only [Green.withOffsets, List.mem_singleton] at hx
    subst hx
    simp [Green.kind] at hk
  · intro p hp x hx q1 q2
    simp only [Green.nodesL, Green.nodes, List.append_nil, List.mem_cons] at hp
    rcases hp with rfl | rfl | hp
    · simp only [Green.children, Green.withOffsets, List.mem_singleton] at hx
      subst hx
      simp [Green.kind] at q2
    · exact c.bwd x hx q1 q2
    · exact c.inner p hp x hx q1 q2

private theorem nextKind_at {lx a : List Lx} (hne : ∀ l ∈ lx, l.2 ≠ []) (ha : a <:+ lx) :
    nextKind (wlen lx - wlen a) 0 (toksOf lx) = lookahead (realKinds a) 0 := by
  obtain ⟨pre, rfl⟩ := ha
  have := nextKind_skip (start := 0) (pre := pre) (a := a) fun l hl => hne l (by simp [hl])
  rw [← this]
  congr 1
  simp

/-- **C100**: every syntax error belongs to a construct of the tree.  Either it is a complaint at a point of that
construct, of a kind `Stays` allows there, and nothing is skipped; or the construct has an `Error` node where the error
is, and the message, the tokens in that node and the token that comes after it are as in `Skips`. -/
theorem C100_errors (text : Text) (tree : Green) (errors : List SyntaxError) (tokens : List Token)
    (lexErrors : List SyntaxError) (h : parseText text = .ok (tree, errors))
    (ht : tokenize text = .ok (tokens, lexErrors)) :
    ∃ syn, errors = syn ++ lexErrors ∧ ∀ e ∈ syn, ∃ r, Below (Red.root tree) r ∧
      ((e.range.start = e.range.stop ∧ r.range.start ≤ e.range.start ∧ e.range.stop ≤ r.range.stop ∧
          Stays r.kind e.msg (nextKind e.range.start 0 tokens)) ∨
        ∃ n ∈ r.children, n.kind = .error ∧ n.range = e.range ∧
          Skips r.kind e.msg (realTokens n.green) (nextKind e.range.stop 0 tokens)) := by
  obtain ⟨syn, lx, h1, rfl, hlen, hne, hnode, hrec⟩ := text_rec text tree errors tokens lexErrors h ht
  refine ⟨syn, h1, fun e he => ?_⟩
  have hd : ∃ p ∈ tree.nodes 0, Direct text.len lx p.2.kind p.1 p.2.children e := by
    rcases hrec.fwd e he with (⟨a, -, -, -, -, hst⟩ | ⟨c, -, -, -, -, a, -, -, hsk⟩) | ⟨p, hp, hd⟩
    · exfalso
      rcases hst with ⟨_, h, -⟩ | ⟨_, h, -⟩ | ⟨h, -⟩ | ⟨h, -⟩ | ⟨h, -⟩ | ⟨h, -⟩ | ⟨h, -⟩ | ⟨h, -⟩ <;>
        first | (simp [fixedTokens, nameKeeps] at h; done) | (revert h; decide)
    · exfalso
      rcases hsk with ⟨_, h, -⟩ | ⟨h, -⟩ | ⟨h, -⟩ | ⟨h, -⟩ | ⟨h, -⟩ | ⟨h, -⟩ | ⟨h, -⟩ | ⟨h, -⟩ | ⟨h, -⟩ <;>
        first | (simp [fixedTokens, nameKeeps] at h; done) | (revert h; decide)
    · exact ⟨p, by simpa [Green.nodesL] using hp, hd⟩
  obtain ⟨p, hp, hd⟩ := hd
  obtain ⟨r, hr, rfl⟩ := nodes_below (Red.root tree) p hp
  refine ⟨r, hr, ?_⟩
  rcases hd with ⟨a, ha, q1, q2, q3, q4⟩ | ⟨c, hc, q0, q1, q2, a, ha, q3, q4⟩
  · refine .inl ?_
    have hn := nextKind_at hne ha
    have e1 : e.range.start = wlen lx - wlen a := by rw [q1, hlen]; rfl
    have e2 : e.range.stop = wlen lx - wlen a := by rw [q1, hlen]; rfl
    have e3 : r.range.stop = r.off + (Green.textL r.green.children).len := by
      have hk : r.green.isNode = true := (below_nodes (r := Red.root tree) hnode hr).2
      cases hg : r.green with
      | token k t => rw [hg] at hk; simp [Green.isNode] at hk
      | node k cs => simp [Red.range, hg, Green.range, Range.ofLen, Green.len, Green.text, Green.children]
    have e4 : r.range.start = r.off := rfl
    refine ⟨by omega, ?_, ?_, ?_⟩
    · rw [e4, e1]; simp only at q2; omega
    · rw [e3, e2]; simp only at q3; omega
    · rw [e1, hn]; exact q4
  · refine .inr ?_
    obtain ⟨n, hn, rfl⟩ := (child_offsets r c).1 ⟨hc, q0⟩
    refine ⟨n, hn, q1, q2, ?_⟩
    rw [q3, hlen, nextKind_at hne ha]
    exact q4

/-- **C100**: every `Error` node of the tree is reported, with a message that is right for the construct it is in, for
the tokens in it, and for the token after it. -/
theorem C100_nodes (text : Text) (tree : Green) (errors : List SyntaxError) (tokens : List Token)
    (lexErrors : List SyntaxError) (h : parseText text = .ok (tree, errors))
    (ht : tokenize text = .ok (tokens, lexErrors)) :
    ∃ syn, errors = syn ++ lexErrors ∧ ∀ r, Below (Red.root tree) r → ∀ n ∈ r.children, n.kind = .error →
      ∃ e ∈ syn, e.range = n.range ∧ Skips r.kind e.msg (realTokens n.green) (nextKind e.range.stop 0 tokens) := by
  obtain ⟨syn, lx, h1, rfl, hlen, hne, hnode, hrec⟩ := text_rec text tree errors tokens lexErrors h ht
  refine ⟨syn, h1, fun r hr n hn hk => ?_⟩
  have hp := (below_nodes (r := Red.root tree) hnode hr).1
  have hc := (child_offsets r (n.off, n.green)).2 ⟨n, hn, rfl⟩
  obtain ⟨e, he, -, -, q2, a, ha, q3, q4⟩ := hrec.inner (r.off, r.green)
    (by simp only [Green.nodesL, List.append_nil]; exact hp) _ hc.1 hc.2 hk
  refine ⟨e, he, q2.symm, ?_⟩
  rw [q3, hlen, nextKind_at hne ha]
  exact q4

/-- **C100**: recovery never swallows an `end`, except one that closes nothing: an `Error` node with an `end` in it has
nothing else in it, it is directly in a block, and it is reported as an unmatched `end`. -/
theorem C100_end (text : Text) (tree : Green) (errors : List SyntaxError) (h : parseText text = .ok (tree, errors))
    (r : Red) (hr : Below (Red.root tree) r) (n : Red) (hn : n ∈ r.children) (hk : n.kind = .error)
    (he : .endKw ∈ realTokens n.green) :
    r.kind = .block ∧ realTokens n.green = [.endKw] ∧ ⟨"Unmatched end token", n.range⟩ ∈ errors := by
  obtain ⟨ls, hl⟩ := lexemes_exists text
  obtain ⟨syn, h1, h2⟩ := C100_nodes text tree errors _ _ h (tokenize_eq hl)
  obtain ⟨e, hm, q1, q2⟩ := h2 r hr n hn hk
  have one : ∀ {p : SyntaxKind → Prop} {sk nx}, One p sk nx → .endKw ∈ sk → p .endKw := by
    rintro p sk nx (⟨k, rfl, hp⟩ | ⟨rfl, -⟩) hh
    · simp at hh; subst hh; exact hp
    · simp at hh
  have keeps : ∀ {c ks}, nameKeeps c = some ks → .endKw ∈ ks := by
    intro c ks hc
    cases c <;> simp [nameKeeps, nameStop] at hc <;> subst hc <;> simp
  rcases q2 with ⟨ks, hks, -, ho⟩ | ⟨-, -, ho⟩ | ⟨-, -, ho⟩ | ⟨-, -, ho⟩ | ⟨-, -, -, ho, -⟩ | ⟨hb, hmsg, hs⟩ | ⟨-, -, hs⟩ |
    ⟨-, -, k, hkk, hs⟩ | ⟨-, -, k, hs, hkk, -⟩
  · exact absurd (List.mem_cons_of_mem _ (keeps hks)) (one ho he)
  · exact absurd (by decide) (one ho he)
  · exact absurd (by decide) (one ho he)
  · exact absurd (by decide) (one ho he)
  · exact absurd (by decide) (ho _ he)
  · refine ⟨hb, hs, ?_⟩
    rw [h1, ← q1, ← hmsg]
    exact List.mem_append_left _ hm
  · rw [hs] at he; exact absurd he (by decide)
  · rw [hs] at he; simp at he; subst he; exact absurd hkk (by decide)
  · rw [hs] at he; simp at he; subst he; exact absurd (by decide) hkk

/-- **C100**: outside table constructors recovery skips one token at a time. -/
theorem C100_one_token (text : Text) (tree : Green) (errors : List SyntaxError) (h : parseText text = .ok (tree, errors))
    (r : Red) (hr : Below (Red.root tree) r) (n : Red) (hn : n ∈ r.children) (hk : n.kind = .error)
    (ht : r.kind ≠ .tableExpr) : (realTokens n.green).length ≤ 1 := by
  obtain ⟨ls, hl⟩ := lexemes_exists text
  obtain ⟨syn, h1, h2⟩ := C100_nodes text tree errors _ _ h (tokenize_eq hl)
  obtain ⟨e, hm, q1, q2⟩ := h2 r hr n hn hk
  have one : ∀ {p : SyntaxKind → Prop} {sk nx}, One p sk nx → sk.length ≤ 1 := by
    rintro p sk nx (⟨k, rfl, hp⟩ | ⟨rfl, -⟩) <;> simp
  rcases q2 with ⟨ks, hks, -, ho⟩ | ⟨-, -, ho⟩ | ⟨-, -, ho⟩ | ⟨-, -, ho⟩ | ⟨hc, -⟩ | ⟨hb, hmsg, hs⟩ | ⟨-, -, hs⟩ |
    ⟨-, -, k, hkk, hs⟩ | ⟨-, -, k, hs, hkk, -⟩
  · exact one ho
  · exact one ho
  · exact one ho
  · exact one ho
  · exact absurd hc ht
  all_goals simp [hs]

/-! ### a concrete case -/

private def broken : Text := "local = 1\nend t = { a = 1 = 2, } f(".toList

private theorem broken_parse : (parseText broken).toOption.map (fun p : Green × List SyntaxError =>
    (p.2, decide (∃ r ∈ (Red.root p.1).children, ∃ n ∈ r.children, n.kind = .error ∧ SyntaxKind.endKw ∈ realTokens n.green))) =
    some ([⟨"expected a name", ⟨6, 7⟩⟩, ⟨"A literal cannot be the start of a statement", ⟨8, 9⟩⟩,
      ⟨"Unmatched end token", ⟨10, 13⟩⟩, ⟨"Failed to find comma or closing bracket", ⟨26, 29⟩⟩,
      ⟨"Expected an expression", ⟨35, 35⟩⟩, ⟨"Expected RParen, got Eof", ⟨35, 35⟩⟩], true) := by
  rw [parseText_eq_eval]
  decide +kernel

/-- The text meets the hypotheses: six errors, five of them with an `Error` node (one of those is empty, one has two
tokens), and an `end` in a node of its own. -/
example : ∃ tree errors tokens, parseText broken = .ok (tree, errors) ∧ tokenize broken = .ok (tokens, []) ∧
    errors.length = 6 ∧ (∃ r, Below (Red.root tree) r ∧ ∃ n ∈ r.children, n.kind = .error ∧ .endKw ∈ realTokens n.green) ∧
    Skips .tableExpr "Failed to find comma or closing bracket" [.eq, .number] (nextKind 29 0 tokens) ∧
    Stays .argList "Expected RParen, got Eof" (nextKind 35 0 tokens) := by
  have h := broken_parse
  cases e : parseText broken with
  | error x => rw [e] at h; simp [Except.toOption] at h
  | ok p =>
    rw [e] at h
    simp only [Except.toOption, Option.map_some, Option.some.injEq, Prod.mk.injEq, decide_eq_true_eq] at h
    obtain ⟨h1, r, hr, n, hn, h2⟩ := h
    refine ⟨p.1, p.2, _, rfl, rfl, by rw [h1]; rfl, ⟨r, .child .self hr, n, hn, h2⟩, ?_, ?_⟩
    · exact .inr (.inr (.inr (.inr (.inl (by decide)))))
    · exact .inl ⟨.rParen, by decide, by decide, by decide⟩

/-- Not everything is allowed: no construct but a table skips two tokens, and a comma is not skipped in a list of
names. -/
example : ¬ Skips .multiName "expected a name" [.comma] .ident ∧ ¬ Stays .block "Expected an expression" .endKw := by
  constructor
  · rintro (⟨ks, h, -, ⟨k, h2, h3⟩ | ⟨h2, -⟩⟩ | ⟨h, -⟩ | ⟨h, -⟩ | ⟨h, -⟩ | ⟨h, -⟩ | ⟨h, -⟩ | ⟨h, -⟩ | ⟨h, -⟩ | ⟨h, -⟩)
    · simp [nameKeeps] at h; subst h; simp at h2; subst h2; simp at h3
    · simp at h2
    all_goals revert h; decide
  · rintro (⟨_, h, -⟩ | ⟨_, h, -⟩ | ⟨h, -⟩ | ⟨h, -⟩ | ⟨h, -⟩ | ⟨h, -⟩ | ⟨h, -⟩ | ⟨h, -⟩) <;>
      first | (simp [fixedTokens, nameKeeps] at h; done) | (revert h; decide)

end Verif
