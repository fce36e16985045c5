import Verif.Props.Grouping
import Verif.Proof.TreeContext
import Verif.Proof.ReparseProof
import Verif.Props.Walk
import Verif.Props.AstExamples
import Verif.Proof.Decide

/-
C86: where white space and comments are in a tree.
-/
namespace Verif
open Spec PTree Lua

/-- The node does not start where white space or a comment starts, and its last element is neither; `post` are the
tokens after it. -/
private def Tidy (post : List Lx) : Green → Prop
  | .token _ _ => True
  | .node _ cs => (∀ l, (Green.leavesL cs ++ post).head? = some l → isTriv l = false) ∧
      (∀ k w, cs.getLast? = some (.token k w) → k.isTrivia = false)

private def AllTidy (post : List Lx) (g : Green) : Prop := ∀ x p a b, Ctx x g p a b → Tidy (b ++ post) x

private def AllTidyL (post : List Lx) (gs : List Green) : Prop :=
  ∀ pre c ds, gs = pre ++ c :: ds → AllTidy (Green.leavesL ds ++ post) c

private theorem allTidyL_append {post a b} (ha : AllTidyL (Green.leavesL b ++ post) a) (hb : AllTidyL post b) :
    AllTidyL post (a ++ b) := by
  intro pre c ds h
  rcases List.append_eq_append_iff.1 h with ⟨m, h1, h2⟩ | ⟨m, h1, h2⟩
  · exact hb m c ds h2
  · cases m with
    | nil => exact hb [] c ds (by simpa using h2.symm)
    | cons x xs =>
      simp only [List.cons_append, List.cons.injEq] at h2
      obtain ⟨rfl, rfl⟩ := h2
      have := ha pre c xs h1
      simpa [Verif.leavesL_append, List.append_assoc] using this

private theorem allTidy_token (post k w) : AllTidy post (.token k w) := by
  intro x p a b h
  cases h
  trivial

private theorem allTidyL_nil (post) : AllTidyL post [] := by intro pre c ds h; simp at h

private theorem allTidyL_leaves (post) (ls : List Lx) : AllTidyL post (ls.map leaf) := by
  intro pre c ds h
  have : c ∈ ls.map leaf := by rw [h]; simp
  obtain ⟨l, -, rfl⟩ := List.mem_map.1 this
  exact allTidy_token _ _ _

private theorem allTidy_node {post k cs} (h : Tidy post (.node k cs)) (hc : AllTidyL post cs) :
    AllTidy post (.node k cs) := by
  intro x p a b hx
  cases hx with
  | here => exact h
  | down hx =>
    rename_i pre c post' p a b
    have := hc pre c post' rfl _ _ _ _ hx
    simpa [List.append_assoc] using this

private theorem allTidyL_one {post g} (h : AllTidy post g) : AllTidyL post [g] := by
  intro pre c ds e
  have := congrArg List.length e
  simp at this
  have h1 : pre = [] := List.length_eq_zero_iff.1 (by omega)
  have h2 : ds = [] := List.length_eq_zero_iff.1 (by omega)
  subst h1 h2
  simp at e
  subst e
  simpa [Green.leavesL] using h

/-- the last element is not white space or a comment -/
private def LastOk (cs : List Green) : Prop := ∀ k w, cs.getLast? = some (.token k w) → k.isTrivia = false

private theorem lastOk_append {a b} (ha : LastOk a) (hb : LastOk b) : LastOk (a ++ b) := by
  intro k w h
  cases b with
  | nil => exact ha k w (by simpa using h)
  | cons x xs => exact hb k w (by rw [List.getLast?_append] at h; simpa using h)

mutual
private theorem place_tidy (n : Nat) (t : PTree) (todo : List Lx) (ks : List SyntaxKind)
    (h : realKinds todo = yield t ++ ks) :
    AllTidyL (place n t todo).rest (place n t todo).greens ∧ LastOk (place n t todo).greens ∧
      realKinds (place n t todo).rest = ks := by
  cases t with
  | tok k =>
    obtain ⟨w, r, h1, h2⟩ := afterTriv_of_kinds (show realKinds todo = k :: ks by simpa [yield] using h)
    simp only [place, h1]
    refine ⟨?_, ?_, h2⟩
    · exact allTidyL_append (allTidyL_leaves _ _) (allTidyL_one (allTidy_token _ _ _))
    · intro k' w' h'
      have := afterTriv_head h1
      simp [leaf] at h'
      rw [← h'.1]; exact this
  | err e => exact ⟨allTidyL_nil _, by intro k w h; simp [place] at h, by simpa [place, yield] using h⟩
  | node k cs =>
    have hk : realKinds (afterTriv todo) = yieldL cs ++ ks := by rw [realKinds_afterTriv]; simpa [yield] using h
    obtain ⟨h1, h2, h3⟩ := placeL_tidy n cs (afterTriv todo) ks hk
    have hl := placeL_leaves n cs (afterTriv todo)
    simp only [place]
    refine ⟨allTidyL_append (allTidyL_leaves _ _) (allTidyL_one (allTidy_node ⟨?_, h2⟩ h1)), ?_, h3⟩
    · intro l e
      rw [hl] at e
      cases hh : afterTriv todo with
      | nil => rw [hh] at e; simp at e
      | cons x xs => rw [hh] at e; simp at e; subst e; exact afterTriv_head hh
    · intro k' w' h'; simp at h'
  | errNode cs e =>
    have hk : realKinds (afterTriv todo) = yieldL cs ++ ks := by rw [realKinds_afterTriv]; simpa [yield] using h
    obtain ⟨h1, h2, h3⟩ := placeL_tidy n cs (afterTriv todo) ks hk
    have hl := placeL_leaves n cs (afterTriv todo)
    simp only [place]
    refine ⟨allTidyL_append (allTidyL_leaves _ _) (allTidyL_one (allTidy_node ⟨?_, h2⟩ h1)), ?_, h3⟩
    · intro l e
      rw [hl] at e
      cases hh : afterTriv todo with
      | nil => rw [hh] at e; simp at e
      | cons x xs => rw [hh] at e; simp at e; subst e; exact afterTriv_head hh
    · intro k' w' h'; simp at h'
private theorem placeL_tidy (n : Nat) (ts : List PTree) (todo : List Lx) (ks : List SyntaxKind)
    (h : realKinds todo = yieldL ts ++ ks) :
    AllTidyL (placeL n ts todo).rest (placeL n ts todo).greens ∧ LastOk (placeL n ts todo).greens ∧
      realKinds (placeL n ts todo).rest = ks := by
  cases ts with
  | nil => exact ⟨allTidyL_nil _, by intro k w h; simp [placeL] at h, by simpa [placeL, yieldL] using h⟩
  | cons t ts =>
    obtain ⟨h1, h2, h3⟩ := place_tidy n t todo (yieldL ts ++ ks) (by simpa [yieldL] using h)
    obtain ⟨h4, h5, h6⟩ := placeL_tidy n ts _ ks h3
    have hl := placeL_leaves n ts (place n t todo).rest
    simp only [placeL]
    refine ⟨allTidyL_append ?_ h4, lastOk_append h2 h5, h6⟩
    rw [hl]; exact h1
end

/-- Lists of tokens with the same total length in front of a token. -/
private theorem same_place : ∀ {a b : List Lx} {x y : Lx} {s t : List Lx}, a ++ x :: s = b ++ y :: t → wlen a = wlen b →
    (∀ l ∈ a ++ x :: s, 0 < l.2.len) → x = y := by
  intro a
  induction a with
  | nil =>
    intro b x y s t h hl hp
    cases b with
    | nil => simp at h; exact h.1
    | cons z zs =>
      simp at h
      have := hp x (by simp)
      rw [← h.1, wlen_cons, wlen_nil] at hl
      omega
  | cons z zs ih =>
    intro b x y s t h hl hp
    cases b with
    | nil =>
      have := hp z (by simp)
      rw [wlen_cons, wlen_nil] at hl
      omega
    | cons u us =>
      simp at h
      obtain ⟨rfl, h⟩ := h
      refine ih h (by simpa using hl) (fun l hl => hp l (by simp at hl ⊢; exact .inr hl))

private theorem ctx_down {x : Green} {k : SyntaxKind} {cs : List Green} {i : Nat} {p : List Nat} {a b : List Lx}
    (h : Ctx x (.node k cs) (i :: p) a b) : ∃ c pre post a' b', cs = pre ++ c :: post ∧ b = b' ++ Green.leavesL post ∧
      Ctx x c p a' b' ∧ a = Green.leavesL pre ++ a' := by
  cases h with
  | down h => exact ⟨_, _, _, _, _, rfl, rfl, h, rfl⟩

private theorem elems_greens (path : List Nat) : ∀ (cs : List Green) (i off : Nat),
    (Red.elemsFrom path i off cs).map (·.green) = cs := by
  intro cs
  induction cs with
  | nil => intros; rfl
  | cons c cs ih => intro i off; simp [Red.elemsFrom, ih]

private theorem node_tidy {text : Text} {tree : Green} {errors : List SyntaxError} (h : parseText text = .ok (tree, errors))
    {r : Red} (hp : 2 ≤ r.path.length) {a b : List Lx} (hc : Ctx r.green tree r.path a b) : Tidy b r.green := by
  obtain ⟨ls, ts, h1, h2, h3, h4, h5⟩ := parseText_main text
  rw [h] at h5
  simp only [Except.ok.injEq, Prod.mk.injEq] at h5
  obtain ⟨t1, t2, t3⟩ := placeL_tidy text.len ts (ls.map lxOf) [] (by simp [h3])
  rw [h5.1] at hc
  obtain ⟨path, off, g⟩ := r
  simp only at hc hp ⊢
  cases path with
  | nil => simp at hp
  | cons i path =>
    obtain ⟨c, pre, post, a', b', e1, e2, hc, -⟩ := ctx_down hc
    have e3 := congrArg List.length e1
    simp at e3
    have e4 : pre = [] := List.length_eq_zero_iff.1 (by omega)
    have e5 : post = [] := List.length_eq_zero_iff.1 (by omega)
    subst e4 e5
    simp only [List.nil_append, List.cons.injEq, and_true] at e1
    subst e1
    cases path with
    | nil => simp at hp
    | cons j path =>
      obtain ⟨c, pre, post, a'', b'', e1, e3, hc, -⟩ := ctx_down hc
      have ht : AllTidyL [] ((placeL text.len ts (ls.map lxOf)).greens ++ (placeL text.len ts (ls.map lxOf)).rest.map leaf) := by
        refine allTidyL_append ?_ (allTidyL_leaves _ _)
        have : Green.leavesL ((placeL text.len ts (ls.map lxOf)).rest.map leaf) = (placeL text.len ts (ls.map lxOf)).rest := by
          generalize (placeL text.len ts (ls.map lxOf)).rest = q
          induction q with
          | nil => simp [Green.leavesL]
          | cons x xs ih => simp [Green.leavesL, Green.leaves, leaf, ih]
        rw [this, List.append_nil]
        exact t1
      have := ht pre c post e1 _ _ _ _ hc
      rw [e2, e3]
      simpa [Green.leavesL] using this

/-- what follows the start of a node is not white space or a comment -/
theorem starts_real {text : Text} {tree : Green} {errors : List SyntaxError} (h : parseText text = .ok (tree, errors))
    {r : Red} (hp : 2 ≤ r.path.length) {a b : List Lx} (hc : Ctx r.green tree r.path a b) (hn : r.green.isNode = true) :
    ∀ l, (r.green.leaves ++ b).head? = some l → isTriv l = false := by
  have := node_tidy h hp hc
  obtain ⟨p, o, g⟩ := r
  cases g with
  | token k w => simp [Green.isNode] at hn
  | node k cs => exact this.1

/-- **C86**: for every text, no node other than the file and its block starts where white space or a comment starts,
and neither its first nor its last element is white space or a comment. -/
theorem C86_trivia (text : Text) (tree : Green) (errors : List SyntaxError) (h : parseText text = .ok (tree, errors))
    (r : Red) (hr : Below (Red.root tree) r) (hp : 2 ≤ r.path.length) :
    (∀ w, IsTrivia tree w → w.range.start ≠ r.range.start) ∧
    (∀ w, r.elems.head? = some w → ¬ IsTrivia tree w) ∧
    (∀ w, r.elems.getLast? = some w → ¬ IsTrivia tree w) := by
  obtain ⟨ls, ts, h1, h2, h3, h4, h5⟩ := parseText_main text
  obtain ⟨ls', tree', errors', h1', h', _, _, hl, _⟩ := parseText_tree text
  obtain rfl := h1.unique h1'
  rw [h] at h5 h'
  simp only [Except.ok.injEq, Prod.mk.injEq] at h5 h'
  obtain ⟨rfl, rfl⟩ := h'
  have hpos : ∀ l ∈ tree.leaves, 0 < l.2.len := by
    intro l hm
    rw [hl, List.mem_map] at hm
    obtain ⟨x, hx, rfl⟩ := hm
    obtain ⟨s, rest, hf⟩ := Lexemes.first_of_mem h1 hx
    exact Text.len_pos hf.word_ne
  obtain ⟨a, b, hc, ho⟩ := (inTree_root tree).below hr
  have tidy : Tidy b r.green := node_tidy h hp hc
  have hn : r.green.isNode = true := by
    cases hr with
    | self => simp [Red.root] at hp
    | child _ hc => exact child_node hc
  have first : ∀ w, IsTrivia tree w → w.range.start ≠ r.range.start := by
    rintro w ⟨p, hb, hw, hwn, hwk⟩ heq
    obtain ⟨a', b', hc', ho'⟩ := ((inTree_root tree).below hb).elem hw
    have e1 := hc.leaves
    have e2 := hc'.leaves
    have e3 : wlen a' = wlen a := by
      have e : w.off = r.off := heq
      rw [← ho, ← ho', e]
    obtain ⟨wp, woff, wg⟩ := w
    obtain ⟨rp, roff, rg⟩ := r
    cases wg with
    | node k cs => simp [Green.isNode] at hwn
    | token k v =>
      cases rg with
      | token k v => simp [Green.isNode] at hn
      | node k' cs =>
        simp only [Green.leaves] at e1 e2
        rw [List.append_assoc] at e1 e2
        cases hx : Green.leavesL cs ++ b with
        | nil =>
          rw [hx, List.append_nil] at e1
          rw [e2] at e1
          have := congrArg wlen e1
          have hv := hpos (k, v) (by rw [e2]; simp)
          simp at this hv
          omega
        | cons y t =>
          rw [hx] at e1
          have := same_place (a := a') (x := (k, v)) (s := b') (b := a) (y := y) (t := t)
            (by rw [← e1, e2]; simp) e3 (fun l hl => hpos l (by rw [e2]; simpa using hl))
          have hy := tidy.1 y (by rw [hx]; rfl)
          rw [← this] at hy
          simp only [isTriv] at hy
          rw [show Red.kind _ = k from rfl, hy] at hwk
          simp at hwk
  refine ⟨first, fun w hw ht => ?_, fun w hw ht => ?_⟩
  · refine first w ht ?_
    obtain ⟨rp, roff, rg⟩ := r
    cases rg with
    | token k v => simp [Green.isNode] at hn
    | node k' cs =>
      cases cs with
      | nil => simp [Red.elems, Green.children, Red.elemsFrom] at hw
      | cons c cs => simp [Red.elems, Green.children, Red.elemsFrom] at hw; rw [← hw]; rfl
  · obtain ⟨p, -, -, hwn, hwk⟩ := ht
    obtain ⟨rp, roff, rg⟩ := r
    cases rg with
    | token k v => simp [Green.isNode] at hn
    | node k' cs =>
      obtain ⟨wp, woff, wg⟩ := w
      cases wg with
      | node k cs => simp [Green.isNode] at hwn
      | token k v =>
        have : cs.getLast? = some (.token k v) := by
          have e : (Red.elems ⟨rp, roff, .node k' cs⟩).map (·.green) = cs := elems_greens rp cs 0 roff
          rw [← e, List.getLast?_map, hw]; rfl
        have := tidy.2 k v this
        rw [show Red.kind _ = k from rfl, this] at hwk
        simp at hwk


theorem C86_rule (text : Text) (tree : Green) (errors : List SyntaxError) (h : parseText text = .ok (tree, errors)) :
    TriviaRule tree := by
  refine ⟨?_, fun r w hr hp hw => (C86_trivia text tree errors h r hr hp).1 w hw,
    fun r w hr hp hw => (C86_trivia text tree errors h r hr hp).2.2 w hw⟩
  obtain ⟨ls, ts, -, -, -, -, h5⟩ := parseText_main text
  rw [h] at h5
  simp only [Except.ok.injEq, Prod.mk.injEq] at h5
  rw [h5.1]; rfl

/-! ### C87: the tree is determined -/

private theorem elems_mem (path : List Nat) (c : Green) (post : List Green) : ∀ (pre : List Green) (i off : Nat),
    ⟨path ++ [i + pre.length], off + wlen (Green.leavesL pre), c⟩ ∈ Red.elemsFrom path i off (pre ++ c :: post) := by
  intro pre
  induction pre with
  | nil => intro i off; simp [Red.elemsFrom, Green.leavesL]
  | cons g gs ih =>
    intro i off
    have hl : g.len = wlen g.leaves := by simp [Green.len, text_leaves, wlen]
    have := ih (i + 1) (off + g.len)
    simp only [List.cons_append, Red.elemsFrom, List.mem_cons, Green.leavesL, wlen_append, List.length_cons]
    right
    rw [show i + (gs.length + 1) = i + 1 + gs.length by omega, ← Nat.add_assoc, ← hl]
    exact this

private theorem ctx_below {x g : Green} {p : List Nat} {a b : List Lx} (h : Ctx x g p a b) : x.isNode = true →
    ∀ path off, Below ⟨path, off, g⟩ ⟨path ++ p, off + wlen a, x⟩ := by
  induction h with
  | here => intro _ path off; simpa using Below.self
  | @down k pre c post p a b hc ih =>
    intro hx path off
    have hcn : c.isNode = true := by
      cases hc with
      | here => exact hx
      | down => rfl
    have h1 := ih hx (path ++ [pre.length]) (off + wlen (Green.leavesL pre))
    refine below_of_child (c := ⟨path ++ [pre.length], off + wlen (Green.leavesL pre), c⟩) ?_ ?_
    · refine List.mem_filter.2 ⟨?_, hcn⟩
      show _ ∈ Red.elemsFrom path 0 off (pre ++ c :: post)
      have := elems_mem path c post pre 0 off
      simpa using this
    · simpa [List.append_assoc, Nat.add_assoc] using h1


private def HasLeaf (l : Lx) (pos : Nat) (p : Red) : Prop := ∃ w ∈ p.elems, w.green = .token l.1 l.2 ∧ w.off = pos

mutual
private theorem leafG {l : Lx} (g : Green) (hn : g.isNode = true) (path : List Nat) (off : Nat) (pre post : List Lx)
    (h : g.leaves = pre ++ l :: post) : ∃ p, Below ⟨path, off, g⟩ p ∧ HasLeaf l (off + wlen pre) p := by
  cases g with
  | token k t => simp [Green.isNode] at hn
  | node k cs =>
    rcases leafL cs path 0 off pre post (by simpa [Green.leaves] using h) with ⟨w, hw, h1⟩ | ⟨c, hc, h1, p, h2, h3⟩
    · exact ⟨_, .self, w, hw, h1⟩
    · exact ⟨p, below_of_child (List.mem_filter.2 ⟨hc, h1⟩) h2, h3⟩
private theorem leafL {l : Lx} (cs : List Green) (path : List Nat) (i off : Nat) (pre post : List Lx)
    (h : Green.leavesL cs = pre ++ l :: post) :
    (∃ w ∈ Red.elemsFrom path i off cs, w.green = .token l.1 l.2 ∧ w.off = off + wlen pre) ∨
    ∃ c ∈ Red.elemsFrom path i off cs, c.green.isNode = true ∧ ∃ p, Below c p ∧ HasLeaf l (off + wlen pre) p := by
  cases cs with
  | nil => simp [Green.leavesL] at h
  | cons g gs =>
    simp only [Green.leavesL] at h
    have hl : g.len = wlen g.leaves := by simp [Green.len, text_leaves, wlen]
    rcases List.append_eq_append_iff.1 h with ⟨m, h1, h2⟩ | ⟨m, h1, h2⟩
    · have := leafL gs path (i + 1) (off + g.len) m post h2
      rw [hl, Nat.add_assoc, ← wlen_append, ← h1] at this
      simp only [Red.elemsFrom, List.mem_cons, hl]
      rcases this with ⟨w, hw, h3⟩ | ⟨c, hc, h3⟩
      · exact .inl ⟨w, .inr hw, h3⟩
      · exact .inr ⟨c, .inr hc, h3⟩
    · cases m with
      | nil =>
        have := leafL gs path (i + 1) (off + g.len) [] post (by simpa using h2.symm)
        rw [List.append_nil] at h1
        rw [hl, h1, wlen_nil, Nat.add_zero] at this
        simp only [Red.elemsFrom, List.mem_cons, hl, h1]
        rcases this with ⟨w, hw, h3⟩ | ⟨c, hc, h3⟩
        · exact .inl ⟨w, .inr hw, h3⟩
        · exact .inr ⟨c, .inr hc, h3⟩
      | cons x xs =>
        simp only [List.cons_append, List.cons.injEq] at h2
        obtain ⟨rfl, -⟩ := h2
        cases g with
        | token k t =>
          simp only [Green.leaves] at h1
          have e := congrArg List.length h1
          simp at e
          have e4 : pre = [] := List.length_eq_zero_iff.1 (by omega)
          have e5 : xs = [] := List.length_eq_zero_iff.1 (by omega)
          subst e4 e5
          simp at h1
          subst h1
          exact .inl ⟨_, List.mem_cons_self, rfl, by simp⟩
        | node k ds =>
          refine .inr ⟨_, List.mem_cons_self, rfl, ?_⟩
          exact leafG (.node k ds) rfl _ _ pre xs h1
end

/-- A tidy list of trees, up to white space and comments at its end, is where the sink puts its trees. -/
private theorem place_lead (n : Nat) (w : Lx) (hw : isTriv w = true) (t : PTree) (ht : errors t = []) (todo : List Lx) :
    place n t (w :: todo) = ⟨leaf w :: (place n t todo).greens, (place n t todo).errs, (place n t todo).rest⟩ := by
  have h1 : afterTriv (w :: todo) = afterTriv todo := by simp [afterTriv, hw]
  have h2 : lead (w :: todo) = leaf w :: lead todo := by simp [lead, hw]
  cases t with
  | tok k => simp only [place, h1, h2]; cases afterTriv todo <;> rfl
  | err e => simp [errors] at ht
  | errNode cs e => simp [errors] at ht
  | node k cs => simp only [place, h1, h2]; rfl

mutual
private theorem errors_strip (g : Green) : errors (strip g) = [] := by
  cases g with
  | token k w => simp [strip, errors]
  | node k cs => simp only [strip, errors]; exact errors_stripL cs
private theorem errors_stripL (cs : List Green) : errorsL (stripL cs) = [] := by
  cases cs with
  | nil => simp [stripL, errorsL]
  | cons c cs =>
    have ih := errors_stripL cs
    cases c with
    | token k w => by_cases hk : k.isTrivia = true <;> simp [stripL, hk, ih, errorsL, strip, errors]
    | node k ds => have := errors_strip (.node k ds); simp [stripL, errorsL, ih, this]
end

private theorem allTidyL_tail {post g gs} (h : AllTidyL post (g :: gs)) : AllTidyL post gs :=
  fun pre c ds e => h (g :: pre) c ds (by rw [e]; rfl)

private theorem allTidyL_head {post g gs} (h : AllTidyL post (g :: gs)) : AllTidy (Green.leavesL gs ++ post) g :=
  h [] g gs rfl

private theorem allTidy_children {post k cs} (h : AllTidy post (.node k cs)) : AllTidyL post cs := by
  rintro pre c ds rfl x p a b hx
  have := h x _ _ _ (.down hx)
  simpa [List.append_assoc] using this

private theorem not_triv {ls : List Lx} (h : ∀ l, ls.head? = some l → isTriv l = false) : lead ls = [] ∧ afterTriv ls = ls := by
  cases ls with
  | nil => exact ⟨rfl, rfl⟩
  | cons x xs => have := h x rfl; simp [lead, afterTriv, this]

mutual
private theorem tidy_node (n : Nat) (k : SyntaxKind) (cs : List Green) (post : List Lx)
    (h : AllTidy post (.node k cs)) :
    place n (strip (.node k cs)) (Green.leavesL cs ++ post) =
      ⟨[.node k cs], (place n (strip (.node k cs)) (Green.leavesL cs ++ post)).errs, post⟩ := by
  obtain ⟨h1, h2⟩ := h _ _ _ _ .here
  rw [List.nil_append] at h1
  obtain ⟨e1, e2⟩ := not_triv h1
  obtain ⟨z, hz, e3, e4⟩ := tidy_list n cs post (allTidy_children h)
  have hz' : z = [] := by
    cases hz' : z.getLast? with
    | none => simpa using hz'
    | some l =>
      exfalso
      have hm : l ∈ z := List.mem_of_getLast? hz'
      have : cs.getLast? = some (.token l.1 l.2) := by
        rw [e3, List.getLast?_append, List.getLast?_map, hz']; rfl
      have q1 := h2 _ _ this
      have q2 := hz l hm
      rw [isTriv, q1] at q2
      exact absurd q2 (by simp)
  subst hz'
  simp only [strip, place, e1, e2, List.nil_append] at e3 e4 ⊢
  rw [List.map_nil, List.append_nil] at e3
  rw [e4, ← e3]
private theorem tidy_list (n : Nat) (gs : List Green) (post : List Lx) (h : AllTidyL post gs) :
    ∃ z : List Lx, (∀ l ∈ z, isTriv l = true) ∧
      gs = (placeL n (stripL gs) (Green.leavesL gs ++ post)).greens ++ z.map leaf ∧
      (placeL n (stripL gs) (Green.leavesL gs ++ post)).rest = z ++ post := by
  cases gs with
  | nil => exact ⟨[], by simp, by simp [stripL, placeL], by simp [stripL, placeL, Green.leavesL]⟩
  | cons g gs =>
    obtain ⟨z, hz, e1, e2⟩ := tidy_list n gs post (allTidyL_tail h)
    have hg := allTidyL_head h
    cases g with
    | token k w =>
      by_cases hk : k.isTrivia = true
      · have e0 : stripL (.token k w :: gs) = stripL gs := by simp [stripL, hk]
        rw [e0]
        simp only [Green.leavesL, Green.leaves, List.cons_append, List.nil_append]
        cases hs : stripL gs with
        | nil =>
          rw [hs] at e1 e2
          simp only [placeL, List.nil_append] at e1 e2 ⊢
          refine ⟨(k, w) :: z, ?_, ?_, ?_⟩
          · intro l hl
            rcases List.mem_cons.1 hl with rfl | hl
            · exact hk
            · exact hz l hl
          · rw [List.map_cons, ← e1]; rfl
          · rw [e2]; rfl
        | cons t ts =>
          have ht : errors t = [] := by
            have := errors_stripL gs
            rw [hs] at this
            simp only [errorsL, List.append_eq_nil_iff] at this
            exact this.1
          rw [hs] at e1 e2
          simp only [placeL] at e1 e2 ⊢
          rw [place_lead n (k, w) hk t ht]
          refine ⟨z, hz, ?_, e2⟩
          simp only [List.cons_append]
          exact congrArg (leaf (k, w) :: ·) e1
      · have hk' : k.isTrivia = false := by simpa using hk
        have e0 : stripL (.token k w :: gs) = .tok k :: stripL gs := by simp [stripL, hk', strip]
        rw [e0]
        simp only [Green.leavesL, Green.leaves, List.cons_append, List.nil_append, placeL, place]
        have h1 : afterTriv ((k, w) :: (Green.leavesL gs ++ post)) = (k, w) :: (Green.leavesL gs ++ post) := by
          simp [afterTriv, isTriv, hk']
        have h2 : lead ((k, w) :: (Green.leavesL gs ++ post)) = [] := by simp [lead, isTriv, hk']
        rw [h1, h2]
        refine ⟨z, hz, ?_, e2⟩
        simp only [List.nil_append, List.cons_append]
        rw [← e1]; rfl
    | node k ds =>
      have e0 : stripL (.node k ds :: gs) = strip (.node k ds) :: stripL gs := by simp [stripL]
      rw [e0]
      simp only [Green.leavesL, Green.leaves, List.append_assoc, placeL]
      rw [tidy_node n k ds _ hg]
      refine ⟨z, hz, ?_, e2⟩
      simp only [List.cons_append, List.nil_append]
      rw [← e1]
end

private theorem leaves_eq : ∀ {a b : List Lx}, a.map (fun l => (⟨l.1, Text.len l.2⟩ : Token)) = b.map (fun l => ⟨l.1, Text.len l.2⟩) →
    wordsOf a = wordsOf b → a = b := by
  intro a
  induction a with
  | nil => intro b h _; cases b <;> simp at h; rfl
  | cons x xs ih =>
    intro b h hw
    cases b with
    | nil => simp at h
    | cons y ys =>
      simp only [List.map_cons, List.cons.injEq, Token.mk.injEq] at h
      rw [wordsOf_cons, wordsOf_cons] at hw
      obtain ⟨h1, h2⟩ := Text.append_inj_len hw h.1.2
      rw [ih h.2 h2, Prod.ext h.1.1 h1]

mutual
private theorem place_no_errs (n : Nat) (t : PTree) (todo : List Lx) (h : errors t = []) : (place n t todo).errs = [] := by
  cases t with
  | tok k => simp only [place]; cases afterTriv todo <;> rfl
  | err e => simp [errors] at h
  | node k cs => exact placeL_no_errs n cs _ h
  | errNode cs e => simp [errors] at h
private theorem placeL_no_errs (n : Nat) (ts : List PTree) (todo : List Lx) (h : errorsL ts = []) :
    (placeL n ts todo).errs = [] := by
  cases ts with
  | nil => rfl
  | cons t ts =>
    simp only [errorsL, List.append_eq_nil_iff] at h
    simp [placeL, place_no_errs n t _ h.1, placeL_no_errs n ts _ h.2]
end

/-- The rule, for trees in a context. -/
private theorem rule_tidy {tree : Green} (h : TriviaRule tree) {x : Green} {p : List Nat} {a b : List Lx}
    (hc : Ctx x tree p a b) (hp : 2 ≤ p.length) (hn : tree.isNode = true) : Tidy b x := by
  cases x with
  | token k w => trivial
  | node kind cs =>
    have hb : Below (Red.root tree) ⟨p, wlen a, .node kind cs⟩ := by
      have := ctx_below hc rfl [] 0
      rw [List.nil_append, Nat.zero_add] at this
      exact this
    refine ⟨fun l hl => ?_, fun k w hw => ?_⟩
    · cases ht : isTriv l with
      | false => rfl
      | true =>
        exfalso
        cases hx : Green.leavesL cs ++ b with
        | nil => rw [hx] at hl; simp at hl
        | cons y ys =>
          rw [hx] at hl
          simp only [List.head?_cons, Option.some.injEq] at hl
          subst hl
          have e := hc.leaves
          rw [Green.leaves, List.append_assoc, hx] at e
          obtain ⟨q, h1, w, h2, h3, h4⟩ := leafG tree hn [] 0 a ys e
          refine h.start _ w hb hp ⟨q, h1, h2, by rw [h3]; rfl, ?_⟩ ?_
          · show w.green.kind.isTrivia = true
            rw [h3]; exact ht
          · show w.off = wlen a
            rw [h4]; simp
    · cases ht : k.isTrivia with
      | false => rfl
      | true =>
        exfalso
        have e : (Red.elems ⟨p, wlen a, .node kind cs⟩).map (·.green) = cs := elems_greens p cs 0 (wlen a)
        rw [← e, List.getLast?_map] at hw
        obtain ⟨v, hv, hg⟩ := Option.map_eq_some_iff.1 hw
        refine h.last _ v hb hp hv ⟨_, hb, List.mem_of_getLast? hv, by rw [hg]; rfl, ?_⟩
        show v.green.kind.isTrivia = true
        rw [hg]; exact ht

/-- **C87**: parsing a text gives a tree without an error exactly if the tree is made of the tokens of the text, derives
from the grammar when white space and comments are left out, and has them where they belong. -/
theorem C87_parse (text : Text) (tree : Green) :
    parseText text = .ok (tree, []) ↔ MadeOf text tree ∧ Program .accepted (strip tree) ∧ TriviaRule tree := by
  constructor
  · intro h
    refine ⟨?_, strip_tree text tree h, C86_rule text tree [] h⟩
    obtain ⟨ls, ts, h1, h2, h3, h4, h5⟩ := parseText_main text
    obtain ⟨ls', tree', errors, h1', h', _, _, hl, ht, _⟩ := parseText_tree text
    obtain rfl := h1.unique h1'
    rw [h] at h5 h'
    simp only [Except.ok.injEq, Prod.mk.injEq] at h5 h'
    obtain ⟨rfl, rfl⟩ := h'
    refine ⟨ht, (Lexer.attach 0 ls).map (·.1), ?_, ?_⟩
    · rw [Lexer.tokenize_eq h1, (List.append_eq_nil_iff.1 h5.2.symm).2]
    · rw [hl, Lexer.attach_tokens]; simp [lxOf, Function.comp_def]
  · rintro ⟨⟨ht, tokens, htok, hl⟩, hp, hr⟩
    obtain ⟨ls, ts, h1, h2, h3, h4, h5⟩ := parseText_main text
    rw [Lexer.tokenize_eq h1] at htok
    simp only [Except.ok.injEq, Prod.mk.injEq] at htok
    obtain ⟨htok, herr⟩ := htok
    -- the tokens
    have hleaves : tree.leaves = ls.map lxOf := by
      refine leaves_eq (by rw [hl, ← htok, Lexer.attach_tokens]; simp [lxOf, Function.comp_def]) ?_
      rw [← text_leaves, ht, (lexemes_lx h1).1]
    obtain ⟨b, hb, hd⟩ := hp
    obtain ⟨k, cs, rfl⟩ : ∃ k cs, tree = .node k cs := by
      cases tree with
      | token k w => simp [strip] at hb
      | node k cs => exact ⟨k, cs, rfl⟩
    simp only [strip, PTree.node.injEq] at hb
    obtain ⟨rfl, hb⟩ := hb
    have hlen := hr.block
    have hcs : cs.length = 1 := by
      have e : (Red.root (.node SyntaxKind.sourceFile cs)).elems.map (·.green) = cs := elems_greens [] cs 0 0
      rw [← e, List.length_map]; exact hlen
    obtain ⟨c, rfl⟩ := List.length_eq_one_iff.1 hcs
    cases hd with
    | block us hus =>
      obtain ⟨gs, rfl, rfl⟩ : ∃ gs, c = .node .block gs ∧ stripL gs = us := by
        cases c with
        | token k w => by_cases hk : k.isTrivia = true <;> simp [stripL, hk, strip] at hb
        | node k gs => simp [stripL, strip] at hb; exact ⟨gs, by rw [hb.1], hb.2⟩
      have htidy : AllTidyL [] gs := by
        rintro pre c ds rfl x p a b hx
        have h6 : Ctx x (.node .sourceFile [.node .block (pre ++ c :: ds)]) (0 :: pre.length :: p) _ _ :=
          .down (pre := []) (post := []) (.down hx)
        have := rule_tidy hr h6 (by simp) rfl
        simpa [Green.leavesL] using this
      obtain ⟨z, -, e1, e2⟩ := tidy_list text.len gs [] htidy
      have hlv : Green.leavesL gs = ls.map lxOf := by simpa [Green.leaves, Green.leavesL] using hleaves
      have hy : yieldL (stripL gs) = realKinds (ls.map lxOf) := by
        rw [yield_stripL, hlv]
        simp only [realKinds, List.filter_map, List.map_map]
        rfl
      have hts : ts = stripL gs := by
        have h6 := parseKinds_complete (t := .node .sourceFile [.node .block (stripL gs)]) ⟨_, rfl, .block _ hus⟩
        simp only [yield, yieldL, List.append_nil, hy] at h6
        rw [h6] at h2
        simp only [Except.ok.injEq] at h2
        have := (calls_inj (.node .sourceFile [.node .block ts]) (.node .sourceFile [.node .block (stripL gs)]) [] [] [] []
          (by rw [h2]) (by simp [yield, yieldL, h3, hy])).1
        simpa using this
      subst hts
      rw [List.append_nil, hlv, List.append_nil] at e2
      rw [List.append_nil, hlv, ← e2] at e1
      have herrs : (placeL text.len (stripL gs) (ls.map lxOf)).errs = [] := placeL_no_errs _ _ _ (errors_stripL gs)
      rw [h5]
      simp only [herr, herrs, List.append_nil, ← e1]

/-! ### examples -/

/-- the tree of `if a then else end` -/
private def elseText : Text := "if a then else end".toList
private def elseGreen : Green :=
  .node .sourceFile [.node .block [.node .ifStmt [.token .ifKw "if".toList, .token .whitespace " ".toList,
  .node .nameRef [.token .ident "a".toList], .token .whitespace " ".toList, .token .thenKw "then".toList,
  .token .whitespace " ".toList, .node .block [], .node .elseBranch [.token .elseKw "else".toList,
  .token .whitespace " ".toList, .node .block []], .token .endKw "end".toList]]]

private theorem else_parses : parseText elseText = .ok (elseGreen, []) := by
  rw [parseText_eq_eval]; decide +kernel

/-- The tree is made of the tokens of the text and obeys the rule; the `else` branch ends with the space before `end`,
which is followed by the empty block: only the last element of a node is never white space. -/
example : (MadeOf elseText elseGreen ∧ TriviaRule elseGreen) ∧ ∃ r w b, NodeOf elseText .elseBranch r ∧
    r.elems = [⟨r.path ++ [0], 10, .token .elseKw "else".toList⟩, w, b] ∧ IsTrivia elseGreen w ∧
    b.range = ⟨15, 15⟩ ∧ w.range.stop = r.range.stop := by
  refine ⟨⟨((C87_parse _ _).1 else_parses).1, ((C87_parse _ _).1 else_parses).2.2⟩, ?_⟩
  obtain ⟨tree, h1, hb, hk⟩ := nodeOf_firstD (k := .elseBranch) else_parses (by decide +kernel)
  rw [else_parses] at h1
  simp only [Except.ok.injEq, Prod.mk.injEq, and_true] at h1
  subst h1
  refine ⟨_, ⟨[0, 0, 7, 1], 14, .token .whitespace " ".toList⟩, ⟨[0, 0, 7, 2], 15, .node .block []⟩,
    ⟨_, else_parses, hb, hk⟩, by decide +kernel,
    ⟨_, hb, ?_, rfl, rfl⟩, by decide +kernel, by decide +kernel⟩
  decide +kernel

end Verif
