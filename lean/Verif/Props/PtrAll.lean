import Verif.Props.PtrExact

/-
C109: what a syntax node pointer resolves to, in any tree.
-/
namespace Verif
open Spec

private theorem findIn_eq' (p : NodePtr) (path : List Nat) : ∀ (cs : List Green) (i off : Nat),
    NodePtr.findIn p path i off cs =
      (((Red.elemsFrom path i off cs).filter (·.green.isNode)).find? fun c => c.range.containsRange p.range).bind
        fun c => NodePtr.find p c.path c.off c.green := by
  intro cs
  induction cs with
  | nil => intro i off; simp [NodePtr.findIn, Red.elemsFrom]
  | cons g gs ih =>
    intro i off
    simp only [NodePtr.findIn, Red.elemsFrom, List.filter_cons]
    cases hn : g.isNode with
    | false => simp only [Bool.false_and, Bool.false_eq_true, if_false]; exact ih _ _
    | true =>
      simp only [Bool.true_and, if_true, List.find?_cons]
      by_cases h : (g.range off).containsRange p.range = true
      · simp [h, Red.range]
      · simp only [Bool.not_eq_true] at h
        simp [h, Red.range, ih]

/-- resolving a pointer from a node on -/
private theorem find_eq (p : NodePtr) (a : Red) (hn : a.green.isNode = true) :
    NodePtr.find p a.path a.off a.green =
      if NodePtr.new a = p then some a
      else (a.children.find? fun c => c.range.containsRange p.range).bind fun c => NodePtr.find p c.path c.off c.green := by
  rcases a with ⟨path, off, g⟩
  cases g with
  | token => simp [Green.isNode] at hn
  | node k cs =>
    simp only [NodePtr.find]
    by_cases h : (Green.node k cs).range off = p.range ∧ k = p.kind
    · rw [if_pos h, if_pos]
      rcases p with ⟨pr, pk⟩
      simp only [NodePtr.new, Red.range, Red.kind, Green.kind, NodePtr.mk.injEq]
      exact h
    · rw [if_neg h, if_neg, findIn_eq']
      · rfl
      · rintro rfl
        exact h ⟨rfl, rfl⟩

private theorem ctrans {a b c : Range} (h1 : a.containsRange b = true) (h2 : b.containsRange c = true) :
    a.containsRange c = true := by
  simp only [Range.containsRange, Bool.and_eq_true, decide_eq_true_eq] at *
  omega

private theorem above_of_child {a c r : Red} (hc : c ∈ a.children) (h : Below c r) : Above a r := by
  obtain ⟨j, hj⟩ := child_path hc
  obtain ⟨t, ht⟩ := below_prefix h
  exact ⟨j, t, by rw [← ht, hj]; simp⟩

private theorem not_above {a r : Red} (h : Below r a) : ¬ Above a r := by
  rintro ⟨i, s, e⟩
  have := (below_prefix h).length_le
  rw [e] at this
  simp at this
  omega

private theorem not_left {a r : Red} (h : Below r a ∨ Below a r) : ¬ Left a r := by
  rintro ⟨p, i, j, s, t, e1, e2, hlt⟩
  have key : ∀ {x y : List Nat}, x = p ++ i :: s → y = p ++ j :: t → ¬ (x <+: y) ∧ ¬ (y <+: x) := by
    intro x y hx hy
    subst hx hy
    constructor
    · intro hh
      rw [List.prefix_append_right_inj, List.cons_prefix_cons] at hh
      omega
    · intro hh
      rw [List.prefix_append_right_inj, List.cons_prefix_cons] at hh
      omega
  rcases h with h | h
  · exact (key e1 e2).2 (below_prefix h)
  · exact (key e1 e2).1 (below_prefix h)

/-- for nodes on the left of each other, what is below them is -/
private theorem left_below {c c' a r : Red} (h : Left c c') (ha : Below c a) (hr : Below c' r) : Left a r :=
  left_append h (below_prefix ha) (below_prefix hr)

private theorem find?_split {l : List Red} {q : Red → Bool} {c : Red} (h : l.find? q = some c) :
    ∃ xs ys, l = xs ++ c :: ys ∧ q c = true ∧ ∀ x ∈ xs, q x = false := by
  induction l with
  | nil => simp at h
  | cons x xs ih =>
    rw [List.find?_cons] at h
    cases hq : q x with
    | true => rw [hq] at h; simp at h; subst h; exact ⟨[], xs, rfl, hq, by simp⟩
    | false =>
      rw [hq] at h
      obtain ⟨us, ys, e, h1, h2⟩ := ih h
      exact ⟨x :: us, ys, by rw [e]; rfl, h1, by intro z hz; exact (List.mem_cons.1 hz).elim (fun h => h ▸ hq) (h2 z)⟩

/-- two different children of a node: one is on the left of the other -/
private theorem children_cmp {a c c' : Red} (hc : c ∈ a.children) (hc' : c' ∈ a.children) : c = c' ∨ Left c c' ∨ Left c' c := by
  obtain ⟨i, hi⟩ := child_path hc
  obtain ⟨j, hj⟩ := child_path hc'
  rcases Nat.lt_trichotomy i j with h | h | h
  · exact .inr (.inl ⟨a.path, i, j, [], [], hi, hj, h⟩)
  · subst h; exact .inl (pairwise_path_inj (children_left a) hc hc' (by rw [hi, hj]))
  · exact .inr (.inr ⟨a.path, j, i, [], [], hj, hi, h⟩)

private theorem left_asymm {a b : Red} (h : Left a b) : ¬ Left b a := by
  rintro ⟨p', i', j', s', t', f1, f2, hlt'⟩
  obtain ⟨p, i, j, s, t, e1, e2, hlt⟩ := h
  rw [e2] at f1
  rw [e1] at f2
  -- the paths part at one place
  have key : ∀ (p p' : List Nat) (i j i' j' : Nat) (s t s' t' : List Nat), p ++ j :: t = p' ++ i' :: s' →
      p ++ i :: s = p' ++ j' :: t' → i < j → i' < j' → False := by
    intro p
    induction p with
    | nil =>
      intro p' i j i' j' s t s' t' h1 h2 hl hl'
      cases p' with
      | nil => simp at h1 h2; omega
      | cons x xs => simp at h1 h2; omega
    | cons y ys ih =>
      intro p' i j i' j' s t s' t' h1 h2 hl hl'
      cases p' with
      | nil => simp at h1 h2; omega
      | cons x xs => simp at h1 h2; exact ih xs i j i' j' s t s' t' h1.2 h2.2 hl hl'
  exact key p p' i j i' j' s t s' t' f1 f2 hlt hlt'

private theorem find_iff (p : NodePtr) (r a : Red) : a.green.isNode = true →
    (NodePtr.find p a.path a.off a.green = some r ↔
      Below a r ∧ NodePtr.new r = p ∧ (∀ b, Below a b → Above b r → NodePtr.new b ≠ p) ∧
        (∀ b, Below a b → Left b r → b.range.containsRange p.range = false)) := by
  refine red_ind (P := fun a => a.green.isNode = true →
    (NodePtr.find p a.path a.off a.green = some r ↔
      Below a r ∧ NodePtr.new r = p ∧ (∀ b, Below a b → Above b r → NodePtr.new b ≠ p) ∧
        (∀ b, Below a b → Left b r → b.range.containsRange p.range = false))) ?_ a
  intro a ih hn
  rw [find_eq p a hn]
  by_cases hp : NodePtr.new a = p
  · rw [if_pos hp]
    constructor
    · intro h
      cases h
      exact ⟨.self, hp, fun b hb ha => absurd ha (not_above hb), fun b hb hl => absurd hl (not_left (.inl hb))⟩
    · rintro ⟨h1, h2, h3, h4⟩
      rcases below_cases h1 with e | ⟨c, hc, hb⟩
      · rw [e]
      · exact absurd hp (h3 a .self (above_of_child hc hb))
  · rw [if_neg hp]
    constructor
    · intro h
      obtain ⟨c, h1, h2⟩ := Option.bind_eq_some_iff.1 h
      obtain ⟨xs, ys, e, hq, hx⟩ := find?_split h1
      have hc : c ∈ a.children := by rw [e]; simp
      obtain ⟨i1, i2, i3, i4⟩ := (ih c hc (child_node hc)).1 h2
      refine ⟨below_of_child hc i1, i2, ?_, ?_⟩
      · intro b hb hab
        rcases below_cases hb with rfl | ⟨c', hc', hb'⟩
        · exact hp
        · rcases children_cmp hc hc' with rfl | hl | hl
          · exact i3 b hb' hab
          · exact absurd (left_below hl i1 hb') (fun hl => by
              obtain ⟨j, t, ht⟩ := hab
              obtain ⟨q, i, k, s, u, e1, e2, hlt⟩ := hl
              rw [e1, e2] at ht
              simp at ht
              omega)
          · exact absurd (left_below hl hb' i1) (fun hl => by
              obtain ⟨j, t, ht⟩ := hab
              obtain ⟨q, i, k, s, u, e1, e2, hlt⟩ := hl
              rw [e1, e2] at ht
              simp at ht
              omega)
      · intro b hb hbl
        rcases below_cases hb with rfl | ⟨c', hc', hb'⟩
        · exact absurd hbl (not_left (.inr (below_of_child hc i1)))
        · rcases children_cmp hc hc' with rfl | hl | hl
          · exact i4 b hb' hbl
          · exact absurd (left_below hl i1 hb') (left_asymm hbl)
          · have hc'x : c' ∈ xs := by
              rw [e] at hc'
              have hpw := children_left a
              rw [e] at hpw
              obtain ⟨_, hpw2, _⟩ := List.pairwise_append.1 hpw
              rw [List.pairwise_cons] at hpw2
              rcases List.mem_append.1 hc' with h | h
              · exact h
              · rcases List.mem_cons.1 h with rfl | h
                · exact absurd hl (fun h => left_ne h rfl)
                · exact absurd (hpw2.1 c' h) (left_asymm hl)
            have := hx c' hc'x
            cases hbc : b.range.containsRange p.range with
            | false => rfl
            | true => rw [ctrans (below_range hb') hbc] at this; cases this
    · rintro ⟨h1, h2, h3, h4⟩
      rcases below_cases h1 with rfl | ⟨c, hc, hb⟩
      · exact absurd h2 hp
      · have hfind : a.children.find? (fun c => c.range.containsRange p.range) = some c := by
          obtain ⟨xs, ys, e⟩ := List.append_of_mem hc
          rw [e]
          rw [List.find?_append]
          have hnone : xs.find? (fun c => c.range.containsRange p.range) = none := by
            rw [List.find?_eq_none]
            intro x hx
            have hpw := children_left a
            rw [e] at hpw
            have hl := (List.pairwise_append.1 hpw).2.2 x hx c (by simp)
            have hxa : x ∈ a.children := by rw [e]; simp [hx]
            rw [h4 x (.child .self hxa) (left_below hl .self hb)]
            simp
          rw [hnone, Option.none_or, List.find?_cons, show c.range.containsRange p.range = true by
            rw [← h2]; exact below_range hb]
        rw [hfind]
        refine (ih c hc (child_node hc)).2 ⟨hb, h2, fun b hb' hab => h3 b (below_of_child hc hb') hab,
          fun b hb' hl => h4 b (below_of_child hc hb') hl⟩

/-- **C109** What a pointer resolves to in a tree, any pointer (also one made from another tree) and any tree: the node
with its range and kind that has no such node above it, and no node to its left that contains the range (which only
happens if the node is empty and the other one ends where it stands).  If there is no such node, it does not resolve
(the code panics). -/
theorem C109_resolves (tree : Green) (h : tree.isNode = true) (p : NodePtr) (r : Red) :
    p.toNode tree = some r ↔
      Below (Red.root tree) r ∧ r.range = p.range ∧ r.kind = p.kind ∧
      (∀ a, Below (Red.root tree) a → Above a r → ¬ (a.range = p.range ∧ a.kind = p.kind)) ∧
      (∀ a, Below (Red.root tree) a → Left a r → a.range.containsRange p.range = false) := by
  rw [show p.toNode tree = NodePtr.find p (Red.root tree).path (Red.root tree).off (Red.root tree).green from rfl,
    find_iff p r (Red.root tree) h]
  have hnew : ∀ b : Red, NodePtr.new b = p ↔ b.range = p.range ∧ b.kind = p.kind := by
    intro b
    rcases p with ⟨pr, pk⟩
    simp [NodePtr.new]
  simp only [hnew, ne_eq, and_assoc]

/-- a node on the left of another ends before it -/
theorem left_ends {root a b : Red} (ha : Below root a) (hb : Below root b) (h : Left a b) :
    a.range.stop ≤ b.range.start := by
  suffices H : ∀ root : Red, Below root a → Below root b → a.range.stop ≤ b.range.start from H root ha hb
  refine red_ind (P := fun root => Below root a → Below root b → a.range.stop ≤ b.range.start) ?_
  intro root ih ha hb
  rcases below_cases ha with rfl | ⟨c, hc, ha'⟩
  · exact absurd h (not_left (.inr hb))
  rcases below_cases hb with rfl | ⟨c', hc', hb'⟩
  · exact absurd h (not_left (.inl ha))
  rcases children_cmp hc hc' with rfl | hl | hl
  · exact ih c hc ha' hb'
  · have hpw := (elemsFrom_ranges root.path root.green.children 0 root.off).1.filter (fun c => c.green.isNode)
    have hpl := children_left root
    have h1 := below_range ha'
    have h2 := below_range hb'
    have h3 : c.range.stop ≤ c'.range.start := by
      obtain ⟨xs, ys, e⟩ := List.append_of_mem hc
      have hm := hc'
      rw [show root.children = _ from e] at hm hpl
      have hpw' : (xs ++ c :: ys).Pairwise (fun a b : Red => a.range.stop ≤ b.range.start) := by rw [← e]; exact hpw
      obtain ⟨_, q2, q3⟩ := List.pairwise_append.1 hpl
      obtain ⟨_, p2, _⟩ := List.pairwise_append.1 hpw'
      rcases List.mem_append.1 hm with hm | hm
      · exact absurd (q3 c' hm c (by simp)) (left_asymm hl)
      · rcases List.mem_cons.1 hm with rfl | hm
        · exact absurd rfl (left_ne hl)
        · exact (List.pairwise_cons.1 p2).1 c' hm
    simp only [Range.containsRange, Bool.and_eq_true, decide_eq_true_eq] at h1 h2
    omega
  · exact absurd (left_below hl hb' ha') (left_asymm h)

/-- **C109** A pointer resolves back to the node it was made from exactly if no node above that has its range and
kind, and, if it is empty, no node to its left ends where it stands. -/
theorem C109_same_node (tree : Green) (h : tree.isNode = true) (r : Red) (hb : Below (Red.root tree) r) :
    (NodePtr.new r).toNode tree = some r ↔
      (∀ a, Below (Red.root tree) a → Above a r → ¬ (a.range = r.range ∧ a.kind = r.kind)) ∧
      (r.green.text = [] → ∀ a, Below (Red.root tree) a → Left a r → a.range.stop ≠ r.range.start) := by
  rw [C109_resolves tree h]
  constructor
  · rintro ⟨_, _, _, h1, h2⟩
    refine ⟨h1, fun he a ha hl e => ?_⟩
    have := h2 a ha hl
    have h3 : r.range.stop = r.range.start := by
      simp [Red.range, Green.range, Range.ofLen, Green.len, he]
    have h4 : a.range.start ≤ a.range.stop := by simp [Red.range, Green.range, Range.ofLen]
    have h5 : a.range.containsRange r.range = true := by
      simp only [Range.containsRange, Bool.and_eq_true, decide_eq_true_eq]
      have := left_ends ha hb hl
      omega
    rw [show (NodePtr.new r).range = r.range from rfl, h5] at this
    cases this
  · rintro ⟨h1, h2⟩
    refine ⟨hb, rfl, rfl, h1, fun a ha hl => ?_⟩
    cases hc : a.range.containsRange r.range with
    | false => exact hc
    | true =>
      exfalso
      have h5 := left_ends ha hb hl
      have h6 : r.range.start ≤ r.range.stop := by simp [Red.range, Green.range, Range.ofLen]
      simp only [Range.containsRange, Bool.and_eq_true, decide_eq_true_eq] at hc
      by_cases he : r.green.text = []
      · exact h2 he a ha hl (by omega)
      · have h7 := Text.len_pos he
        have h8 : r.range.stop = r.range.start + r.green.len := rfl
        have h9 : r.green.len = Text.len r.green.text := rfl
        omega

private def doTree : Green := .node .sourceFile [.node .block [.node .doStmt [.token .doKw "do".toList,
  .token .whitespace [' '], .node .block [], .token .endKw "end".toList]]]

/-- A pointer to an empty block that resolves to it (in `do end`; in `function f()end` it does not, see
`C51_empty_block_fails`), and pointers that do not resolve: the range of no node, another kind. -/
example : parseText "do end".toList = .ok (doTree, []) ∧
    (NodePtr.mk ⟨3, 3⟩ .block).toNode doTree = some ⟨[0, 0, 2], 3, .node .block []⟩ ∧
    (NodePtr.mk ⟨2, 3⟩ .block).toNode doTree = none ∧ (NodePtr.mk ⟨3, 3⟩ .doStmt).toNode doTree = none :=
  ⟨by rw [parseText_eq_eval]; decide +kernel, rfl, rfl, rfl⟩

end Verif
