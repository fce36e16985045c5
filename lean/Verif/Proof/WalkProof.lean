import Verif.Model.Ptr
import Verif.Spec.Walk
import Verif.Proof.TextLemmas

/-
Lemmas about navigation in trees.
-/
namespace Verif
open Spec

theorem elemsFrom_path {path : List Nat} : ∀ {cs : List Green} {i off : Nat} {r : Red}, r ∈ Red.elemsFrom path i off cs →
    ∃ j, i ≤ j ∧ r.path = path ++ [j] := by
  intro cs
  induction cs with
  | nil => intro i off r h; simp [Red.elemsFrom] at h
  | cons g gs ih =>
    intro i off r h
    rcases List.mem_cons.1 h with rfl | h
    · exact ⟨i, Nat.le_refl _, rfl⟩
    · obtain ⟨j, h1, h2⟩ := ih h; exact ⟨j, by omega, h2⟩

theorem left_append {a b a' b' : Red} (h : Left a b) (ha : a.path <+: a'.path) (hb : b.path <+: b'.path) : Left a' b' := by
  obtain ⟨p, i, j, s, t, h1, h2, h3⟩ := h
  obtain ⟨x, hx⟩ := ha
  obtain ⟨y, hy⟩ := hb
  exact ⟨p, i, j, s ++ x, t ++ y, by rw [← hx, h1]; simp, by rw [← hy, h2]; simp, h3⟩

theorem elemsFrom_left {path : List Nat} : ∀ {cs : List Green} {i off : Nat},
    (Red.elemsFrom path i off cs).Pairwise Left := by
  intro cs
  induction cs with
  | nil => intro i off; simp [Red.elemsFrom]
  | cons g gs ih =>
    intro i off
    refine List.pairwise_cons.2 ⟨?_, ih⟩
    intro r hr
    obtain ⟨j, h1, h2⟩ := elemsFrom_path hr
    exact ⟨path, i, j, [], [], by simp, by simp [h2], by omega⟩

theorem children_left (r : Red) : r.children.Pairwise Left := elemsFrom_left.filter _

theorem child_path {r c : Red} (h : c ∈ r.children) : ∃ j, c.path = r.path ++ [j] := by
  obtain ⟨j, _, h⟩ := elemsFrom_path (List.mem_filter.1 h).1
  exact ⟨j, h⟩

theorem child_node {r c : Red} (h : c ∈ r.children) : c.green.isNode = true := (List.mem_filter.1 h).2

theorem left_ne {a b : Red} (h : Left a b) : a.path ≠ b.path := by
  obtain ⟨p, i, j, s, t, h1, h2, h3⟩ := h
  rw [h1, h2]
  intro e
  have := List.append_cancel_left e
  simp at this
  omega

theorem above_ne {a b : Red} (h : Above a b) : a.path ≠ b.path := by
  obtain ⟨i, s, h⟩ := h
  rw [h]
  intro e
  have := congrArg List.length e
  simp at this

theorem documentOrder_ne {a b : Red} (h : DocumentOrder a b) : a.path ≠ b.path :=
  h.elim left_ne above_ne

theorem pairwise_path_inj {l : List Red} (h : l.Pairwise Left) {a b : Red} (ha : a ∈ l) (hb : b ∈ l) (e : a.path = b.path) :
    a = b := by
  induction l with
  | nil => simp at ha
  | cons x xs ih =>
    rw [List.pairwise_cons] at h
    rcases List.mem_cons.1 ha with e1 | ha'
    · rcases List.mem_cons.1 hb with e2 | hb'
      · rw [e1, e2]
      · exact absurd e (left_ne (e1 ▸ h.1 b hb'))
    · rcases List.mem_cons.1 hb with e2 | hb'
      · exact absurd e.symm (left_ne (e2 ▸ h.1 a ha'))
      · exact ih h.2 ha' hb'

/-- a node of a tree is determined by its path -/
theorem below_path_inj {root a b : Red} (ha : Below root a) (hb : Below root b) (e : a.path = b.path) : a = b := by
  have pre : ∀ {r}, Below root r → root.path <+: r.path := by
    intro r h
    induction h with
    | self => exact List.prefix_refl _
    | child _ hc ih => obtain ⟨j, hj⟩ := child_path hc; rw [hj]; exact ih.trans (List.prefix_append _ _)
  induction ha generalizing b with
  | self =>
    cases hb with
    | self => rfl
    | child hp hc =>
      obtain ⟨j, hj⟩ := child_path hc
      have := (pre hp).length_le
      have e' := congrArg List.length e
      rw [hj] at e'
      simp at e'
      omega
  | child hp hc ih =>
    obtain ⟨j, hj⟩ := child_path hc
    cases hb with
    | self =>
      have := (pre hp).length_le
      have e' := congrArg List.length e
      rw [hj] at e'
      simp at e'
      omega
    | child hp' hc' =>
      obtain ⟨j', hj'⟩ := child_path hc'
      rw [hj, hj'] at e
      have e1 := (List.append_inj' e rfl)
      have := ih hp' e1.1
      subst this
      exact pairwise_path_inj (children_left _) hc hc' (by rw [hj, hj', e1.2])

theorem Spec.Level.toBelow {f root k r} (h : Level f root k r) : Below root r := by
  induction h with
  | self => exact .self
  | child _ hc ih => exact .child ih hc

theorem Spec.Below.level {f root r} (h : Below root r) : ∃ k, Level f root k r := by
  induction h with
  | self => exact ⟨0, .self⟩
  | child _ hc ih => obtain ⟨k, hk⟩ := ih; exact ⟨_, .child hk hc⟩

theorem below_prefix {root r : Red} (h : Below root r) : root.path <+: r.path := by
  induction h with
  | self => exact List.prefix_refl _
  | child _ hc ih => obtain ⟨j, hj⟩ := child_path hc; rw [hj]; exact ih.trans (List.prefix_append _ _)

theorem level_unique {f root k k' r} (h : Level f root k r) (h' : Level f root k' r) : k = k' := by
  induction h generalizing k' with
  | self =>
    cases h' with
    | self => rfl
    | child hp hc =>
      obtain ⟨j, hj⟩ := child_path hc
      have := (below_prefix hp.toBelow).length_le
      have e' := congrArg List.length hj
      simp at e'
      omega
  | child hp hc ih =>
    obtain ⟨j, hj⟩ := child_path hc
    cases h' with
    | self =>
      have := (below_prefix hp.toBelow).length_le
      have e' := congrArg List.length hj
      simp at e'
      omega
    | child hp' hc' =>
      obtain ⟨j', hj'⟩ := child_path hc'
      rw [hj] at hj'
      have := below_path_inj hp.toBelow hp'.toBelow (List.append_inj' hj' rfl).1
      subst this
      rw [ih hp']

/-- what the walk over one node of a layer does -/
structure Visited (f : Red → Bool) (root : Red) (k : Nat) (path : List Nat) (v n : List Red) : Prop where
  level : ∀ a ∈ v, Level f root k a ∧ path <+: a.path
  order : v.Pairwise DocumentOrder
  nextLevel : ∀ a ∈ n, Level f root (k + 1) a ∧ path <+: a.path ∧ a.green.isNode = true
  nextOrder : n.Pairwise Left
  stay : ∀ a ∈ v, f a = false → ∀ c ∈ a.children, c ∈ v
  move : ∀ a ∈ v, f a = true → ∀ c ∈ a.children, c ∈ n

/-- the same over a list of nodes each to the left of the next -/
theorem Visited.flat {f root k} {rs : List Red} {V N : Red → List Red} (hl : rs.Pairwise Left)
    (h : ∀ r ∈ rs, Visited f root k r.path (V r) (N r)) {path : List Nat} (hp : ∀ r ∈ rs, path <+: r.path) :
    Visited f root k path (rs.flatMap V) (rs.flatMap N) := by
  refine ⟨?_, ?_, ?_, ?_, ?_, ?_⟩
  · intro a ha
    obtain ⟨r, hr, ha⟩ := List.mem_flatMap.1 ha
    have := (h r hr).level a ha
    exact ⟨this.1, (hp r hr).trans this.2⟩
  · induction rs with
    | nil => simp
    | cons r rs ih =>
      rw [List.pairwise_cons] at hl
      rw [List.flatMap_cons]
      refine List.pairwise_append.2 ⟨(h r (by simp)).order,
        ih hl.2 (fun x hx => h x (by simp [hx])) (fun x hx => hp x (by simp [hx])), ?_⟩
      intro a ha b hb
      obtain ⟨r', hr', hb⟩ := List.mem_flatMap.1 hb
      exact .inl (left_append (hl.1 r' hr') ((h r (by simp)).level a ha).2 ((h r' (by simp [hr'])).level b hb).2)
  · intro a ha
    obtain ⟨r, hr, ha⟩ := List.mem_flatMap.1 ha
    have := (h r hr).nextLevel a ha
    exact ⟨this.1, (hp r hr).trans this.2.1, this.2.2⟩
  · induction rs with
    | nil => simp
    | cons r rs ih =>
      rw [List.pairwise_cons] at hl
      rw [List.flatMap_cons]
      refine List.pairwise_append.2 ⟨(h r (by simp)).nextOrder,
        ih hl.2 (fun x hx => h x (by simp [hx])) (fun x hx => hp x (by simp [hx])), ?_⟩
      intro a ha b hb
      obtain ⟨r', hr', hb⟩ := List.mem_flatMap.1 hb
      exact left_append (hl.1 r' hr') ((h r (by simp)).nextLevel a ha).2.1 ((h r' (by simp [hr'])).nextLevel b hb).2.1
  · intro a ha hf c hc
    obtain ⟨r, hr, ha⟩ := List.mem_flatMap.1 ha
    exact List.mem_flatMap.2 ⟨r, hr, (h r hr).stay a ha hf c hc⟩
  · intro a ha hf c hc
    obtain ⟨r, hr, ha⟩ := List.mem_flatMap.1 ha
    exact List.mem_flatMap.2 ⟨r, hr, (h r hr).move a ha hf c hc⟩

/-- the walk over one node of a layer, as functions of the node -/
def visV (f : Red → Bool) (r : Red) : List Red := (bdfsVisit f r.path r.off r.green).1
def visN (f : Red → Bool) (r : Red) : List Red := (bdfsVisit f r.path r.off r.green).2

theorem visitL_eq (f : Red → Bool) (path : List Nat) : ∀ (cs : List Green) (i off : Nat),
    bdfsVisitL f path i off cs = (((Red.elemsFrom path i off cs).filter (·.green.isNode)).flatMap (visV f),
      ((Red.elemsFrom path i off cs).filter (·.green.isNode)).flatMap (visN f)) := by
  intro cs
  induction cs with
  | nil => intro i off; simp [bdfsVisitL, Red.elemsFrom]
  | cons g gs ih =>
    intro i off
    simp only [bdfsVisitL, Red.elemsFrom, ih]
    cases g with
    | token k t => simp [bdfsVisit, Green.isNode]
    | node k cs => simp [Green.isNode, visV, visN]

theorem vis_node (f : Red → Bool) (r : Red) (h : r.green.isNode = true) :
    visV f r = (if f r then [r] else r :: r.children.flatMap (visV f)) ∧
    visN f r = (if f r then r.children else r.children.flatMap (visN f)) := by
  rcases r with ⟨path, off, g⟩
  cases g with
  | token => simp [Green.isNode] at h
  | node k cs =>
    unfold visV visN
    simp only [bdfsVisit]
    split
    · exact ⟨rfl, rfl⟩
    · simp only [visitL_eq]
      exact ⟨rfl, rfl⟩

/-- number of nodes of a tree -/
def Green.count (g : Green) : Nat := (g.nodes 0).length

theorem nodes_length (g : Green) (a b : Nat) : (g.nodes a).length = (g.nodes b).length := by
  suffices H : (∀ (g : Green) (a b : Nat), (g.nodes a).length = (g.nodes b).length) ∧
      (∀ (cs : List Green) (a b : Nat), (Green.nodesL a cs).length = (Green.nodesL b cs).length) from H.1 g a b
  suffices H : ∀ n, (∀ (g : Green), sizeOf g < n → ∀ (a b : Nat), (g.nodes a).length = (g.nodes b).length) ∧
      (∀ (cs : List Green), sizeOf cs < n → ∀ (a b : Nat), (Green.nodesL a cs).length = (Green.nodesL b cs).length) from
    ⟨fun g => (H (sizeOf g + 1)).1 g (by omega), fun cs => (H (sizeOf cs + 1)).2 cs (by omega)⟩
  intro n
  induction n with
  | zero => exact ⟨fun g h => by omega, fun g h => by omega⟩
  | succ n ih =>
    refine ⟨?_, ?_⟩
    · intro g hg a b
      cases g with
      | token => simp [Green.nodes]
      | node k cs =>
        simp only [Green.nodes, List.length_cons]
        rw [ih.2 cs (by simp at hg; omega) a b]
    · intro cs hg a b
      cases cs with
      | nil => simp [Green.nodesL]
      | cons g gs =>
        simp only [Green.nodesL, List.length_append]
        rw [ih.1 g (by simp at hg; omega) a b, ih.2 gs (by simp at hg; omega) (a + g.len) (b + g.len)]

theorem nodesL_ge (path : List Nat) : ∀ (cs : List Green) (i off o : Nat) (c : Red), c ∈ Red.elemsFrom path i off cs →
    c.green.count ≤ (Green.nodesL o cs).length := by
  intro cs
  induction cs with
  | nil => intro i off o c h; simp [Red.elemsFrom] at h
  | cons g gs ih =>
    intro i off o c h
    simp only [Green.nodesL, List.length_append]
    rcases List.mem_cons.1 h with rfl | h
    · simp only [Green.count]; rw [nodes_length g 0 o]; omega
    · have := ih (i + 1) (off + g.len) (o + g.len) c h; omega

theorem count_child {r c : Red} (h : c ∈ r.children) : c.green.count < r.green.count := by
  rcases r with ⟨path, off, g⟩
  have hm := (List.mem_filter.1 h).1
  unfold Red.elems at hm
  cases g with
  | token => simp [Green.children, Red.elemsFrom] at hm
  | node k cs =>
    have := nodesL_ge path cs 0 off 0 c hm
    simp only [Green.count, Green.nodes, List.length_cons] at this ⊢
    omega

/-- induction over a tree -/
theorem red_ind {P : Red → Prop} (h : ∀ r, (∀ c ∈ r.children, P c) → P r) (r : Red) : P r := by
  suffices H : ∀ n r, Green.count r.green < n → P r from H _ r (Nat.lt_succ_self _)
  intro n
  induction n with
  | zero => intro r h; omega
  | succ n ih =>
    intro r hr
    exact h r (fun c hc => ih c (by have := count_child hc; omega))

theorem vis_spec (f : Red → Bool) (root r : Red) : ∀ k, r.green.isNode = true → Level f root k r →
    Visited f root k r.path (visV f r) (visN f r) ∧ r ∈ visV f r ∧ ∀ a ∈ visN f r, a.green.count < r.green.count := by
  refine red_ind (P := fun r => ∀ k, r.green.isNode = true → Level f root k r →
    Visited f root k r.path (visV f r) (visN f r) ∧ r ∈ visV f r ∧ ∀ a ∈ visN f r, a.green.count < r.green.count) ?_ r
  intro r ih k hn hl
  obtain ⟨e1, e2⟩ := vis_node f r hn
  rw [e1, e2]
  cases hf : f r with
  | true =>
    simp only [if_true]
    refine ⟨⟨?_, by simp, ?_, children_left r, ?_, ?_⟩, by simp, fun a ha => count_child ha⟩
    · intro a ha; simp at ha; subst ha; exact ⟨hl, List.prefix_refl _⟩
    · intro a ha
      refine ⟨?_, ?_, child_node ha⟩
      · have := Level.child hl ha; rwa [hf, if_pos rfl] at this
      · obtain ⟨j, hj⟩ := child_path ha; rw [hj]; exact List.prefix_append _ _
    · intro a ha hfa; simp at ha; subst ha; rw [hf] at hfa; simp at hfa
    · intro a ha _ c hc; simp at ha; subst ha; exact hc
  | false =>
    simp only [Bool.false_eq_true, if_false]
    have hlc : ∀ c ∈ r.children, Level f root k c := by
      intro c hc; have := Level.child hl hc; rwa [hf, if_neg (by simp)] at this
    have hflat := Visited.flat (f := f) (root := root) (k := k) (V := visV f) (N := visN f) (children_left r)
      (fun c hc => (ih c hc k (child_node hc) (hlc c hc)).1) (path := r.path)
      (fun c hc => by obtain ⟨j, hj⟩ := child_path hc; rw [hj]; exact List.prefix_append _ _)
    refine ⟨⟨?_, ?_, hflat.nextLevel, hflat.nextOrder, ?_, ?_⟩, by simp, ?_⟩
    · intro a ha
      rcases List.mem_cons.1 ha with rfl | ha
      · exact ⟨hl, List.prefix_refl _⟩
      · exact hflat.level a ha
    · refine List.pairwise_cons.2 ⟨?_, hflat.order⟩
      intro a ha
      obtain ⟨c, hc, ha⟩ := List.mem_flatMap.1 ha
      obtain ⟨j, hj⟩ := child_path hc
      obtain ⟨t, ht⟩ := ((ih c hc k (child_node hc) (hlc c hc)).1.level a ha).2
      exact .inr ⟨j, t, by rw [← ht, hj]; simp⟩
    · intro a ha hfa c hc
      rcases List.mem_cons.1 ha with rfl | ha
      · exact List.mem_cons_of_mem _ (List.mem_flatMap.2 ⟨c, hc, (ih c hc k (child_node hc) (hlc c hc)).2.1⟩)
      · exact List.mem_cons_of_mem _ (hflat.stay a ha hfa c hc)
    · intro a ha hfa c hc
      rcases List.mem_cons.1 ha with rfl | ha
      · rw [hf] at hfa; simp at hfa
      · exact hflat.move a ha hfa c hc
    · intro a ha
      obtain ⟨c, hc, ha⟩ := List.mem_flatMap.1 ha
      have := (ih c hc k (child_node hc) (hlc c hc)).2.2 a ha
      have := count_child hc
      omega

theorem count_pos {g : Green} (h : g.isNode = true) : 0 < g.count := by
  cases g with
  | token => simp [Green.isNode] at h
  | node k cs => simp [Green.count, Green.nodes]

/-- the loop over the layers -/
theorem bdfsLoop_spec (f : Red → Bool) (root : Red) : ∀ (fuel n k : Nat) (layer : List Red), n < fuel →
    (∀ r ∈ layer, r.green.isNode = true ∧ Level f root k r ∧ r.green.count ≤ n) → layer.Pairwise Left →
    ∃ vs, bdfsLoop f fuel layer = some vs ∧ (∀ r ∈ layer, r ∈ vs) ∧
      (∀ a ∈ vs, ∃ j, k ≤ j ∧ Level f root j a) ∧
      vs.Pairwise (fun a b => ∀ i j, Level f root i a → Level f root j b → i < j ∨ (i = j ∧ DocumentOrder a b)) ∧
      (∀ a ∈ vs, ∀ c ∈ a.children, c ∈ vs) := by
  intro fuel
  induction fuel with
  | zero => intro n k layer h; omega
  | succ fuel ih =>
    intro n k layer hn hlay hleft
    simp only [bdfsLoop]
    by_cases he : layer = []
    · subst he
      exact ⟨[], by simp, by simp, by simp, by simp, by simp⟩
    · rw [if_neg (by simpa using he)]
      have hV := Visited.flat (f := f) (root := root) (k := k) (V := visV f) (N := visN f) hleft
        (fun r hr => (vis_spec f root r k (hlay r hr).1 (hlay r hr).2.1).1) (path := []) (fun r _ => List.nil_prefix)
      obtain ⟨r0, hr0⟩ := List.exists_mem_of_ne_nil layer he
      have hn0 : 0 < n := by have := count_pos (hlay r0 hr0).1; have := (hlay r0 hr0).2.2; omega
      obtain ⟨vs, h1, h2, h3, h4, h5⟩ := ih (n - 1) (k + 1) (layer.flatMap (visN f)) (by omega) (by
        intro a ha
        obtain ⟨hl, _, hnode⟩ := hV.nextLevel a ha
        obtain ⟨r, hr, ha⟩ := List.mem_flatMap.1 ha
        have := (vis_spec f root r k (hlay r hr).1 (hlay r hr).2.1).2.2 a ha
        have := (hlay r hr).2.2
        exact ⟨hnode, hl, by omega⟩) hV.nextOrder
      have e1 : (layer.map fun r => bdfsVisit f r.path r.off r.green).flatMap (·.2) = layer.flatMap (visN f) := by
        rw [List.flatMap_map]; rfl
      have e2 : (layer.map fun r => bdfsVisit f r.path r.off r.green).flatMap (·.1) = layer.flatMap (visV f) := by
        rw [List.flatMap_map]; rfl
      rw [e1, e2, h1]
      refine ⟨layer.flatMap (visV f) ++ vs, rfl, ?_, ?_, ?_, ?_⟩
      · intro r hr
        exact List.mem_append_left _
          (List.mem_flatMap.2 ⟨r, hr, (vis_spec f root r k (hlay r hr).1 (hlay r hr).2.1).2.1⟩)
      · intro a ha
        rcases List.mem_append.1 ha with ha | ha
        · exact ⟨k, Nat.le_refl _, (hV.level a ha).1⟩
        · obtain ⟨j, hj, hl⟩ := h3 a ha; exact ⟨j, by omega, hl⟩
      · refine List.pairwise_append.2 ⟨?_, h4, ?_⟩
        · refine hV.order.imp_of_mem ?_
          intro a b ha hb hab i j hi hj
          have := level_unique hi (hV.level a ha).1
          have := level_unique hj (hV.level b hb).1
          exact .inr ⟨by omega, hab⟩
        · intro a ha b hb i j hi hj
          have := level_unique hi (hV.level a ha).1
          obtain ⟨j', hj', hl⟩ := h3 b hb
          have := level_unique hj hl
          exact .inl (by omega)
      · intro a ha c hc
        rcases List.mem_append.1 ha with ha | ha
        · cases hf : f a with
          | true => exact List.mem_append_right _ (h2 c (hV.move a ha hf c hc))
          | false => exact List.mem_append_left _ (hV.stay a ha hf c hc)
        · exact List.mem_append_right _ (h5 a ha c hc)

/-- the elements of a node lie one after the other, inside it -/
theorem elemsFrom_ranges (path : List Nat) : ∀ (cs : List Green) (i off : Nat),
    (Red.elemsFrom path i off cs).Pairwise (fun a b => a.range.stop ≤ b.range.start) ∧
    ∀ c ∈ Red.elemsFrom path i off cs, off ≤ c.range.start ∧ c.range.start ≤ c.range.stop ∧
      c.range.stop ≤ off + Text.len (Green.textL cs) := by
  intro cs
  induction cs with
  | nil => intro i off; simp [Red.elemsFrom]
  | cons g gs ih =>
    intro i off
    obtain ⟨h1, h2⟩ := ih (i + 1) (off + g.len)
    have hlen : Text.len (Green.textL (g :: gs)) = g.len + Text.len (Green.textL gs) := by
      simp [Green.textL, Green.len, Text.len_append]
    refine ⟨List.pairwise_cons.2 ⟨?_, h1⟩, ?_⟩
    · intro c hc
      have := h2 c hc
      simp only [Red.range, Green.range, Range.ofLen] at this ⊢
      omega
    · intro c hc
      rw [hlen]
      rcases List.mem_cons.1 hc with rfl | hc
      · simp only [Red.range, Green.range, Range.ofLen]; omega
      · have := h2 c hc; omega

theorem child_range {r c : Red} (h : c ∈ r.elems) : r.range.containsRange c.range = true := by
  rcases r with ⟨path, off, g⟩
  have := (elemsFrom_ranges path g.children 0 off).2 c h
  cases g with
  | token => simp [Red.elems, Green.children, Red.elemsFrom] at h
  | node k cs =>
    simp only [Range.containsRange, Bool.and_eq_true, decide_eq_true_eq]
    simp only [Green.children] at this
    refine ⟨this.1, ?_⟩
    have e : (Red.mk path off (.node k cs)).range.stop = off + Text.len (Green.textL cs) := by
      simp [Red.range, Green.range, Range.ofLen, Green.len, Green.text]
    omega

end Verif
