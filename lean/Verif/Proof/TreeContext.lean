import Verif.Model.Reparse
import Verif.Proof.ValidationProof
import Verif.Proof.WalkProof

/-
An element in its tree: the leaves before and after it.
-/
namespace Verif
open Spec PTree

/-- `x` is the element of `g` at a path; `a` and `b` are the leaves before and after it. -/
inductive Ctx (x : Green) : Green → List Nat → List Lx → List Lx → Prop
  | here : Ctx x x [] [] []
  | down {k pre c post p a b} : Ctx x c p a b →
      Ctx x (.node k (pre ++ c :: post)) (pre.length :: p) (Green.leavesL pre ++ a) (b ++ Green.leavesL post)

theorem Ctx.leaves {x g p a b} (h : Ctx x g p a b) : g.leaves = a ++ x.leaves ++ b := by
  induction h with
  | here => simp
  | down _ ih => simp [Green.leaves, Green.leavesL, ih]

mutual
theorem text_leaves (g : Green) : g.text = wordsOf g.leaves := by
  cases g with
  | token k t => simp [Green.text, Green.leaves]
  | node k cs => simp only [Green.text, Green.leaves]; exact textL_leavesL cs
theorem textL_leavesL (cs : List Green) : Green.textL cs = wordsOf (Green.leavesL cs) := by
  cases cs with
  | nil => simp [Green.textL, Green.leavesL]
  | cons g gs => simp [Green.textL, Green.leavesL, text_leaves g, textL_leavesL gs]
end

theorem Ctx.text {x g p a b} (h : Ctx x g p a b) : g.text = wordsOf a ++ x.text ++ wordsOf b := by
  rw [text_leaves, h.leaves, text_leaves]; simp

theorem modify_mid {α} (pre : List α) (c : α) (post : List α) (f : α → α) :
    (pre ++ c :: post).modify pre.length f = pre ++ f c :: post := by
  induction pre with
  | nil => simp
  | cons x xs ih => simp [ih]

theorem Ctx.replace {x g p a b} (y : Green) (h : Ctx x g p a b) : Ctx y (Green.replaceAt y p g) p a b := by
  induction h with
  | here => exact .here
  | @down k pre c post p a b _ ih =>
    have : Green.replaceAt y (pre.length :: p) (.node k (pre ++ c :: post)) =
        .node k (pre ++ Green.replaceAt y p c :: post) := by
      simp only [Green.replaceAt, modify_mid]
    rw [this]
    exact .down ih

theorem Ctx.snoc {k cs g p a b} (h : Ctx (.node k cs) g p a b) {pre c post} (e : cs = pre ++ c :: post) :
    Ctx c g (p ++ [pre.length]) (a ++ Green.leavesL pre) (Green.leavesL post ++ b) := by
  subst e
  generalize hx : Green.node k (pre ++ c :: post) = x at h
  induction h with
  | here =>
    rw [← hx]
    have := Ctx.down (k := k) (pre := pre) (post := post) (Ctx.here (x := c))
    simpa using this
  | @down k' pre' c' post' _ _ _ _ ih =>
    have := Ctx.down (k := k') (pre := pre') (post := post') ih
    simpa using this

/-- an element of a tree -/
def InTree (g : Green) (r : Red) : Prop := ∃ a b, Ctx r.green g r.path a b ∧ r.off = wlen a

theorem inTree_root (g : Green) : InTree g (Red.root g) := ⟨[], [], .here, rfl⟩

theorem elemsFrom_split {path : List Nat} : ∀ {cs : List Green} {i off : Nat} {c : Red}, c ∈ Red.elemsFrom path i off cs →
    ∃ pre post, cs = pre ++ c.green :: post ∧ c.path = path ++ [i + pre.length] ∧
      c.off = off + wlen (Green.leavesL pre) := by
  intro cs
  induction cs with
  | nil => intro i off c h; simp [Red.elemsFrom] at h
  | cons g gs ih =>
    intro i off c h
    rcases List.mem_cons.1 h with rfl | h
    · exact ⟨[], gs, rfl, by simp, by simp [Green.leavesL]⟩
    · obtain ⟨pre, post, h1, h2, h3⟩ := ih h
      refine ⟨g :: pre, post, by rw [h1]; rfl, by rw [h2]; simp; omega, ?_⟩
      rw [h3]
      simp only [Green.leavesL, wlen_append, Green.len, text_leaves]
      simp only [wlen]; omega

theorem InTree.elem {g r c} (h : InTree g r) (hc : c ∈ r.elems) : InTree g c := by
  obtain ⟨a, b, h1, h2⟩ := h
  rcases r with ⟨path, off, gr⟩
  obtain ⟨pre, post, e1, e2, e3⟩ := elemsFrom_split hc
  cases gr with
  | token => simp [Green.children] at e1
  | node k cs =>
    simp only [Green.children] at e1
    refine ⟨a ++ Green.leavesL pre, Green.leavesL post ++ b, ?_, ?_⟩
    · rw [e2]; simpa using h1.snoc e1
    · rw [e3]; simp at h2 ⊢; exact h2

theorem InTree.child {g r c} (h : InTree g r) (hc : c ∈ r.children) : InTree g c := h.elem (List.mem_filter.1 hc).1

theorem InTree.below {g r c} (h : InTree g r) (hc : Below r c) : InTree g c := by
  induction hc with
  | self => exact h
  | child _ hc ih => exact ih.child hc

/-! ### Covering elements -/

theorem childAtRange_mem {r : Red} {range : Range} {c : Red} (h : r.childAtRange range = some c) :
    c ∈ r.elems ∧ c.range.containsRange range = true := by
  simp only [Red.childAtRange, Option.filter_eq_some_iff] at h
  exact ⟨List.mem_of_getElem? h.1, h.2⟩

/-- the chain of nodes from the root: each is a child of the next -/
def Chain (g : Green) : Red → List Red → Prop
  | r, [] => r = Red.root g
  | r, p :: ps => r ∈ p.elems ∧ p.green.isNode = true ∧ Chain g p ps

theorem Chain.inTree {g r ps} (h : Chain g r ps) : InTree g r ∧ ∀ p ∈ ps, InTree g p ∧ p.green.isNode = true := by
  induction ps generalizing r with
  | nil => rw [show r = Red.root g from h]; exact ⟨inTree_root g, by simp⟩
  | cons p ps ih =>
    obtain ⟨h1, h2, h3⟩ := h
    obtain ⟨i1, i2⟩ := ih h3
    refine ⟨i1.elem h1, ?_⟩
    intro q hq
    rcases List.mem_cons.1 hq with rfl | hq
    · exact ⟨i1, h2⟩
    · exact i2 q hq

theorem coverLoop_spec (g : Green) (range : Range) : ∀ (fuel : Nat) (r : Red) (ps : List Red), Chain g r ps →
    (∀ p ∈ ps, p.range.containsRange range = true) → r.range.containsRange range = true → r.green.count + 1 < fuel →
    ∃ el above, Red.coverLoop range fuel r ps = .ok (el, above) ∧ Chain g el above ∧
      (∀ p ∈ above, p.range.containsRange range = true) ∧ el.range.containsRange range = true ∧
      (el.green.isNode = true → el.childAtRange range = none) ∧ (∃ l, above = l ++ ps) := by
  intro fuel
  induction fuel with
  | zero => intro r ps _ _ _ h; omega
  | succ n ih =>
    intro r ps hc hp hr hf
    simp only [Red.coverLoop, hr, Bool.not_true, Bool.false_eq_true, if_false]
    cases hn : r.green.isNode with
    | false =>
      simp only [Bool.not_false, if_true]
      exact ⟨r, ps, rfl, hc, hp, hr, by simp [hn], [], rfl⟩
    | true =>
      simp only [Bool.not_true, Bool.false_eq_true, if_false]
      cases hch : r.childAtRange range with
      | none => exact ⟨r, ps, rfl, hc, hp, hr, fun _ => hch, [], rfl⟩
      | some c =>
        obtain ⟨h1, h2⟩ := childAtRange_mem hch
        have hcount : c.green.count + 1 < n := by
          cases hcn : c.green.isNode with
          | true =>
            have := count_child (List.mem_filter.2 ⟨h1, hcn⟩)
            omega
          | false =>
            have : c.green.count = 0 := by
              cases hg : c.green with
              | token => simp [Green.count, Green.nodes]
              | node => rw [hg] at hcn; simp [Green.isNode] at hcn
            have := count_pos hn
            omega
        obtain ⟨el, above, e1, e2, e3, e4, e5, l, e6⟩ := ih c (r :: ps) ⟨h1, hn, hc⟩
          (List.forall_mem_cons.2 ⟨hr, hp⟩) h2 hcount
        exact ⟨el, above, e1, e2, e3, e4, e5, l ++ [r], by simp [e6]⟩

/-- `covering_element` panics exactly if the range is not in the tree. -/
theorem coveringElement_spec (g : Green) (range : Range) (h : (Red.root g).range.containsRange range = true) :
    ∃ el above, Red.coveringElement g range = .ok (el, above) ∧ Chain g el above ∧
      (∀ p ∈ above, p.range.containsRange range = true) ∧ el.range.containsRange range = true ∧
      (el.green.isNode = true → el.childAtRange range = none) := by
  obtain ⟨el, above, e1, e2, e3, e4, e5, _⟩ := coverLoop_spec g range ((g.nodes 0).length + 2) (Red.root g) [] rfl
    (by simp) h (by show g.count + 1 < _; simp only [Green.count]; omega)
  exact ⟨el, above, e1, e2, e3, e4, e5⟩

theorem coveringElement_range {g range x} (h : Red.coveringElement g range = .ok x) :
    (Red.root g).range.containsRange range = true := by
  unfold Red.coveringElement at h
  rw [Red.coverLoop] at h
  cases hc : (Red.root g).range.containsRange range with
  | true => rfl
  | false => simp [hc] at h

/-! ### Trees with the same shape -/

mutual
/-- a tree without the texts of its tokens -/
def skel : Green → Green
  | .token k _ => .token k []
  | .node k cs => .node k (skelL cs)
def skelL : List Green → List Green
  | [] => []
  | g :: gs => skel g :: skelL gs
end

@[simp] theorem skelL_append (a b) : skelL (a ++ b) = skelL a ++ skelL b := by
  induction a with
  | nil => simp [skelL]
  | cons x xs ih => simp [skelL, ih]

mutual
theorem skel_inj {g g' : Green} (h : skel g = skel g') {x x'} (hl : g.leaves ++ x = g'.leaves ++ x') : g = g' ∧ x = x' := by
  cases g with
  | token k t =>
    cases g' with
    | token k' t' => simp [Green.leaves] at hl; simp [hl]
    | node => simp [skel] at h
  | node k cs =>
    cases g' with
    | token => simp [skel] at h
    | node k' cs' =>
      simp only [skel, Green.node.injEq] at h
      obtain ⟨e1, e2⟩ := skelL_inj h.2 (by simpa [Green.leaves] using hl)
      exact ⟨by rw [h.1, e1], e2⟩
theorem skelL_inj {gs gs' : List Green} (h : skelL gs = skelL gs') {x x'}
    (hl : Green.leavesL gs ++ x = Green.leavesL gs' ++ x') : gs = gs' ∧ x = x' := by
  cases gs with
  | nil =>
    cases gs' with
    | nil => simpa [Green.leavesL] using hl
    | cons => simp [skelL] at h
  | cons g gs =>
    cases gs' with
    | nil => simp [skelL] at h
    | cons g' gs' =>
      simp only [skelL, List.cons.injEq] at h
      simp only [Green.leavesL, List.append_assoc] at hl
      obtain ⟨e1, e2⟩ := skel_inj h.1 hl
      obtain ⟨e3, e4⟩ := skelL_inj h.2 e2
      exact ⟨by rw [e1, e3], e4⟩
end

/-- replacing an element by one of the same shape -/
theorem Ctx.skel {x g p a b} (h : Ctx x g p a b) {y : Green} (hy : skel y = Verif.skel x) :
    Verif.skel (Green.replaceAt y p g) = Verif.skel g := by
  induction h with
  | here => simpa [Green.replaceAt] using hy
  | @down k pre c post p a b _ ih =>
    have : Green.replaceAt y (pre.length :: p) (.node k (pre ++ c :: post)) =
        .node k (pre ++ Green.replaceAt y p c :: post) := by
      simp only [Green.replaceAt, modify_mid]
    rw [this]
    simp [Verif.skel, skelL, ih]

/-- two token lists with the same kinds -/
def SameKinds (a b : List Lx) : Prop := a.map (·.1) = b.map (·.1)

theorem SameKinds.afterTriv {a b : List Lx} (h : SameKinds a b) : SameKinds (Verif.afterTriv a) (Verif.afterTriv b) ∧
    skelL (lead a) = skelL (lead b) := by
  induction a generalizing b with
  | nil => cases b with
    | nil => exact ⟨rfl, rfl⟩
    | cons => simp [SameKinds] at h
  | cons x xs ih =>
    cases b with
    | nil => simp [SameKinds] at h
    | cons y ys =>
      simp only [SameKinds, List.map_cons, List.cons.injEq] at h
      obtain ⟨i1, i2⟩ := ih (b := ys) h.2
      have hxy : isTriv x = isTriv y := by simp [isTriv, h.1]
      cases hy : isTriv y with
      | true =>
        rw [hy] at hxy
        simp only [Verif.afterTriv, List.dropWhile_cons, hxy, hy, if_true, lead, List.takeWhile_cons, List.map_cons, skelL,
          leaf, Verif.skel, h.1]
        exact ⟨i1, congrArg (List.cons _) i2⟩
      | false =>
        rw [hy] at hxy
        simp [Verif.afterTriv, hxy, hy, lead, SameKinds, h]

mutual
theorem place_skel (n n' : Nat) (t : PTree) {a b : List Lx} (h : SameKinds a b) :
    skelL (place n t a).greens = skelL (place n' t b).greens ∧ SameKinds (place n t a).rest (place n' t b).rest := by
  obtain ⟨h1, h2⟩ := h.afterTriv
  cases t with
  | tok k =>
    simp only [place]
    cases ha : afterTriv a with
    | nil =>
      rw [ha] at h1
      cases hb : afterTriv b with
      | nil => exact ⟨h2, rfl⟩
      | cons => rw [hb] at h1; simp [SameKinds] at h1
    | cons x xs =>
      rw [ha] at h1
      cases hb : afterTriv b with
      | nil => rw [hb] at h1; simp [SameKinds] at h1
      | cons y ys =>
        rw [hb] at h1
        simp only [SameKinds, List.map_cons, List.cons.injEq] at h1
        refine ⟨?_, h1.2⟩
        simp [h2, skelL, leaf, skel, h1.1]
  | err e => exact ⟨rfl, h⟩
  | node k cs =>
    obtain ⟨i1, i2⟩ := placeL_skel n n' cs h1
    refine ⟨?_, i2⟩
    simp [place, h2, skelL, skel, i1]
  | errNode cs e =>
    obtain ⟨i1, i2⟩ := placeL_skel n n' cs h1
    refine ⟨?_, i2⟩
    simp [place, h2, skelL, skel, i1]
theorem placeL_skel (n n' : Nat) (ts : List PTree) {a b : List Lx} (h : SameKinds a b) :
    skelL (placeL n ts a).greens = skelL (placeL n' ts b).greens ∧ SameKinds (placeL n ts a).rest (placeL n' ts b).rest := by
  cases ts with
  | nil => exact ⟨rfl, h⟩
  | cons t ts =>
    obtain ⟨i1, i2⟩ := place_skel n n' t h
    obtain ⟨i3, i4⟩ := placeL_skel n n' ts i2
    refine ⟨?_, i4⟩
    simp [placeL, i1, i3]
end

end Verif
