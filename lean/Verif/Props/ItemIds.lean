import Verif.Props.Walk
import Verif.Spec.ItemIds
import Verif.Props.ReparseExact
import Verif.Props.PtrExact

/-
C108: the ids of items do not depend on what is inside items.
-/
namespace Verif
open Spec

/-- two lists related element by element -/
inductive Each (R : Red → Red → Prop) : List Red → List Red → Prop
  | nil : Each R [] []
  | cons {a b : Red} {as bs : List Red} (h : R a b) (t : Each R as bs) : Each R (a :: as) (b :: bs)

theorem Each.append {R as bs as' bs'} (h : Each R as bs) (h' : Each R as' bs') : Each R (as ++ as') (bs ++ bs') := by
  induction h with
  | nil => exact h'
  | cons h t ih => exact .cons h ih

theorem Each.flatMap {R S} {F G : Red → List Red} {as bs} (h : Each R as bs) (hf : ∀ a b, R a b → Each S (F a) (G b)) :
    Each S (as.flatMap F) (bs.flatMap G) := by
  induction h with
  | nil => exact .nil
  | cons h t ih => simp only [List.flatMap_cons]; exact (hf _ _ h).append ih

theorem Each.imp {R S as bs} (h : Each R as bs) (hi : ∀ a b, R a b → S a b) : Each S as bs := by
  induction h with
  | nil => exact .nil
  | cons h t ih => exact .cons (hi _ _ h) ih

theorem Each.get {R as bs} (h : Each R as bs) : ∀ {i : Nat} {a : Red}, as[i]? = some a → ∃ b, bs[i]? = some b ∧ R a b := by
  induction h with
  | nil => intro i a h; simp at h
  | cons h t ih =>
    intro i a e
    cases i with
    | zero => simp at e; subst e; exact ⟨_, rfl, h⟩
    | succ i => simp at e; simpa using ih e

theorem Each.index {R as bs} (h : Each R as bs) :
    Each (fun a b => R a b ∧ ∃ i : Nat, as[i]? = some a ∧ bs[i]? = some b) as bs := by
  induction h with
  | nil => exact .nil
  | cons h t ih =>
    refine .cons ⟨h, 0, rfl, rfl⟩ (ih.imp ?_)
    rintro a b ⟨h1, i, h2, h3⟩
    exact ⟨h1, i + 1, by simpa using h2, by simpa using h3⟩

theorem Each.filter {R as bs} {f : Red → Bool} (h : Each R as bs) (hf : ∀ a b, R a b → f a = f b) :
    Each R (as.filter f) (bs.filter f) := by
  induction h with
  | nil => exact .nil
  | @cons a b as bs h t ih =>
    rw [List.filter_cons, List.filter_cons, hf _ _ h]
    split
    · exact .cons h ih
    · exact ih

theorem Each.mem {R as bs} (h : Each R as bs) {a : Red} (ha : a ∈ as) : ∃ i : Nat, ∃ b, as[i]? = some a ∧ bs[i]? = some b ∧ R a b := by
  obtain ⟨i, hi⟩ := List.mem_iff_getElem?.1 ha
  obtain ⟨b, h1, h2⟩ := h.get hi
  exact ⟨i, b, hi, h1, h2⟩

theorem sameOutside_kind {d g g'} (h : SameOutside d g g') : g.kind = g'.kind := by
  cases h <;> rfl

theorem sameOutside_node {d g g'} (h : SameOutside d g g') : g.isNode = true ∧ g'.isNode = true := by
  cases h <;> exact ⟨rfl, rfl⟩

private theorem filter_token (path : List Nat) (i off : Nat) (k : SyntaxKind) (t : Text) (cs : List Green) :
    (Red.elemsFrom path i off (.token k t :: cs)).filter (·.green.isNode) =
      (Red.elemsFrom path (i + 1) (off + (Green.token k t).len) cs).filter (·.green.isNode) := rfl

/-- the children of two nodes with the same items outside correspond -/
theorem sameOutsideL_children {d : Nat} {path path' : List Nat} : ∀ {cs cs' : List Green} (_ : SameOutsideL d cs cs')
    (i i' off off' : Nat),
    Each (fun a b => SameOutside d a.green b.green) ((Red.elemsFrom path i off cs).filter (·.green.isNode))
      ((Red.elemsFrom path' i' off' cs').filter (·.green.isNode))
  | _, _, .nil => by intros; exact .nil
  | _, _, .cons h t => by
    intro i i' off off'
    simp only [Red.elemsFrom]
    rw [List.filter_cons, if_pos (sameOutside_node h).1, List.filter_cons, if_pos (sameOutside_node h).2]
    exact .cons h (sameOutsideL_children t _ _ _ _)
  | _, _, .left t => by
    intro i i' off off'
    rw [filter_token]
    exact sameOutsideL_children t _ _ _ _
  | _, _, .right t => by
    intro i i' off off'
    rw [filter_token]
    exact sameOutsideL_children t _ _ _ _

/-- what corresponds in the walks over two trees: same place, same kind -/
def Alike (node node' : Red) (a b : Red) : Prop := SamePlace node node' a b ∧ a.kind = b.kind

/-- the children of two corresponding nodes, with their correspondence -/
theorem children_alike {node node' r r' : Red} {d : Nat} (hp : SamePlace node node' r r') (k : SyntaxKind)
    {cs cs' : List Green} (e : r.green = .node k cs) (e' : r'.green = .node k cs') (h : SameOutsideL d cs cs') :
    Each (fun a b => SamePlace node node' a b ∧ SameOutside d a.green b.green) r.children r'.children := by
  have hc : Each (fun a b => SameOutside d a.green b.green) r.children r'.children := by
    unfold Red.children Red.elems
    rw [e, e']
    exact sameOutsideL_children h _ _ _ _
  refine hc.index.imp ?_
  rintro a b ⟨h1, i, h2, h3⟩
  exact ⟨.child hp h2 h3, h1⟩

/-- the walks over two corresponding nodes of a layer -/
theorem vis_alike {node node' : Red} (d : Nat) (r : Red) : ∀ r', SamePlace node node' r r' → SameOutside d r.green r'.green →
    Each (Alike node node') (visV AstIdMap.isItem r) (visV AstIdMap.isItem r') ∧
    ∀ n, d = n + 1 → Each (fun a b => SamePlace node node' a b ∧ SameOutside n a.green b.green)
      (visN AstIdMap.isItem r) (visN AstIdMap.isItem r') := by
  refine red_ind (P := fun r => ∀ r', SamePlace node node' r r' → SameOutside d r.green r'.green →
    Each (Alike node node') (visV AstIdMap.isItem r) (visV AstIdMap.isItem r') ∧
    ∀ n, d = n + 1 → Each (fun a b => SamePlace node node' a b ∧ SameOutside n a.green b.green)
      (visN AstIdMap.isItem r) (visN AstIdMap.isItem r')) ?_ r
  intro r ih r' hp hs
  obtain ⟨n1, n2⟩ := sameOutside_node hs
  obtain ⟨e1, e2⟩ := vis_node AstIdMap.isItem r n1
  obtain ⟨e1', e2'⟩ := vis_node AstIdMap.isItem r' n2
  have hk : r.kind = r'.kind := sameOutside_kind hs
  rw [e1, e2, e1', e2']
  by_cases hi : r.kind ∈ itemKinds
  · rw [if_pos ((isItem_iff r).2 hi), if_pos ((isItem_iff r').2 (hk ▸ hi)), if_pos ((isItem_iff r).2 hi),
      if_pos ((isItem_iff r').2 (hk ▸ hi))]
    refine ⟨.cons ⟨hp, hk⟩ .nil, ?_⟩
    intro n hn
    subst hn
    generalize eg : r.green = g at hs
    generalize eg' : r'.green = g' at hs
    cases hs with
    | node hk' h => exact absurd hi (by unfold Red.kind; rw [eg]; exact hk')
    | @item _ k cs cs' hk' h => exact children_alike hp k eg eg' h
  · have f1 : ¬ AstIdMap.isItem r = true := fun h => hi ((isItem_iff r).1 h)
    have f2 : ¬ AstIdMap.isItem r' = true := fun h => hi (hk ▸ (isItem_iff r').1 h)
    rw [if_neg f1, if_neg f2, if_neg f1, if_neg f2]
    generalize eg : r.green = g at hs
    generalize eg' : r'.green = g' at hs
    have hkind : r.kind = g.kind := by unfold Red.kind; rw [eg]
    cases hs with
    | @node _ k cs cs' hk' h =>
      have hc := children_alike hp k eg eg' h
      have hm : ∀ {as bs : List Red}, Each (fun a b => SamePlace node node' a b ∧ SameOutside d a.green b.green) as bs →
          (∀ a ∈ as, a ∈ r.children) →
          Each (fun a b => (SamePlace node node' a b ∧ SameOutside d a.green b.green) ∧ a ∈ r.children) as bs := by
        intro as bs h
        induction h with
        | nil => intro _; exact .nil
        | cons h t ih => intro hm; exact .cons ⟨h, hm _ (by simp)⟩ (ih (fun a ha => hm a (by simp [ha])))
      have hc' := hm hc (fun _ h => h)
      refine ⟨.cons ⟨hp, hk⟩ (hc'.flatMap ?_), ?_⟩
      · rintro a b ⟨⟨h1, h2⟩, h3⟩
        exact (ih a h3 b h1 h2).1
      · intro n hn
        refine hc'.flatMap ?_
        rintro a b ⟨⟨h1, h2⟩, h3⟩
        exact (ih a h3 b h1 h2).2 n hn
    | item hk' h => exact absurd (show r.kind ∈ itemKinds by rw [hkind]; exact hk') hi
    | inside hk' => exact absurd (show r.kind ∈ itemKinds by rw [hkind]; exact hk') hi

/-- everything the loop visits lies inside as many items as the layer -/
theorem bdfsLoop_levels (f : Red → Bool) (node : Red) : ∀ (fuel k : Nat) (layer vs : List Red),
    (∀ r ∈ layer, r.green.isNode = true ∧ Level f node k r) → bdfsLoop f fuel layer = some vs →
    ∀ a ∈ vs, ∃ j, k ≤ j ∧ Level f node j a := by
  intro fuel
  induction fuel with
  | zero => intro k layer vs _ h; simp [bdfsLoop] at h
  | succ fuel ih =>
    intro k layer vs hl h a ha
    simp only [bdfsLoop] at h
    split at h
    · simp at h; subst h; simp at ha
    · obtain ⟨ws, h1, h2⟩ := Option.map_eq_some_iff.1 h
      rw [List.flatMap_map] at h1 h2
      subst h2
      rcases List.mem_append.1 ha with ha | ha
      · obtain ⟨r, hr, ha⟩ := List.mem_flatMap.1 ha
        exact ⟨k, Nat.le_refl _, ((vis_spec f node r k (hl r hr).1 (hl r hr).2).1.level a ha).1⟩
      · obtain ⟨j, h3, h4⟩ := ih (k + 1) _ ws (by
          intro b hb
          obtain ⟨r, hr, hb⟩ := List.mem_flatMap.1 hb
          obtain ⟨h5, _, h6⟩ := (vis_spec f node r k (hl r hr).1 (hl r hr).2).1.nextLevel b hb
          exact ⟨h6, h5⟩) h1 a ha
        exact ⟨j, by omega, h4⟩

/-- the walks over two trees begin alike -/
theorem bdfsLoop_alike {node node' : Red} : ∀ (d fuel fuel' k : Nat) (layer layer' vs vs' : List Red),
    (∀ r ∈ layer, r.green.isNode = true ∧ Level AstIdMap.isItem node k r) →
    Each (fun a b => SamePlace node node' a b ∧ SameOutside d a.green b.green) layer layer' →
    bdfsLoop AstIdMap.isItem fuel layer = some vs → bdfsLoop AstIdMap.isItem fuel' layer' = some vs' →
    ∃ p s p' s', vs = p ++ s ∧ vs' = p' ++ s' ∧ Each (Alike node node') p p' ∧
      ∀ a ∈ s, ∀ j, Level AstIdMap.isItem node j a → k + d < j := by
  intro d
  induction d with
  | zero =>
    intro fuel fuel' k layer layer' vs vs' hl he h h'
    cases fuel with
    | zero => simp [bdfsLoop] at h
    | succ fuel =>
    cases fuel' with
    | zero => simp [bdfsLoop] at h'
    | succ fuel' =>
    simp only [bdfsLoop] at h h'
    cases he with
    | nil =>
      simp at h h'
      subst h h'
      exact ⟨[], [], [], [], rfl, rfl, .nil, by simp⟩
    | cons h1 t =>
      have he := Each.cons h1 t
      rw [if_neg (by simp)] at h h'
      obtain ⟨ws, e1, e2⟩ := Option.map_eq_some_iff.1 h
      obtain ⟨ws', e1', e2'⟩ := Option.map_eq_some_iff.1 h'
      rw [List.flatMap_map] at e1 e2 e1' e2'
      subst e2 e2'
      refine ⟨_, ws, _, ws', rfl, rfl, he.flatMap (fun a b hab => (vis_alike 0 a b hab.1 hab.2).1), ?_⟩
      intro a ha j hj
      obtain ⟨j', h3, h4⟩ := bdfsLoop_levels _ node fuel (k + 1) _ ws (by
          intro b hb
          obtain ⟨r, hr, hb⟩ := List.mem_flatMap.1 hb
          obtain ⟨h5, _, h6⟩ := (vis_spec _ node r k (hl r hr).1 (hl r hr).2).1.nextLevel b hb
          exact ⟨h6, h5⟩) e1 a ha
      have := level_unique hj h4
      omega
  | succ d ih =>
    intro fuel fuel' k layer layer' vs vs' hl he h h'
    cases fuel with
    | zero => simp [bdfsLoop] at h
    | succ fuel =>
    cases fuel' with
    | zero => simp [bdfsLoop] at h'
    | succ fuel' =>
    simp only [bdfsLoop] at h h'
    cases he with
    | nil =>
      simp at h h'
      subst h h'
      exact ⟨[], [], [], [], rfl, rfl, .nil, by simp⟩
    | cons h1 t =>
      have he := Each.cons h1 t
      rw [if_neg (by simp)] at h h'
      obtain ⟨ws, e1, e2⟩ := Option.map_eq_some_iff.1 h
      obtain ⟨ws', e1', e2'⟩ := Option.map_eq_some_iff.1 h'
      rw [List.flatMap_map] at e1 e2 e1' e2'
      subst e2 e2'
      obtain ⟨p, s, p', s', q1, q2, q3, q4⟩ := ih fuel fuel' (k + 1) _ _ ws ws' (by
          intro b hb
          obtain ⟨r, hr, hb⟩ := List.mem_flatMap.1 hb
          obtain ⟨h5, _, h6⟩ := (vis_spec _ node r k (hl r hr).1 (hl r hr).2).1.nextLevel b hb
          exact ⟨h6, h5⟩) (he.flatMap (fun a b hab => (vis_alike (d + 1) a b hab.1 hab.2).2 d rfl)) e1 e1'
      subst q1 q2
      refine ⟨_ ++ p, s, _ ++ p', s', (List.append_assoc ..).symm, (List.append_assoc ..).symm,
        (he.flatMap (fun a b hab => (vis_alike (d + 1) a b hab.1 hab.2).1)).append q3, ?_⟩
      intro a ha j hj
      have := q4 a ha j hj
      omega

theorem isItem_eq : AstIdMap.isItem = fun r => decide (r.kind ∈ itemKinds) := by
  funext r
  rw [Bool.eq_iff_iff, isItem_iff, decide_eq_true_iff]

/-- **C108** The id of an item does not depend on what is inside items at its own depth or deeper, nor on any token:
if two trees have the same nodes as far as these lie inside at most `d` items, then every item of the one that lies
inside at most `d` items has the same id as the item of the same kind at the same place in the other. -/
theorem C108_stable (d : Nat) (node node' : Red) (hp : node.path ≠ []) (hp' : node'.path ≠ [])
    (h : SameOutside d node.green node'.green) : KeepsIds d node node' := by
  unfold KeepsIds
  rw [← isItem_eq]
  obtain ⟨n1, n2⟩ := sameOutside_node h
  obtain ⟨vs, a1, _, a3, _⟩ := C52_walk AstIdMap.isItem node n1
  obtain ⟨vs', b1, _, b3, _⟩ := C52_walk AstIdMap.isItem node' n2
  obtain ⟨p, s, p', s', e1, e2, e3, e4⟩ := bdfsLoop_alike d _ _ 0 [node] [node'] vs vs'
    (by intro r hr; simp at hr; subst hr; exact ⟨n1, .self⟩) (.cons ⟨.self, h⟩ .nil) a1 b1
  refine ⟨(vs.filter AstIdMap.isItem).map NodePtr.new, (vs'.filter AstIdMap.isItem).map NodePtr.new,
    by unfold AstIdMap.fromSource; rw [if_neg hp, a1]; rfl,
    by unfold AstIdMap.fromSource; rw [if_neg hp', b1]; rfl, ?_⟩
  intro item j hl hi hj
  replace hi := (isItem_iff item).2 hi
  have hm : item ∈ vs := (a3 item).2 hl.toBelow
  rw [e1] at hm
  have hmp : item ∈ p := by
    rcases List.mem_append.1 hm with h | h
    · exact h
    · have := e4 item h j hl; omega
  have hf := e3.filter (f := AstIdMap.isItem) (by
    rintro a b ⟨_, hk⟩
    rw [Bool.eq_iff_iff, isItem_iff, isItem_iff, hk])
  obtain ⟨id, item', c1, c2, c3⟩ := hf.mem (List.mem_filter.2 ⟨hmp, hi⟩)
  refine ⟨item', id, c3.1, c3.2.symm, ?_, ?_⟩
  · rw [List.getElem?_map, e1, List.filter_append, List.getElem?_append_left (List.getElem?_eq_some_iff.1 c1).1, c1]; rfl
  · rw [List.getElem?_map, e2, List.filter_append, List.getElem?_append_left (List.getElem?_eq_some_iff.1 c2).1, c2]; rfl

/-- different items of a file without errors have different pointers, so the id found by looking an item up is its
place in the map -/
private theorem astId_of_get {text : Text} {tree : Green} (h : parseText text = .ok (tree, [])) {node : Red}
    (hn : Below (Red.root tree) node) {arena : List NodePtr} (ha : AstIdMap.fromSource node = some arena) {item : Red}
    {id : Nat} (hi : arena[id]? = some (NodePtr.new item)) : AstIdMap.astId arena item = some id := by
  have hnode : node.green.isNode = true := by
    cases hn with
    | self =>
      obtain ⟨_, _, _, _, _, _, h'⟩ := parseText_main text
      rw [h] at h'
      simp only [Except.ok.injEq, Prod.mk.injEq] at h'
      rw [h'.1]; rfl
    | child _ hc => exact child_node hc
  obtain ⟨vs, a1, a2, a3, _⟩ := C52_walk AstIdMap.isItem node hnode
  unfold AstIdMap.fromSource at ha
  split at ha
  · simp at ha
  rw [a1] at ha
  simp only [Option.map_some, Option.some.injEq] at ha
  have hbel : ∀ {r}, Below node r → Below (Red.root tree) r := by
    intro r hr
    induction hr with
    | self => exact hn
    | child _ hc ih => exact .child ih hc
  have hnd : arena.Nodup := by
    rw [← ha]
    unfold List.Nodup
    rw [List.pairwise_map]
    refine List.Pairwise.imp_of_mem ?_ (a2.filter AstIdMap.isItem)
    intro a b hma hmb hne e
    obtain ⟨m1, m2⟩ := List.mem_filter.1 hma
    obtain ⟨m3, _⟩ := List.mem_filter.1 hmb
    simp only [NodePtr.new, NodePtr.mk.injEq] at e
    exact hne (C53_pointers_unique text tree h a b (hbel ((a3 a).1 m1)) (hbel ((a3 b).1 m3)) ((isItem_iff a).1 m2) e.2 e.1)
  unfold AstIdMap.astId
  obtain ⟨hlt, hget⟩ := List.getElem?_eq_some_iff.1 hi
  rw [List.idxOf?_eq_some_iff]
  refine ⟨hlt, hget, ?_⟩
  intro j hj e
  exact List.pairwise_iff_getElem.1 hnd j id (by omega) hlt hj (by rw [e, hget])

/-- **C108** For two files without errors: the ids that looking up an item gives are the same, if the trees below the
nodes the maps are made from have the same nodes as far as these lie inside at most as many items as the item. -/
theorem C108_ids (text text' : Text) (tree tree' : Green) (h : parseText text = .ok (tree, []))
    (h' : parseText text' = .ok (tree', [])) (d : Nat) (node node' : Red) (hn : Below (Red.root tree) node)
    (hn' : Below (Red.root tree') node') (hp : node.path ≠ []) (hp' : node'.path ≠ [])
    (hs : SameOutside d node.green node'.green) :
    ∃ arena arena', AstIdMap.fromSource node = some arena ∧ AstIdMap.fromSource node' = some arena' ∧
      ∀ item j, Level (fun r => decide (r.kind ∈ itemKinds)) node j item → item.kind ∈ itemKinds → j ≤ d →
        ∃ item' id, SamePlace node node' item item' ∧ item'.kind = item.kind ∧
          AstIdMap.astId arena item = some id ∧ AstIdMap.astId arena' item' = some id := by
  obtain ⟨arena, arena', e1, e2, e3⟩ := C108_stable d node node' hp hp' hs
  refine ⟨arena, arena', e1, e2, ?_⟩
  intro item j hl hi hj
  obtain ⟨item', id, c1, c2, c3, c4⟩ := e3 item j hl hi hj
  exact ⟨item', id, c1, c2, astId_of_get h hn e1 c3, astId_of_get h' hn' e2 c4⟩

/-! ### Reparsing -/

mutual
theorem sameOutside_refl : ∀ (g : Green) (d : Nat), g.isNode = true → SameOutside d g g
  | .token _ _, _, h => by simp [Green.isNode] at h
  | .node k cs, d, _ => by
    by_cases hk : k ∈ itemKinds
    · cases d with
      | zero => exact .inside hk
      | succ d => exact .item hk (sameOutsideL_refl cs d)
    · exact .node hk (sameOutsideL_refl cs d)
theorem sameOutsideL_refl : ∀ (cs : List Green) (d : Nat), SameOutsideL d cs cs
  | [], _ => .nil
  | .token _ _ :: cs, d => .left (.right (sameOutsideL_refl cs d))
  | .node k c :: cs, d => .cons (sameOutside_refl (.node k c) d rfl) (sameOutsideL_refl cs d)
end

theorem Spec.SameOutsideL.append {d : Nat} : ∀ {as as' bs bs' : List Green}, SameOutsideL d as as' → SameOutsideL d bs bs' →
    SameOutsideL d (as ++ bs) (as' ++ bs')
  | _, _, _, _, .nil, h => h
  | _, _, _, _, .cons h t, h' => .cons h (t.append h')
  | _, _, _, _, .left t, h' => .left (t.append h')
  | _, _, _, _, .right t, h' => .right (t.append h')

/-- one node, with children with the same nodes outside -/
theorem sameOutside_node_of (k : SyntaxKind) {cs cs' : List Green} {d : Nat} (h : SameOutsideL d cs cs') :
    SameOutside (if k ∈ itemKinds then d + 1 else d) (.node k cs) (.node k cs') := by
  split
  · exact .item ‹_› h
  · exact .node ‹_› h

private theorem replaceAt_mid (y : Green) (k : SyntaxKind) (pre : List Green) (c : Green) (post : List Green) (p : List Nat) :
    Green.replaceAt y (pre.length :: p) (.node k (pre ++ c :: post)) = .node k (pre ++ Green.replaceAt y p c :: post) := by
  simp only [Green.replaceAt, modify_mid]

/-- another token changes no node -/
theorem sameOutside_token {x g : Green} {p : List Nat} {a b : List Lx} (h : Ctx x g p a b) (hx : x.isNode = false)
    (k : SyntaxKind) (w : Text) (hg : g.isNode = true) : ∀ d, SameOutside d g (Green.replaceAt (.token k w) p g) := by
  induction h with
  | here => rw [hx] at hg; simp at hg
  | @down k' pre c post p a b hc ih =>
    intro d
    rw [replaceAt_mid]
    have hL : ∀ d, SameOutsideL d (pre ++ c :: post) (pre ++ Green.replaceAt (.token k w) p c :: post) := by
      intro d
      refine (sameOutsideL_refl pre d).append ?_
      cases hcn : c.isNode with
      | true => exact .cons (ih hcn d) (sameOutsideL_refl post d)
      | false =>
        cases c with
        | node => simp [Green.isNode] at hcn
        | token kc tc =>
          cases p with
          | nil => exact .left (.right (sameOutsideL_refl post d))
          | cons i is => exact .left (.right (sameOutsideL_refl post d))
    by_cases hk : k' ∈ itemKinds
    · cases d with
      | zero => exact .inside hk
      | succ d => exact .item hk (hL d)
    · exact .node hk (hL d)

private theorem replaceAt_snoc {x g : Green} {p : List Nat} {a b : List Lx} (h : Ctx x g p a b) (y : Green) (i : Nat) :
    Green.replaceAt y (p ++ [i]) g = Green.replaceAt (Green.replaceAt y [i] x) p g := by
  induction h with
  | here => rfl
  | down hc ih => rw [List.cons_append, replaceAt_mid, replaceAt_mid, ih]

/-- another node of the same kind, inside `j` items, changes no node that lies inside at most `j` items -/
theorem sameOutside_replace {g : Green} {j : Nat} {r : Red} (hl : Level AstIdMap.isItem (Red.root g) j r) :
    ∀ (m : Nat) (y : Green), SameOutside m r.green y → SameOutside (j + m) g (Green.replaceAt y r.path g) := by
  induction hl with
  | self => intro m y h; rw [Nat.zero_add]; exact h
  | @child k p c hp hc ih =>
    intro m y h
    obtain ⟨a, b, hx, _⟩ := (inTree_root g).below hp.toBelow
    obtain ⟨pre, post, e1, e2, _⟩ := elemsFrom_split (List.mem_filter.1 hc).1
    cases hg : p.green with
    | token => rw [hg] at e1; simp [Green.children] at e1
    | node kp cs =>
      rw [hg] at e1
      simp only [Green.children] at e1
      have hr : Green.replaceAt y [pre.length] p.green = .node kp (pre ++ y :: post) := by
        rw [hg, e1, replaceAt_mid]; rfl
      rw [e2, Nat.zero_add, replaceAt_snoc hx, hr]
      have hs := sameOutside_node_of kp ((sameOutsideL_refl pre m).append (.cons h (sameOutsideL_refl post m)))
      rw [← e1, ← hg] at hs
      have := ih _ _ hs
      have hkp : AstIdMap.isItem p = true ↔ kp ∈ itemKinds := by rw [isItem_iff]; unfold Red.kind; rw [hg]; rfl
      by_cases hk : kp ∈ itemKinds
      · rw [if_pos (hkp.2 hk)]
        rw [if_pos hk] at this
        rwa [Nat.add_assoc, Nat.add_comm 1]
      · rw [if_neg (fun hh => hk (hkp.1 hh))]
        rwa [if_neg hk] at this

/-- the nodes of the way down to a node are below each other -/
theorem Chain.below {g : Green} {r : Red} {ps : List Red} (h : Chain g r ps) :
    (r.green.isNode = true → Below (Red.root g) r) ∧ ∀ p ∈ ps, Below (Red.root g) p := by
  induction ps generalizing r with
  | nil => rw [show r = Red.root g from h]; exact ⟨fun _ => .self, by simp⟩
  | cons p ps ih =>
    obtain ⟨h1, h2, h3⟩ := h
    obtain ⟨i1, i2⟩ := ih h3
    refine ⟨fun hn => .child (i1 h2) (List.mem_filter.2 ⟨h1, hn⟩), ?_⟩
    intro q hq
    rcases List.mem_cons.1 hq with rfl | hq
    · exact i1 h2
    · exact i2 q hq

/-- the root of a file has one node below it -/
private theorem tops {tree tree' : Green} {cs : List Green} (ht : tree = .node .sourceFile [.node .block cs]) {d : Nat}
    (h : SameOutside d tree tree') : ∃ top top', (Red.root tree).children = [top] ∧ (Red.root tree').children = [top'] ∧
      KeepsIds d top top' := by
  subst ht
  cases h with
  | @node _ _ _ cs' hk h =>
    have hc : Each (fun a b => SameOutside d a.green b.green) (Red.root (.node .sourceFile [.node .block cs])).children
        (Red.root (.node .sourceFile cs')).children := sameOutsideL_children h _ _ _ _
    have e : (Red.root (.node .sourceFile [.node .block cs])).children = [⟨[0], 0, .node .block cs⟩] := rfl
    rw [e] at hc
    generalize e' : (Red.root (.node .sourceFile cs')).children = l at hc
    cases hc with
    | @cons _ b _ _ h1 t =>
      cases t
      obtain ⟨j, hj⟩ := child_path (r := Red.root (.node .sourceFile cs')) (c := b) (by rw [e']; simp)
      exact ⟨_, b, rfl, rfl, C108_stable d _ _ (by simp) (by rw [hj]; simp) h1⟩
  | item hk => exact absurd hk (by decide)
  | inside hk => exact absurd hk (by decide)

private theorem file_shape {text tree errors} (h : sourceFileParse text = .ok (tree, errors)) :
    ∃ cs, tree = .node .sourceFile [.node .block cs] := by
  obtain ⟨cs, es, h1, _⟩ := C03_root text
  obtain ⟨t2, e2, more, h2, h3, _⟩ := sourceFileParse_eq text
  rw [h1] at h2
  rw [h] at h3
  simp only [Except.ok.injEq, Prod.mk.injEq] at h2 h3
  exact ⟨cs, by rw [h3.1, ← h2.1]⟩

/-- **C108** When `reparse` puts a new token into the tree, every item keeps its id. -/
theorem C108_token (text : Text) (tree tree' : Green) (errors errors' : List SyntaxError) (edit : Indel) (token : Red)
    (w : Text) (hp : sourceFileParse text = .ok (tree, errors)) (h : OnToken tree edit token w)
    (hr : reparse tree errors edit = .ok (tree', errors')) :
    ∃ top top', (Red.root tree).children = [top] ∧ (Red.root tree').children = [top'] ∧ ∀ d, KeepsIds d top top' := by
  obtain ⟨cs, ht⟩ := file_shape hp
  obtain ⟨c1, c2⟩ := C95_token tree errors edit token w h
  by_cases hb : ErrorBehind edit token.range errors
  · rw [c1 hb] at hr; simp at hr
  · obtain ⟨es, c⟩ := c2 hb
    rw [c] at hr
    simp only [Except.ok.injEq, Prod.mk.injEq] at hr
    obtain ⟨above, hcov⟩ := h.covers
    obtain ⟨el, ab, e1, e2, _⟩ := coveringElement_spec tree edit.delete (coveringElement_range hcov)
    rw [hcov] at e1
    simp only [Except.ok.injEq, Prod.mk.injEq] at e1
    obtain ⟨a, b, hx, _⟩ := (e1.1 ▸ e2.inTree.1 : InTree tree token)
    have hs := sameOutside_token hx h.isToken token.kind w (by rw [ht]; rfl)
    rw [hr.1] at hs
    obtain ⟨top, top', t1, t2, _⟩ := tops ht (hs 0)
    refine ⟨top, top', t1, t2, fun d => ?_⟩
    obtain ⟨x, x', u1, u2, u3⟩ := tops ht (hs d)
    rw [t1] at u1; rw [t2] at u2
    simp only [List.cons.injEq, and_true] at u1 u2
    rwa [u1, u2]

/-- **C108** When `reparse` puts a new block into the tree, every item that lies inside at most as many items as the
block keeps its id: in particular the items around it. -/
theorem C108_block (text : Text) (tree tree' : Green) (errors errors' : List SyntaxError) (edit : Indel) (block : Red)
    (w : Text) (hp : sourceFileParse text = .ok (tree, errors)) (hno : ¬ ∃ el w, OnToken tree edit el w)
    (h : OnBlock tree edit block w) (hr : reparse tree errors edit = .ok (tree', errors')) :
    ∃ top top' d, (Red.root tree).children = [top] ∧ (Red.root tree').children = [top'] ∧
      Level (fun r => decide (r.kind ∈ itemKinds)) top d block ∧ KeepsIds d top top' := by
  obtain ⟨cs, ht⟩ := file_shape hp
  obtain ⟨c1, c2⟩ := C95_block tree errors edit block w hno h
  by_cases hb : StartsWithTrivia w ∨ ErrorBehind edit block.range errors
  · rw [c1 hb] at hr; simp at hr
  · obtain ⟨bs, es, c⟩ := c2 ⟨fun h => hb (.inl h), fun h => hb (.inr h)⟩
    rw [c] at hr
    simp only [Except.ok.injEq, Prod.mk.injEq] at hr
    obtain ⟨el, above, hcov, hfind⟩ := h.innermost
    obtain ⟨el', ab, e1, e2, _⟩ := coveringElement_spec tree edit.delete (coveringElement_range hcov)
    rw [hcov] at e1
    simp only [Except.ok.injEq, Prod.mk.injEq] at e1
    obtain ⟨rfl, rfl⟩ := e1
    have hk : block.kind = .block := by have := List.find?_some hfind; simpa using this
    have hbel : Below (Red.root tree) block := by
      have hm := List.mem_of_find?_eq_some hfind
      split at hm
      · rcases List.mem_cons.1 hm with rfl | hm
        · exact e2.below.1 ‹_›
        · exact e2.below.2 _ hm
      · exact e2.below.2 _ hm
    have hbnode : ∃ cs0, block.green = .node .block cs0 := by
      cases hbel with
      | self =>
        rw [ht] at hk
        exact absurd hk (by simp [Red.root, Red.kind, Green.kind])
      | child _ hc =>
        have := child_node hc
        cases hg : block.green with
        | token => rw [hg] at this; simp [Green.isNode] at this
        | node k cs0 =>
          unfold Red.kind at hk
          rw [hg] at hk
          simp only [Green.kind] at hk
          exact ⟨cs0, by rw [hk]⟩
    obtain ⟨cs0, hg⟩ := hbnode
    -- the level from the only node below the root
    have hlev : ∃ top d, (Red.root tree).children = [top] ∧ Level AstIdMap.isItem top d block ∧
        Level AstIdMap.isItem (Red.root tree) d block := by
      have key : ∀ {r}, Below (Red.root tree) r → r = Red.root tree ∨ ∃ top d, (Red.root tree).children = [top] ∧
          Level AstIdMap.isItem top d r ∧ Level AstIdMap.isItem (Red.root tree) d r := by
        intro r hr
        induction hr with
        | self => exact .inl rfl
        | @child p c hp hc ih =>
          rcases ih with rfl | ⟨top, d, i1, i2, i3⟩
          · have e : (Red.root tree).children = [⟨[0], 0, .node .block cs⟩] := by rw [ht]; rfl
            have hc0 := hc
            rw [e] at hc
            simp only [List.mem_singleton] at hc
            subst hc
            refine .inr ⟨_, 0, e, .self, ?_⟩
            have := Level.child (f := AstIdMap.isItem) Level.self hc0
            rwa [if_neg (by rw [ht]; simp [AstIdMap.isItem, Red.root, Red.kind, Green.kind])] at this
          · exact .inr ⟨top, _, i1, .child i2 hc, .child i3 hc⟩
      rcases key hbel with rfl | h
      · rw [ht] at hk
        exact absurd hk (by simp [Red.root, Red.kind, Green.kind])
      · exact h
    obtain ⟨top, d, l1, l2, l3⟩ := hlev
    have hs := sameOutside_replace l3 0 (.node .block bs) (by rw [hg]; exact .inside (by decide))
    rw [hr.1, Nat.add_zero] at hs
    obtain ⟨x, top', t1, t2, t3⟩ := tops ht hs
    rw [l1] at t1
    simp only [List.cons.injEq, and_true] at t1
    subst t1
    exact ⟨top, top', d, l1, t2, by rw [← isItem_eq]; exact l2, t3⟩

/-! ### Examples -/

private def nameA (c : Char) : Green := .node .multiName [.node .name [.token .ident [c]]]
private def sp : Green := .token .whitespace [' ']
private def funF (body : List Green) : Green :=
  .node .functionDefStmt [.token .functionKw "function".toList, sp, .node .functionDefContent [.node .name [.token .ident ['f']]],
    .node .paramList [.token .lParen ['('], .token .rParen [')']], sp, .node .block body, sp, .token .endKw "end".toList]
private def before : Green :=
  .node .sourceFile [.node .block [.node .localAssignStmt [.token .localKw "local".toList, sp, nameA 'a', .token .eq ['='],
      .node .multivalExpr [.node .literal [.token .number ['1']]]], sp,
    funF [.node .localAssignStmt [.token .localKw "local".toList, sp, nameA 'b']], sp,
    .node .localAssignStmt [.token .localKw "local".toList, sp, nameA 'c']]]
private def after : Green :=
  .node .sourceFile [.node .block [.node .localAssignStmt [.token .localKw "local".toList, sp, nameA 'a'], sp,
    funF [.node .doStmt [.token .doKw "do".toList, sp, .node .block [], .token .endKw "end".toList], sp,
      .node .assignStmt [.node .multivalExpr [.node .nameRef [.token .ident ['x']]], .token .eq ['='],
        .node .multivalExpr [.node .literal [.token .number ['2']]]]], sp, .token .comment "-- c".toList,
      .token .whitespace ['\n'],
    .node .localAssignStmt [.token .localKw "local".toList, sp, nameA 'c']]]

/-- `C108_stable` on two programs: the local variables and the function keep their ids when the body of the function
and the value of a variable are edited and a comment is added. -/
example : parseText "local a=1 function f() local b end local c".toList = .ok (before, []) ∧
    parseText "local a function f() do end x=2 end -- c\nlocal c".toList = .ok (after, []) ∧
    SameOutside 1 before after ∧ ∃ top top', (Red.root before).children = [top] ∧ (Red.root after).children = [top'] ∧
      SameOutside 1 top.green top'.green ∧ KeepsIds 1 top top' := by
  have h : SameOutside 1 before after :=
    .node (by decide) (.cons (.item (by decide) (.cons (.inside (by decide)) (.left (.right
      (.cons (.inside (by decide)) (.left (.right (.right (.right (.cons (.inside (by decide)) .nil))))))))) ) .nil)
  refine ⟨by rw [parseText_eq_eval]; decide +kernel, by rw [parseText_eq_eval]; decide +kernel, h, _, _, rfl, rfl, ?_, ?_⟩
  · cases h with
    | node hk h =>
      cases h with
      | cons h t => exact h
    | item hk => exact absurd hk (by decide)
  · obtain ⟨_, _, e1, e2, e3⟩ := tops rfl h
    simp only [Red.root] at e1 e2
    cases e1; cases e2
    exact e3

/-- The ids of the two programs: the same at first, then different. -/
example : AstIdMap.fromSource ⟨[0], 0, (before.children[0]?).getD before⟩ = some [⟨⟨0, 42⟩, .block⟩,
      ⟨⟨0, 9⟩, .localAssignStmt⟩, ⟨⟨10, 34⟩, .functionDefStmt⟩, ⟨⟨35, 42⟩, .localAssignStmt⟩, ⟨⟨23, 30⟩, .block⟩,
      ⟨⟨23, 30⟩, .localAssignStmt⟩] ∧
    AstIdMap.fromSource ⟨[0], 0, (after.children[0]?).getD after⟩ = some [⟨⟨0, 48⟩, .block⟩,
      ⟨⟨0, 7⟩, .localAssignStmt⟩, ⟨⟨8, 35⟩, .functionDefStmt⟩, ⟨⟨41, 48⟩, .localAssignStmt⟩, ⟨⟨21, 31⟩, .block⟩,
      ⟨⟨24, 24⟩, .block⟩] := by
  constructor <;> rfl

end Verif
