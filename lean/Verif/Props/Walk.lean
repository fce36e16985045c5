import Verif.Proof.WalkProof
import Verif.Spec.ItemIds
import Verif.Props.Validation
import Verif.Proof.TextLemmas
import Verif.Proof.Eval

/-
C51: syntax node pointers.  C52: the walk that numbers AST items.  C53: AST id maps.
-/
namespace Verif
open Spec

/-- **C52** The walk visits every node of the tree, each exactly once: first the nodes with the fewest
`f`-nodes above them, and among those with equally many in the order of the source.  So the position of a node does
not depend on nodes with more `f`-nodes above them. -/
theorem C52_walk (f : Red → Bool) (node : Red) (h : node.green.isNode = true) :
    ∃ visited, bdfs f node = some visited ∧ visited.Nodup ∧ (∀ a, a ∈ visited ↔ Below node a) ∧
      visited.Pairwise fun a b => ∀ i j, Level f node i a → Level f node j b → i < j ∨ (i = j ∧ DocumentOrder a b) := by
  obtain ⟨vs, h1, h2, h3, h4, h5⟩ := bdfsLoop_spec f node (node.green.count + 2) node.green.count 0 [node] (by omega)
    (by intro r hr; simp at hr; subst hr; exact ⟨h, .self, Nat.le_refl _⟩) (by simp)
  refine ⟨vs, h1, ?_, ?_, h4⟩
  · refine h4.imp_of_mem ?_
    intro a b ha _ hab e
    subst e
    obtain ⟨j, _, hl⟩ := h3 a ha
    rcases hab j j hl hl with h | ⟨_, h⟩
    · omega
    · exact documentOrder_ne h rfl
  · intro a
    constructor
    · intro ha
      obtain ⟨j, _, hl⟩ := h3 a ha
      exact hl.toBelow
    · intro ha
      induction ha with
      | self => exact h2 node (by simp)
      | child _ hc ih => exact h5 _ ih _ hc

/-- **C52** Parents are visited before their children. -/
theorem C52_parents_first (f : Red → Bool) (node : Red) (h : node.green.isNode = true) :
    ∃ visited, bdfs f node = some visited ∧ ∀ p c, Below node p → c ∈ p.children →
      ∃ before between after, visited = before ++ p :: between ++ c :: after := by
  obtain ⟨vs, h1, h2, h3, h4⟩ := C52_walk f node h
  refine ⟨vs, h1, ?_⟩
  intro p c hp hc
  have hpm := (h3 p).2 hp
  have hcm := (h3 c).2 (.child hp hc)
  obtain ⟨j, hj⟩ := child_path hc
  obtain ⟨x, y, hxy⟩ := List.append_of_mem hpm
  rw [hxy] at hcm
  rcases List.mem_append.1 hcm with hx | hy
  · -- the child cannot come first
    exfalso
    rw [hxy] at h4
    obtain ⟨k, hk⟩ := hp.level (f := f)
    have hkc := Level.child hk hc
    rcases (List.pairwise_append.1 h4).2.2 c hx p (by simp) _ _ hkc hk with h | ⟨_, h⟩
    · split at h <;> omega
    · rcases h with ⟨q, a, b, s, t, e1, e2, hab⟩ | ⟨a, s, e⟩
      · rw [hj, e2] at e1
        simp only [List.append_assoc, List.cons_append] at e1
        have := List.append_cancel_left e1
        simp at this
        omega
      · have := congrArg List.length e
        rw [hj] at this
        simp at this
  · rcases List.mem_cons.1 hy with e | hy
    · exfalso
      have := congrArg (fun r : Red => r.path.length) e
      rw [hj] at this
      simp at this
    · obtain ⟨y1, y2, rfl⟩ := List.append_of_mem hy
      exact ⟨x, y1, y2, by simp [hxy]⟩

theorem isItem_iff (r : Red) : AstIdMap.isItem r = true ↔ r.kind ∈ itemKinds := by
  simp [AstIdMap.isItem, itemKinds, or_assoc]

/-- **C53** as stated fails: the id map of every file that parses without errors is a panic, because it is made from
the root of the tree and asserts that the node has a parent. -/
theorem C53_fails (tree : Green) : AstIdMap.ofFile tree [] = none := rfl

/-- A file with errors has an empty id map: looking up any item of it panics. -/
theorem C53_errors_fail (tree : Green) (e : SyntaxError) (errors : List SyntaxError) (item : Red) :
    ∃ arena, AstIdMap.ofFile tree (e :: errors) = some arena ∧ AstIdMap.astId arena item = none :=
  ⟨[], rfl, rfl⟩

private theorem idxOf?_mem {α} [DecidableEq α] {l : List α} {x : α} (h : x ∈ l) : ∃ i, l.idxOf? x = some i ∧ l[i]? = some x := by
  cases hi : l.idxOf? x with
  | none => rw [List.idxOf?_eq_none_iff] at hi; exact absurd h hi
  | some i =>
    refine ⟨i, rfl, ?_⟩
    rw [List.idxOf?_eq_some_iff] at hi
    obtain ⟨h1, h2, _⟩ := hi
    rw [List.getElem?_eq_getElem h1, h2]

/-- **C53** without the assertion on the root (missing: the assertion, which every caller violates): the map made from
a node has an id for every item below it, looking the id up gives a pointer to the item, and two items have the
same id only if they have the same kind and range. -/
theorem C53_ids_partial (node : Red) (h : node.green.isNode = true) (hp : node.path ≠ []) :
    ∃ arena, AstIdMap.fromSource node = some arena ∧
      (∀ item, Below node item → item.kind ∈ itemKinds → ∃ id, AstIdMap.astId arena item = some id ∧
        ∀ canCast : SyntaxKind → Bool, canCast item.kind = true →
          AstIdMap.get arena canCast id = some (NodePtr.new item)) ∧
      (∀ a b id, AstIdMap.astId arena a = some id → AstIdMap.astId arena b = some id →
        a.kind = b.kind ∧ a.range = b.range) := by
  obtain ⟨vs, h1, _, h3, _⟩ := C52_walk AstIdMap.isItem node h
  refine ⟨_, by unfold AstIdMap.fromSource; rw [if_neg hp, h1]; rfl, ?_, ?_⟩
  · intro item hb hi
    have hm : NodePtr.new item ∈ (vs.filter AstIdMap.isItem).map NodePtr.new :=
      List.mem_map.2 ⟨item, List.mem_filter.2 ⟨(h3 item).2 hb, (isItem_iff item).2 hi⟩, rfl⟩
    obtain ⟨i, e1, e2⟩ := idxOf?_mem hm
    refine ⟨i, e1, ?_⟩
    intro canCast hc
    unfold AstIdMap.get
    rw [e2]
    simp only
    rw [if_pos (by exact hc)]
  · intro a b id ha hb
    unfold AstIdMap.astId at ha hb
    rw [List.idxOf?_eq_some_iff] at ha hb
    obtain ⟨_, e1, _⟩ := ha
    obtain ⟨_, e2, _⟩ := hb
    have : NodePtr.new a = NodePtr.new b := by rw [← e1, ← e2]
    simp only [NodePtr.new, NodePtr.mk.injEq] at this
    exact ⟨this.2, this.1⟩

/-! ### Pointers -/

private theorem findIn_eq (p : NodePtr) (path : List Nat) : ∀ (cs : List Green) (i off : Nat),
    NodePtr.findIn p path i off cs =
      ((Red.elemsFrom path i off cs).find? fun c => c.green.isNode && c.range.containsRange p.range).bind
        fun c => NodePtr.find p c.path c.off c.green := by
  intro cs
  induction cs with
  | nil => intro i off; simp [NodePtr.findIn, Red.elemsFrom]
  | cons g gs ih =>
    intro i off
    simp only [NodePtr.findIn, Red.elemsFrom, List.find?_cons]
    by_cases h : (g.isNode && (g.range off).containsRange p.range) = true
    · simp [h, Red.range]
    · simp only [Bool.not_eq_true] at h
      simp [h, Red.range, ih]

private theorem contains_trans {a b c : Range} (h1 : a.containsRange b = true) (h2 : b.containsRange c = true) :
    a.containsRange c = true := by
  simp only [Range.containsRange, Bool.and_eq_true, decide_eq_true_eq] at *
  omega

theorem below_range {a r : Red} (h : Below a r) : a.range.containsRange r.range = true := by
  induction h with
  | self => simp [Range.containsRange]
  | child _ hc ih => exact contains_trans ih (child_range (List.mem_filter.1 hc).1)

private theorem find?_first {α} {l : List α} {q : α → Bool} {R : α → α → Prop} (hR : l.Pairwise R) {c : α} (hc : c ∈ l)
    (hq : q c = true) (hno : ∀ x, R x c → q x = true → False) : l.find? q = some c := by
  induction l with
  | nil => simp at hc
  | cons x xs ih =>
    rw [List.pairwise_cons] at hR
    rcases List.mem_cons.1 hc with rfl | hc
    · simp [hq]
    · have : q x = false := by
        cases hx : q x with
        | false => rfl
        | true => exact (hno x (hR.1 c hc) hx).elim
      rw [List.find?_cons, this]
      exact ih hR.2 hc

/-- the first step from a node towards a node below it -/
theorem below_cases {a r : Red} (h : Below a r) : r = a ∨ ∃ c ∈ a.children, Below c r := by
  induction h with
  | self => exact .inl rfl
  | child hp hc ih =>
    rcases ih with rfl | ⟨c', hc', hb⟩
    · exact .inr ⟨_, hc, .self⟩
    · exact .inr ⟨c', hc', .child hb hc⟩

theorem below_of_child {a c r : Red} (hc : c ∈ a.children) (h : Below c r) : Below a r := by
  induction h with
  | self => exact .child .self hc
  | child _ hc' ih => exact .child ih hc'

private theorem find_spec (r : Red) (hlen : 0 < r.green.len) (a : Red) : a.green.isNode = true → Below a r →
    ∃ r', NodePtr.find (NodePtr.new r) a.path a.off a.green = some r' ∧ Below a r' ∧ Below r' r ∧
      r'.kind = r.kind ∧ r'.range = r.range := by
  refine red_ind (P := fun a => a.green.isNode = true → Below a r →
    ∃ r', NodePtr.find (NodePtr.new r) a.path a.off a.green = some r' ∧ Below a r' ∧ Below r' r ∧
      r'.kind = r.kind ∧ r'.range = r.range) ?_ a
  intro a ih hn hb
  rcases a with ⟨path, off, g⟩
  cases g with
  | token => simp [Green.isNode] at hn
  | node k cs =>
    simp only [NodePtr.find]
    by_cases hm : (Green.node k cs).range off = (NodePtr.new r).range ∧ k = (NodePtr.new r).kind
    · rw [if_pos hm]
      exact ⟨_, rfl, .self, hb, hm.2, hm.1⟩
    · rw [if_neg hm]
      rcases below_cases hb with e | ⟨c, hc, hbc⟩
      · exfalso
        apply hm
        rw [e]
        exact ⟨rfl, rfl⟩
      · have hcm := List.mem_filter.1 hc
        have hfind : (Red.elemsFrom path 0 off cs).find?
            (fun c => c.green.isNode && c.range.containsRange (NodePtr.new r).range) = some c := by
          refine find?_first (elemsFrom_ranges path cs 0 off).1 hcm.1 ?_ ?_
          · have := below_range hbc
            simp only [Bool.and_eq_true]
            exact ⟨hcm.2, this⟩
          · intro x hx hq
            have h1 := below_range hbc
            simp only [Bool.and_eq_true, Range.containsRange, decide_eq_true_eq] at hq h1
            have h2 : r.range.start < r.range.stop := by
              simp only [Red.range, Green.range, Range.ofLen]; omega
            have h3 : (NodePtr.new r).range = r.range := rfl
            rw [h3] at hq
            omega
        rw [findIn_eq, hfind]
        obtain ⟨r', e1, e2, e3, e4⟩ := ih c hc (child_node hc) hbc
        exact ⟨r', e1, below_of_child hc e2, e3, e4⟩

/-- **C51** for nodes that are not empty (missing: empty nodes, where it fails): a pointer to a node of a tree resolves,
without a panic, to a node of the same kind and range; that node is the outermost one above the node (itself included)
with its kind and range. -/
theorem C51_resolves_partial (tree : Green) (h : tree.isNode = true) (r : Red) (hb : Below (Red.root tree) r)
    (hne : r.green.text ≠ []) :
    ∃ r', (NodePtr.new r).toNode tree = some r' ∧ r'.kind = r.kind ∧ r'.range = r.range ∧
      Below (Red.root tree) r' ∧ Below r' r := by
  have hlen : 0 < r.green.len := Text.len_pos hne
  obtain ⟨r', e1, e2, e3, e4, e5⟩ := find_spec r hlen (Red.root tree) h hb
  exact ⟨r', e1, e4, e5, e2, e3⟩

/-- **C51** A node that is not empty, and has no node of its kind and range above it, is found itself. -/
theorem C51_same_node_partial (tree : Green) (h : tree.isNode = true) (r : Red) (hb : Below (Red.root tree) r)
    (hne : r.green.text ≠ []) (houter : ∀ a, Below (Red.root tree) a → Above a r → ¬ (a.kind = r.kind ∧ a.range = r.range)) :
    (NodePtr.new r).toNode tree = some r := by
  obtain ⟨r', e1, e2, e3, e4, e5⟩ := C51_resolves_partial tree h r hb hne
  rw [e1]
  by_cases e : r = r'
  · rw [e]
  · exfalso
    refine houter r' e4 ?_ ⟨e2, e3⟩
    rcases below_cases e5 with e' | ⟨c, hc, hbc⟩
    · exact absurd e' e
    · obtain ⟨j, hj⟩ := child_path hc
      obtain ⟨t, ht⟩ := below_prefix hbc
      exact ⟨j, t, by rw [← ht, hj]; simp⟩

/-! ### Concrete files -/

/-- the tree of `function f()end` -/
private def emptyFunction : Green :=
  .node .sourceFile [.node .block [.node .functionDefStmt [.token .functionKw "function".toList,
    .token .whitespace " ".toList, .node .functionDefContent [.node .name [.token .ident "f".toList]],
    .node .paramList [.token .lParen "(".toList, .token .rParen ")".toList], .node .block [],
    .token .endKw "end".toList]]]

/-- the node reached by taking child nodes, for concrete cases -/
private def nodeAt : Red → List Nat → Option Red
  | r, [] => some r
  | r, i :: is => (r.children[i]?).bind (nodeAt · is)

private theorem nodeAt_below {a r b : Red} (path : List Nat) (h : Below a r) (he : nodeAt r path = some b) :
    Below a b := by
  induction path generalizing r with
  | nil => simp only [nodeAt, Option.some.injEq] at he; rw [← he]; exact h
  | cons i is ih =>
    simp only [nodeAt, Option.bind_eq_some_iff] at he
    obtain ⟨c, hc, he⟩ := he
    exact ih (.child h (List.mem_of_getElem? hc)) he

/-- **C51 fails** for empty nodes: in `function f()end`, which parses without errors, the pointer to the empty body of
the function does not resolve: the way down enters the parameter list, which ends where the body is. -/
theorem C51_empty_block_fails : ∃ tree, sourceFileParse "function f()end".toList = .ok (tree, []) ∧
    ∃ r, Below (Red.root tree) r ∧ r.kind = .block ∧ r.range = ⟨12, 12⟩ ∧ (NodePtr.new r).toNode tree = none := by
  refine ⟨emptyFunction, by rw [sourceFileParse_eq_eval]; decide +kernel, ⟨[0, 0, 4], 12, .node .block []⟩, ?_, rfl,
    rfl, rfl⟩
  exact nodeAt_below [0, 0, 2] .self rfl

/-- The hypotheses of C51 are met by the parameter list of `function f()end`. -/
example : ∃ r, (NodePtr.mk ⟨10, 12⟩ .paramList).toNode emptyFunction = some r ∧ r.kind = .paramList ∧
    r.range = ⟨10, 12⟩ := by
  obtain ⟨r', h1, h2, h3, _⟩ := C51_resolves_partial emptyFunction rfl
    ⟨[0, 0, 3], 10, .node .paramList [.token .lParen "(".toList, .token .rParen ")".toList]⟩
    (nodeAt_below [0, 0, 1] .self rfl) (by simp [Green.text, Green.textL])
  exact ⟨r', h1, h2, h3⟩

/-- The walk over `function f()end`: the file, its block (an item), the function (an item), then what is in it. -/
example : (bdfs AstIdMap.isItem (Red.root emptyFunction)).map (·.map fun r => (r.kind, r.range)) =
    some [(.sourceFile, ⟨0, 15⟩), (.block, ⟨0, 15⟩), (.functionDefStmt, ⟨0, 15⟩), (.functionDefContent, ⟨9, 10⟩),
      (.name, ⟨9, 10⟩), (.paramList, ⟨10, 12⟩), (.block, ⟨12, 12⟩)] := by decide +kernel

/-- The id map of the block of `function f()end`, which has a parent: three items, the inner block last. -/
example : ∃ arena, AstIdMap.fromSource ⟨[0], 0, emptyFunction.children.headD default⟩ = some arena ∧
    AstIdMap.astId arena ⟨[0, 0, 4], 12, .node .block []⟩ = some 2 := ⟨_, rfl, by decide +kernel⟩

end Verif
