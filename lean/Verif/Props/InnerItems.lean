import Verif.Props.ItemTree

/-
C114: the items inside the blocks of a file.
-/
namespace Verif.Hir
open Spec Lua

variable {text : Text}

/-- The items listed under the id of a block. -/
def ItemTree.innerItems (t : ItemTree) (id : Nat) : List ModItem := (t.inner.lookup id).getD []

/-- The items `ms` are, in order, those of the statements `ss`: each says what its statement says, and its source is
that very statement. -/
def ItemsOf (tree : Green) (arena : List NodePtr) (t : ItemTree) (ss : List Red) (ms : List ModItem) : Prop :=
  ms.length = ss.length ∧ ∀ q ∈ ss.zip ms, Describes tree arena t q.1 q.2

private theorem lookup_push (id j : Nat) (m : ModItem) : ∀ l : List (Nat × List ModItem),
    ((pushInner id m l).lookup j).getD [] = (l.lookup j).getD [] ++ if j = id then [m] else []
  | [] => by
    by_cases h : j = id
    · simp [pushInner, List.lookup, h]
    · have : (j == id) = false := by simpa using h
      simp [pushInner, List.lookup, h, this]
  | (i, ms) :: rest => by
    have ih := lookup_push id j m rest
    unfold pushInner
    split
    · rename_i e
      subst e
      by_cases h : j = i
      · simp [List.lookup, h]
      · have : (j == i) = false := by simpa using h
        simp [List.lookup, this, h]
    · rename_i e
      by_cases h : j = i
      · have : j ≠ id := fun h' => e (h ▸ h')
        simp [List.lookup, h, e]
      · have : (j == i) = false := by simpa using h
        simp only [List.lookup, this]
        exact ih

private theorem lower_inner {ctx ctx' : Ctx} {item : Ast.StmtItem} {m : Option ModItem}
    (h : lowerModItem ctx item = some (m, ctx')) : ctx'.tree.inner = ctx.tree.inner := by
  cases item with
  | localAssignStmt r =>
    simp only [lowerModItem, lowerLocalAssign, Option.map_eq_some_iff] at h
    obtain ⟨⟨i, c⟩, h, e⟩ := h
    cases e
    split at h
    · cases h; rfl
    · simp only [Option.bind_eq_bind, Option.bind_eq_some_iff] at h
      obtain ⟨_, _, _, _, h⟩ := h
      cases h; rfl
  | localFunctionDefStmt r =>
    simp only [lowerModItem, lowerLocalFunction, Option.map_eq_some_iff] at h
    obtain ⟨⟨i, c⟩, h, e⟩ := h
    cases e
    split at h
    · cases h; rfl
    · simp only [Option.bind_eq_bind, Option.bind_eq_some_iff] at h
      obtain ⟨_, _, h⟩ := h
      split at h
      · cases h; rfl
      · simp only [Option.bind_eq_some_iff] at h
        obtain ⟨_, _, h⟩ := h
        split at h
        · cases h; rfl
        · simp only [Option.bind_eq_some_iff] at h
          obtain ⟨_, _, h⟩ := h
          cases h; rfl
  | functionDefStmt r =>
    simp only [lowerModItem, lowerFunction, Option.map_eq_some_iff] at h
    obtain ⟨⟨i, c⟩, h, e⟩ := h
    cases e
    split at h
    · cases h; rfl
    · simp only [Option.bind_eq_bind, Option.bind_eq_some_iff] at h
      obtain ⟨_, _, h⟩ := h
      split at h
      · cases h; rfl
      · simp only [Option.bind_eq_some_iff] at h
        obtain ⟨_, _, h⟩ := h
        cases h; rfl

/-- the walk, as a function of the node -/
private def pre (r : Red) : List WalkEvent := preorder r.path r.off r.green

private theorem preL_eq (path : List Nat) : ∀ (cs : List Green) (i off : Nat),
    preorderL path i off cs = ((Red.elemsFrom path i off cs).filter (·.green.isNode)).flatMap pre := by
  intro cs
  induction cs with
  | nil => intro i off; simp [preorderL, Red.elemsFrom]
  | cons g gs ih =>
    intro i off
    simp only [preorderL, Red.elemsFrom, ih]
    cases g with
    | token k t => simp [preorder, Green.isNode]
    | node k cs => simp [Green.isNode, pre]

private theorem pre_node (r : Red) (h : r.green.isNode = true) :
    pre r = .enter r :: (r.children.flatMap pre ++ [.leave r]) := by
  rcases r with ⟨path, off, g⟩
  cases g with
  | token => simp [Green.isNode] at h
  | node k cs =>
    unfold pre
    simp only [preorder, preL_eq]
    rfl

private theorem mem_separated {sep : SyntaxKind} {item : Sym → Prop} {ss : List Sym} (h : Separated sep item ss) :
    ∀ s ∈ ss, item s ∨ s = .tok sep := by
  induction h with
  | one s hs => simp [hs]
  | cons s ss hs _ ih =>
    intro x hx
    simp only [List.mem_cons] at hx
    rcases hx with rfl | rfl | hx
    · exact .inl hs
    · exact .inr rfl
    · exact ih x hx

private theorem mem_entries {ss : List Sym} (h : Entries ss) : ∀ s ∈ ss, s = .node .tableContent ∨ s = .node .tableSep := by
  induction h with
  | nil => simp
  | last => simp
  | cons ss _ ih =>
    intro x hx
    simp only [List.mem_cons] at hx
    rcases hx with rfl | rfl | hx
    · exact .inl rfl
    · exact .inr rfl
    · exact ih x hx

private def itemStmts : List Sym := [.node .localAssignStmt, .node .localFunctionDefStmt, .node .functionDefStmt]

private theorem expr_notItem {s : Sym} (h : IsExpr s) : s ∉ itemStmts := by
  obtain ⟨k, hk, rfl⟩ := h
  revert k
  decide

private theorem separated_notItem {sep : SyntaxKind} {item : Sym → Prop} {ss : List Sym} (h : Separated sep item ss)
    (hi : ∀ s, item s → s ∉ itemStmts) : ∀ s ∈ ss, s ∉ itemStmts := by
  intro s hs
  rcases mem_separated h s hs with h | rfl
  · exact hi s h
  · simp [itemStmts]

private theorem entries_notItem {ss : List Sym} (h : Entries ss) : ∀ s ∈ ss, s ∉ itemStmts := by
  intro s hs
  rcases mem_entries h s hs with rfl | rfl <;> decide

private theorem else_notItem {ss : List Sym} (h : ElseOpt ss) : ∀ s ∈ ss, s ∉ itemStmts := by
  cases h <;> decide

private theorem production_notItem {k : SyntaxKind} {ss : List Sym} (h : Production k ss) (hk : k ≠ .block) :
    ∀ s ∈ ss, s ∉ itemStmts := by
  cases h with
  | block => exact absurd rfl hk
  | multivalExpr _ h => exact separated_notItem h fun s hs => expr_notItem hs
  | multiName _ h => exact separated_notItem h fun s hs => by subst hs; decide
  | indexPath _ h => exact separated_notItem h fun s hs => by subst hs; decide
  | multiNameComma _ h =>
    intro s hs
    rcases List.mem_append.1 hs with hs | hs
    · exact separated_notItem h (fun s hs => by subst hs; decide) s hs
    · simp at hs; subst hs; decide
  | indexPathDot _ h =>
    intro s hs
    rcases List.mem_append.1 hs with hs | hs
    · exact separated_notItem h (fun s hs => by subst hs; decide) s hs
    · simp at hs; subst hs; decide
  | tableExpr _ h =>
    intro s hs
    simp only [List.mem_cons, List.mem_append, List.not_mem_nil, or_false] at hs
    rcases hs with rfl | hs | rfl
    · decide
    · exact entries_notItem h s hs
    · decide
  | ifStmt e ss he h =>
    have := expr_notItem he
    intro s hs
    simp only [List.mem_cons, List.mem_append, List.not_mem_nil, or_false] at hs
    rcases hs with rfl | rfl | rfl | rfl | hs | rfl
    all_goals first | assumption | exact else_notItem h s hs | decide
  | elseIfBranch e ss he h =>
    have := expr_notItem he
    intro s hs
    simp only [List.mem_cons, List.mem_append, List.not_mem_nil, or_false] at hs
    rcases hs with rfl | rfl | rfl | rfl | hs
    all_goals first | assumption | exact else_notItem h s hs | decide
  | callArgs s h => revert s; decide
  | infixExpr l op r hl _ hr =>
    have := expr_notItem hl
    have := expr_notItem hr
    intro s hs
    simp only [List.mem_cons, List.not_mem_nil, or_false] at hs
    rcases hs with rfl | rfl | rfl
    all_goals first | assumption | simp [itemStmts]
  | _ =>
    first
    | decide
    | (rename_i k h; revert k; decide)
    | (rename_i e h
       have := expr_notItem h
       intro s hs
       simp only [List.mem_cons, List.not_mem_nil, or_false] at hs
       repeat' first | (rcases hs with rfl | hs) | (subst hs)
       all_goals first | assumption | simp [itemStmts])
    | (rename_i e _ h
       have := expr_notItem h
       intro s hs
       simp only [List.mem_cons, List.not_mem_nil, or_false] at hs
       repeat' first | (rcases hs with rfl | hs) | (subst hs)
       all_goals first | assumption | simp [itemStmts])

/-- In the tree of an error-free file only blocks have statements as children. -/
theorem items_in_blocks (tree : Green) (h : parseText text = .ok (tree, [])) (r c : Red) (hr : Below (Red.root tree) r)
    (hc : c ∈ r.children) (hk : r.kind ≠ .block) : Ast.StmtItem.cast c = none := by
  have P := productions text tree h r hr
  have hm : sym c ∈ (parts r).map sym := by
    refine List.mem_map_of_mem (List.mem_filter.2 ⟨(List.mem_filter.1 hc).1, ?_⟩)
    simp [child_node hc]
  have hs : sym c = .node c.kind := by simp [sym, child_node hc]
  have := production_notItem P hk _ hm
  rw [hs] at this
  unfold Ast.StmtItem.cast
  split <;> simp_all [itemStmts]

private theorem _root_.Verif.Spec.Below.trans' {a b c : Red} (h : Below a b) (h' : Below b c) : Below a c := by
  induction h' with
  | self => exact h
  | child _ hc ih => exact .child ih hc

/-- which statements a walk over the nodes `rs` lists, with the block `top` around them -/
private structure Owed (arena : List NodePtr) (rs : List Red) (top : Option Nat) (g : Nat → List Red) : Prop where
  inside : ∀ r ∈ rs, ∀ b, Below r b → b.kind = .block → ∀ id, AstIdMap.astId arena b = some id → top ≠ some id →
    g id = b.children.filter kept
  here : ∀ id, top = some id → (∀ r ∈ rs, ∀ b, Below r b → b.kind = .block → AstIdMap.astId arena b ≠ some id) →
    g id = rs.filter kept
  other : ∀ id, top ≠ some id → (∀ r ∈ rs, ∀ b, Below r b → b.kind = .block → AstIdMap.astId arena b ≠ some id) →
    g id = []

private structure Walked (tree : Green) (arena : List NodePtr) (rs : List Red) (top : Option Nat) (ctx ctx' : Ctx) : Prop where
  keeps : ctx'.arena = arena
  ext : Ext ctx.tree ctx'.tree
  items : ∃ g, Owed arena rs top g ∧ ∀ id, ∃ ms, ctx'.tree.innerItems id = ctx.tree.innerItems id ++ ms ∧
    ItemsOf tree arena ctx'.tree (g id) ms

private theorem Ext.refl (t : ItemTree) : Ext t t := ⟨⟨[], by simp⟩, [], by simp⟩

private theorem Ext.trans {t u v : ItemTree} (h : Ext t u) (h' : Ext u v) : Ext t v := by
  obtain ⟨⟨a1, e1⟩, ⟨b1, f1⟩⟩ := h
  obtain ⟨⟨a2, e2⟩, ⟨b2, f2⟩⟩ := h'
  exact ⟨⟨a1 ++ a2, by rw [e2, e1]; simp⟩, b1 ++ b2, by rw [f2, f1]; simp⟩

private theorem ItemsOf.mono {tree : Green} {arena : List NodePtr} {t u : ItemTree} {ss : List Red} {ms : List ModItem}
    (h : ItemsOf tree arena t ss ms) (e : Ext t u) : ItemsOf tree arena u ss ms :=
  ⟨h.1, describes_zip h.2 e⟩

private theorem ItemsOf.append {tree : Green} {arena : List NodePtr} {t : ItemTree} {ss ss' : List Red} {ms ms' : List ModItem}
    (h : ItemsOf tree arena t ss ms) (h' : ItemsOf tree arena t ss' ms') : ItemsOf tree arena t (ss ++ ss') (ms ++ ms') := by
  refine ⟨by simp [h.1, h'.1], fun q hq => ?_⟩
  rw [List.zip_append h.1.symm] at hq
  rcases List.mem_append.1 hq with hq | hq
  · exact h.2 q hq
  · exact h'.2 q hq

private theorem ItemsOf.nil {tree : Green} {arena : List NodePtr} {t : ItemTree} : ItemsOf tree arena t [] [] :=
  ⟨rfl, by simp⟩

private theorem kept_cast {r : Red} (h : Ast.StmtItem.cast r = none) : kept r = false := by
  unfold Ast.StmtItem.cast at h
  unfold kept
  split at h <;> simp_all

section
variable {tree : Green} {node : Red} {arena : List NodePtr} (h : parseText text = .ok (tree, []))
  (hn : Below (Red.root tree) node)
  (hids : ∀ item, Below node item → item.kind ∈ itemKinds → ∃ id, AstIdMap.astId arena item = some id ∧
        (∀ other, Below node other → AstIdMap.astId arena other = some id → other = item) ∧
        ∀ canCast : SyntaxKind → Bool, canCast item.kind = true → item.green.text ≠ [] →
          (AstIdMap.get arena canCast id).bind (NodePtr.toNode · tree) = some item)
include h hn hids

private theorem block_unique {a b : Red} {id : Nat} (ha : Below node a) (hb : Below node b) (ka : a.kind = .block)
    (ea : AstIdMap.astId arena a = some id) (eb : AstIdMap.astId arena b = some id) : b = a := by
  obtain ⟨i, h1, h2, _⟩ := hids a ha (by simp [itemKinds, ka])
  rw [ea] at h1
  cases h1
  exact h2 b hb eb

private theorem walk_list (rs : List Red) (hrs : ∀ r ∈ rs, Below node r) (hl : rs.Pairwise Left)
    (ih : ∀ r ∈ rs, ∀ (ctx : Ctx) (st : List Nat), ctx.arena = arena → ∃ ctx',
      (pre r).foldlM collectStep (ctx, st) = some (ctx', st) ∧ Walked tree arena [r] st.head? ctx ctx') :
    ∀ (ctx : Ctx) (st : List Nat), ctx.arena = arena → ∃ ctx',
      (rs.flatMap pre).foldlM collectStep (ctx, st) = some (ctx', st) ∧ Walked tree arena rs st.head? ctx ctx' := by
  induction rs with
  | nil =>
    intro ctx st hc
    exact ⟨ctx, rfl, hc, .refl _, fun _ => [], ⟨by simp, by simp, by simp⟩, fun id => ⟨[], by simp, .nil⟩⟩
  | cons r rs ihl =>
    intro ctx st hc
    obtain ⟨ctx1, h1, w1⟩ := ih r (by simp) ctx st hc
    obtain ⟨ctx2, h2, w2⟩ := ihl (fun x hx => hrs x (by simp [hx])) (List.pairwise_cons.1 hl).2
      (fun x hx => ih x (by simp [hx])) ctx1 st w1.keeps
    obtain ⟨g1, o1, i1⟩ := w1.items
    obtain ⟨g2, o2, i2⟩ := w2.items
    refine ⟨ctx2, by simp [List.foldlM_append, h1, h2], w2.keeps, w1.ext.trans w2.ext, fun id => g1 id ++ g2 id, ⟨?_, ?_, ?_⟩, ?_⟩
    · intro x hx b hb kb id hid ht
      have apart : ∀ {x y b b' : Red}, x ∈ r :: rs → y ∈ r :: rs → Left x y → Below x b → Below y b' → b.kind = .block →
          AstIdMap.astId arena b = some id → AstIdMap.astId arena b' ≠ some id := by
        intro x y b b' hx hy hxy hb hb' kb e e'
        have := block_unique h hn hids ((hrs x hx).trans' hb) ((hrs y hy).trans' hb') kb e e'
        subst this
        exact left_ne (left_append hxy (below_prefix hb) (below_prefix hb')) rfl
      rcases List.mem_cons.1 hx with rfl | hx'
      · rw [o1.inside x (by simp) b hb kb id hid ht, o2.other id ht, List.append_nil]
        intro y hy b' hb' _
        exact apart (by simp) (by simp [hy]) ((List.pairwise_cons.1 hl).1 y hy) hb hb' kb hid
      · rw [o2.inside x hx' b hb kb id hid ht, o1.other id ht, List.nil_append]
        intro y hy b' hb' kb' e'
        simp only [List.mem_singleton] at hy
        subst hy
        exact apart (by simp) hx ((List.pairwise_cons.1 hl).1 x hx') hb' hb kb' e' hid
    · intro id ht hno
      rw [o1.here id ht (fun x hx => hno x (by simp_all)), o2.here id ht (fun x hx => hno x (by simp [hx])), ← List.filter_append]
      rfl
    · intro id ht hno
      rw [o1.other id ht (fun x hx => hno x (by simp_all)), o2.other id ht (fun x hx => hno x (by simp [hx]))]
      rfl
    · intro id
      obtain ⟨m1, e1, f1⟩ := i1 id
      obtain ⟨m2, e2, f2⟩ := i2 id
      exact ⟨m1 ++ m2, by rw [e2, e1, List.append_assoc], (f1.mono w2.ext).append f2⟩

private theorem walk_node (r : Red) : Below node r → r.green.isNode = true → ∀ (ctx : Ctx) (st : List Nat), ctx.arena = arena →
    ∃ ctx', (pre r).foldlM collectStep (ctx, st) = some (ctx', st) ∧ Walked tree arena [r] st.head? ctx ctx' := by
  induction r using red_ind with
  | h r ih =>
  intro hr hg ctx st hc
  have list := walk_list h hn hids r.children (fun c hc => .child hr hc) (children_left r)
    (fun c hcc => ih c hcc (.child hr hcc) (child_node hcc))
  have strict : ∀ {c b : Red}, c ∈ r.children → Below c b → b ≠ r := by
    intro c b hcc hb e
    subst e
    obtain ⟨j, e⟩ := child_path hcc
    obtain ⟨t, e'⟩ := below_prefix hb
    rw [e] at e'
    have := congrArg List.length e'
    simp at this
  have split : ∀ {b : Red}, Below r b → b = r ∨ ∃ c ∈ r.children, Below c b := by
    intro b hb
    induction hb with
    | self => exact .inl rfl
    | child hp hcc ihb =>
      rcases ihb with rfl | ⟨d, hd, hb⟩
      · exact .inr ⟨_, hcc, .self⟩
      · exact .inr ⟨d, hd, .child hb hcc⟩
  rw [pre_node r hg]
  by_cases hk : r.kind = .block
  · obtain ⟨id, h1, h2, _⟩ := hids r hr (by simp [itemKinds, hk])
    obtain ⟨ctx', h3, w⟩ := list ctx (id :: st) hc
    refine ⟨ctx', ?_, w.keeps, w.ext, ?_⟩
    · have e : collectStep (ctx, st) (.enter r) = some (ctx, id :: st) := by simp [collectStep, hk, hc, h1]
      have e' : collectStep (ctx', id :: st) (.leave r) = some (ctx', st) := by simp [collectStep, hk]
      simp [List.foldlM_cons, List.foldlM_append, e, h3, e']
    · obtain ⟨g, o, i⟩ := w.items
      have fresh : ∀ c ∈ r.children, ∀ b, Below c b → b.kind = .block → AstIdMap.astId arena b ≠ some id :=
        fun c hcc b hb kb e => strict hcc hb (h2 b ((Below.child hr hcc).trans' hb) e)
      have kr : kept r = false := by simp [kept, hk]
      refine ⟨g, ⟨?_, ?_, ?_⟩, i⟩
      · intro x hx b hb kb j hj _
        simp only [List.mem_singleton] at hx
        subst hx
        rcases split hb with rfl | ⟨c, hcc, hb⟩
        · rw [h1] at hj
          cases hj
          exact o.here _ rfl fresh
        · refine o.inside c hcc b hb kb j hj ?_
          intro e
          cases e
          exact fresh c hcc b hb kb hj
      · intro j ht hno
        have : some id ≠ some j := by
          intro e
          cases e
          exact hno r (by simp) r .self hk h1
        rw [o.other j this (fun c hcc b hb kb => hno r (by simp) b ((Below.child .self hcc).trans' hb) kb)]
        simp [kr]
      · intro j ht hno
        have : some id ≠ some j := by
          intro e
          cases e
          exact hno r (by simp) r .self hk h1
        exact o.other j this (fun c hcc b hb kb => hno r (by simp) b ((Below.child .self hcc).trans' hb) kb)
  · have key : ∀ (ctx1 : Ctx) (k : Nat → List Red), collectStep (ctx, st) (.enter r) = some (ctx1, st) → ctx1.arena = arena →
        Ext ctx.tree ctx1.tree →
        (∀ id, ∃ ms, ctx1.tree.innerItems id = ctx.tree.innerItems id ++ ms ∧ ItemsOf tree arena ctx1.tree (k id) ms) →
        (∀ id, k id = if st.head? = some id then [r].filter kept else []) →
        ∃ ctx', (WalkEvent.enter r :: (r.children.flatMap pre ++ [.leave r])).foldlM collectStep (ctx, st) = some (ctx', st) ∧
          Walked tree arena [r] st.head? ctx ctx' := by
      intro ctx1 k h1 h2 h3 h4 h5
      obtain ⟨ctx', h6, w⟩ := list ctx1 st h2
      obtain ⟨g, o, i⟩ := w.items
      refine ⟨ctx', ?_, w.keeps, h3.trans w.ext, fun id => k id ++ g id, ⟨?_, ?_, ?_⟩, ?_⟩
      · have e' : collectStep (ctx', st) (.leave r) = some (ctx', st) := by simp [collectStep, hk]
        simp [List.foldlM_cons, List.foldlM_append, h1, h6, e']
      · intro x hx b hb kb j hj ht
        simp only [List.mem_singleton] at hx
        subst hx
        rcases split hb with rfl | ⟨c, hcc, hb⟩
        · exact absurd kb hk
        · rw [o.inside c hcc b hb kb j hj ht, h5, if_neg ht]
          rfl
      · intro j ht hno
        rw [o.here j ht (fun c hcc b hb kb => hno r (by simp) b ((Below.child .self hcc).trans' hb) kb), h5, if_pos ht]
        have : r.children.filter kept = [] := by
          refine List.filter_eq_nil_iff.2 fun c hcc => ?_
          simp [kept_cast (items_in_blocks tree h r c (hn.trans' hr) hcc hk)]
        rw [this, List.append_nil]
      · intro j ht hno
        rw [o.other j ht (fun c hcc b hb kb => hno r (by simp) b ((Below.child .self hcc).trans' hb) kb), h5, if_neg ht]
        rfl
      · intro id
        obtain ⟨m1, e1, f1⟩ := h4 id
        obtain ⟨m2, e2, f2⟩ := i id
        exact ⟨m1 ++ m2, by rw [e2, e1, List.append_assoc], (f1.mono w.ext).append f2⟩
    cases hcast : Ast.StmtItem.cast r with
    | none =>
      refine key ctx (fun _ => []) (by simp [collectStep, hk, hcast]) hc (.refl _) (fun id => ⟨[], by simp, .nil⟩) ?_
      intro id
      simp [kept_cast hcast]
    | some item =>
      have hitem : r.kind ∈ itemKinds := by
        unfold Ast.StmtItem.cast at hcast
        split at hcast <;> simp_all [itemKinds]
      obtain ⟨id, h1, _, h2⟩ := hids r hr hitem
      have hne : r.green.text ≠ [] := by
        refine node_ne (text := text) ⟨tree, h, hn.trans' hr, rfl⟩ ?_ ?_ ?_ <;>
        · intro e
          simp [Ast.StmtItem.cast, e] at hcast
      obtain ⟨m, ctx1, h3, h4, h5, h6⟩ := lower_one ctx r item h (hn.trans' hr) hcast
        ⟨id, hc ▸ h1, fun can hcan => hc ▸ h2 can hcan hne⟩
      have hin := lower_inner h3
      have hin' : ∀ j, ctx1.tree.innerItems j = ctx.tree.innerItems j := by
        intro j
        simp only [ItemTree.innerItems, hin]
      rcases h6 with ⟨hkept, m', rfl, hd⟩ | ⟨hkept, rfl⟩
      · cases hst : st with
        | nil =>
          subst hst
          refine key ctx1 (fun _ => []) (by simp [collectStep, hk, hcast, h3]) (h4.trans hc) h5
            (fun j => ⟨[], by simp [hin'], .nil⟩) (by simp)
        | cons t st' =>
          subst hst
          refine key { ctx1 with tree := { ctx1.tree with inner := pushInner t m' ctx1.tree.inner } }
            (fun j => if j = t then [r] else []) (by simp [collectStep, hk, hcast, h3]) (h4.trans hc) h5 ?_ ?_
          · intro j
            refine ⟨if j = t then [m'] else [], ?_, ?_⟩
            · show ((pushInner t m' ctx1.tree.inner).lookup j).getD [] = _
              rw [lookup_push, ← hin' j]
              rfl
            · by_cases e : j = t
              · simp only [e, if_true]
                refine ⟨rfl, fun q hq => ?_⟩
                simp only [List.zip_cons_cons, List.zip_nil_left, List.mem_singleton] at hq
                subst hq
                rw [hc] at hd
                exact hd.mono ⟨⟨[], by simp⟩, [], by simp⟩
              · simp only [e, if_false]
                exact .nil
          · intro j
            simp [hkept, eq_comm]
      · refine key ctx1 (fun _ => []) (by simp [collectStep, hk, hcast, h3]) (h4.trans hc) h5
          (fun j => ⟨[], by simp [hin'], .nil⟩) (by simp [hkept])
end

/-- **C114** (missing: nothing calls the function): collecting the inner items of a node of an error-free file never
panics, and lists under every block inside the node exactly the items of the statements the block is made of, in the
order of the source (`local` declarations, and local functions with a parameter list other than `()`), each with the
names its statement declares and with that very statement as its source; nothing is listed anywhere else. -/
theorem C114_inner_partial (text : Text) (tree : Green) (h : parseText text = .ok (tree, [])) (node : Red)
    (hn : Below (Red.root tree) node) (hp : node.path ≠ []) (arena : List NodePtr)
    (ha : AstIdMap.fromSource node = some arena) (container : Red) (hc : Below node container) :
    ∃ ctx', collectInnerItems ⟨{}, arena⟩ container = some ctx' ∧
      (∀ b, Below container b → b ≠ container → b.kind = .block → ∃ id, AstIdMap.astId arena b = some id ∧
        ItemsOf tree arena ctx'.tree (b.children.filter kept) (ctx'.tree.innerItems id)) ∧
      ∀ id, ctx'.tree.innerItems id ≠ [] →
        ∃ b, Below container b ∧ b ≠ container ∧ b.kind = .block ∧ AstIdMap.astId arena b = some id := by
  obtain ⟨arena', ha', hids⟩ := C53_error_free_partial text tree h node hn hp
  rw [ha] at ha'
  cases ha'
  have strict : ∀ {c b : Red}, c ∈ container.children → Below c b → b ≠ container := by
    intro c b hcc hb e
    subst e
    obtain ⟨j, e⟩ := child_path hcc
    obtain ⟨t, e'⟩ := below_prefix hb
    rw [e] at e'
    have := congrArg List.length e'
    simp at this
  have split : ∀ {b : Red}, Below container b → b = container ∨ ∃ c ∈ container.children, Below c b := by
    intro b hb
    induction hb with
    | self => exact .inl rfl
    | child hp hcc ihb =>
      rcases ihb with rfl | ⟨d, hd, hb⟩
      · exact .inr ⟨_, hcc, .self⟩
      · exact .inr ⟨d, hd, .child hb hcc⟩
  have hg : container.green.isNode = true := by
    cases hn.trans' hc with
    | self =>
      have : Below node (Red.root tree) → node.path = [] := fun hb => by
        have := below_prefix hb
        simpa [Red.root] using this
      exact absurd (this hc) hp
    | child _ hcc => exact child_node hcc
  obtain ⟨ctx', h1, w⟩ := walk_list h hn hids container.children (fun c hcc => .child hc hcc) (children_left container)
    (fun c hcc => walk_node h hn hids c (.child hc hcc) (child_node hcc)) ⟨{}, arena⟩ [] rfl
  obtain ⟨g, o, i⟩ := w.items
  have e' : ∃ st, collectStep (ctx', []) (.leave container) = some (ctx', st) := by
    by_cases hk : container.kind = .block
    · exact ⟨[], by simp [collectStep, hk]⟩
    · exact ⟨[], by simp [collectStep, hk]⟩
  obtain ⟨st, e'⟩ := e'
  refine ⟨ctx', ?_, ?_, ?_⟩
  · have e := pre_node container hg
    unfold pre at e
    unfold collectInnerItems
    rw [e]
    show ((container.children.flatMap pre ++ [WalkEvent.leave container]).foldlM collectStep (⟨{}, arena⟩, [])).map _ = _
    simp [List.foldlM_append, h1, e']
  · intro b hb hne kb
    obtain ⟨id, h2, _⟩ := hids b (hc.trans' hb) (by simp [itemKinds, kb])
    refine ⟨id, h2, ?_⟩
    rcases split hb with rfl | ⟨c, hcc, hb⟩
    · exact absurd rfl hne
    · obtain ⟨ms, e1, f⟩ := i id
      rw [o.inside c hcc b hb kb id h2 (by simp)] at f
      rw [e1]
      exact f
  · intro id hne
    refine Classical.byContradiction fun hno => hne ?_
    obtain ⟨ms, e1, f⟩ := i id
    have := o.other id (by simp) (fun c hcc b hb kb e => hno ⟨b, (Below.child .self hcc).trans' hb, strict hcc hb, kb, e⟩)
    rw [this] at f
    have := List.length_eq_zero_iff.1 f.1
    rw [e1, this]
    rfl

set_option synthInstance.maxSize 1000 in
/-- The hypotheses are met, and what comes out, for `function f()local a local function g(x)local b,c end end`: the body
of `f` (id 2) has `a` and `g`, the body of `g` (id 5) has `b,c`. -/
example : (parseText "function f()local a local function g(x)local b,c end end".toList).toOption.bind (fun p =>
      let node : Red := ⟨[0], 0, p.1.children.headD default⟩
      (AstIdMap.fromSource node).bind fun arena => (collectInnerItems ⟨{}, arena⟩ node).map fun ctx =>
        (p.2.length, (Red.root p.1).children.map (·.path), ctx.tree.innerItems 2, ctx.tree.innerItems 5,
          ctx.tree.localAssigns, ctx.tree.localFunctions)) =
    some (0, [[0]], [.localAssign 0, .localFunction 0], [.localAssign 1],
      [⟨["a".toList], 3⟩, ⟨["b".toList, "c".toList], 6⟩], [⟨"g".toList, ⟨["x".toList], false⟩, 4⟩]) := by
  rw [parseText_eq_eval]
  decide +kernel

end Verif.Hir
