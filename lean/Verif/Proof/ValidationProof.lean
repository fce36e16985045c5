import Verif.Model.Validation
import Verif.Spec.TreeShape
import Verif.Proof.ParseText

/-
Validation on the trees the parser builds.
-/
namespace Verif
open PTree Lexer

/-! ### positions of elements -/

/-- The element `g` stands at offset `o` of the text. -/
def Green.At (text : Text) (o : Nat) (g : Green) : Prop := ∃ a b, text = a ++ g.text ++ b ∧ o = Text.len a

theorem withOffsets_split {cs : List Green} {off o : Nat} {g : Green} (h : (o, g) ∈ Green.withOffsets off cs) :
    g ∈ cs ∧ ∃ a b, Green.textL cs = a ++ g.text ++ b ∧ o = off + Text.len a := by
  induction cs generalizing off with
  | nil => simp [Green.withOffsets] at h
  | cons c cs ih =>
    simp only [Green.withOffsets, List.mem_cons, Prod.mk.injEq] at h
    rcases h with ⟨rfl, rfl⟩ | h
    · exact ⟨by simp, [], Green.textL cs, by simp [Green.textL], by simp⟩
    · obtain ⟨h1, a, b, h2, h3⟩ := ih h
      refine ⟨by simp [h1], Green.text c ++ a, b, by simp [Green.textL, h2], ?_⟩
      simp only [Green.len] at h3
      simp; omega

theorem at_withOffsets {text : Text} {off o : Nat} {g c : Green} (hg : g.At text off)
    (h : (o, c) ∈ Green.withOffsets off g.children) : c.At text o ∧ c ∈ g.children := by
  obtain ⟨a, b, h1, h2⟩ := hg
  obtain ⟨h3, x, y, h4, h5⟩ := withOffsets_split h
  refine ⟨⟨a ++ x, y ++ b, ?_, by simp; omega⟩, h3⟩
  cases g with
  | token k t => simp [Green.children] at h3
  | node k cs =>
    simp only [Green.children] at h4
    rw [h1, Green.text, h4]; simp

theorem at_childNodes {text : Text} {off o : Nat} {g c : Green} (hg : g.At text off)
    (h : (o, c) ∈ g.childNodes off) : c.At text o ∧ c ∈ g.children :=
  at_withOffsets hg (List.mem_filter.mp h).1

theorem Green.At.rangeOf {text : Text} {o : Nat} {g : Green} (h : g.At text o) : RangeOf text (g.range o) := by
  obtain ⟨a, b, rfl, rfl⟩ := h
  refine ⟨by simp [Green.range, Range.ofLen], by simp [Green.range, Range.ofLen, Green.len],
    ⟨a, _, by rw [List.append_assoc], rfl⟩, ⟨a ++ g.text, b, rfl, by simp [Green.range, Range.ofLen, Green.len]⟩⟩

mutual
theorem nodes_split {off o : Nat} {r g : Green} (h : (o, g) ∈ r.nodes off) :
    ∃ a b, r.text = a ++ g.text ++ b ∧ o = off + Text.len a := by
  cases r with
  | token k t => simp [Green.nodes] at h
  | node k cs =>
    simp only [Green.nodes, List.mem_cons, Prod.mk.injEq] at h
    rcases h with ⟨rfl, rfl⟩ | h
    · exact ⟨[], [], by simp, by simp⟩
    · obtain ⟨a, b, h1, h2⟩ := nodesL_split h
      exact ⟨a, b, by rw [Green.text, h1], h2⟩
theorem nodesL_split {off o : Nat} {cs : List Green} {g : Green} (h : (o, g) ∈ Green.nodesL off cs) :
    ∃ a b, Green.textL cs = a ++ g.text ++ b ∧ o = off + Text.len a := by
  cases cs with
  | nil => simp [Green.nodesL] at h
  | cons c cs =>
    simp only [Green.nodesL, List.mem_append] at h
    rcases h with h | h
    · obtain ⟨a, b, h1, h2⟩ := nodes_split h
      exact ⟨a, b ++ Green.textL cs, by simp [Green.textL, h1], h2⟩
    · obtain ⟨a, b, h1, h2⟩ := nodesL_split h
      refine ⟨Green.text c ++ a, b, by simp [Green.textL, h1], ?_⟩
      simp only [Green.len] at h2
      simp; omega
end

theorem at_nodes {o : Nat} {r g : Green} (h : (o, g) ∈ r.nodes 0) : g.At r.text o := by
  obtain ⟨a, b, h1, h2⟩ := nodes_split h
  exact ⟨a, b, h1, by omega⟩

/-! ### literals and leaves -/

mutual
/-- Every literal node is exactly one literal token, every name is one identifier, every use of a name is one
identifier or empty. -/
def LitOk : Green → Prop
  | .token _ _ => True
  | .node k cs => ((k = .literal → ∃ l : Lx, cs = [leaf l] ∧ l.1 ∈ Lua.literalKinds) ∧
      (k = .name → ∃ w, cs = [.token .ident w]) ∧
      (k = .nameRef → cs = [] ∨ ∃ w, cs = [.token .ident w])) ∧ LitOkL cs
def LitOkL : List Green → Prop
  | [] => True
  | g :: gs => LitOk g ∧ LitOkL gs
end

@[simp] theorem LitOkL_append (a b) : LitOkL (a ++ b) ↔ LitOkL a ∧ LitOkL b := by
  induction a with
  | nil => simp [LitOkL]
  | cons x xs ih => simp [LitOkL, ih, and_assoc]

theorem LitOkL_leaves (ls : List Lx) : LitOkL (ls.map leaf) := by
  induction ls with
  | nil => simp [LitOkL]
  | cons x xs ih => simp [LitOkL, LitOk, leaf]; exact ih

@[simp] theorem leavesL_append (a b) : Green.leavesL (a ++ b) = Green.leavesL a ++ Green.leavesL b := by
  induction a with
  | nil => simp [Green.leavesL]
  | cons x xs ih => simp [Green.leavesL, ih]

@[simp] theorem leavesL_leaves (ls : List Lx) : Green.leavesL (ls.map leaf) = ls := by
  induction ls with
  | nil => rfl
  | cons x xs ih => simp [Green.leavesL, leaf, Green.leaves]; exact ih

theorem lead_leaves (ls : List Lx) : Green.leavesL (lead ls) ++ afterTriv ls = ls := by
  simp [lead, afterTriv]

mutual
theorem place_leaves (n : Nat) (t : PTree) (todo : List Lx) :
    Green.leavesL (place n t todo).greens ++ (place n t todo).rest = todo := by
  have hl := lead_leaves todo
  cases t with
  | tok k =>
    simp only [place]
    cases h : afterTriv todo with
    | nil => rw [h] at hl; simpa using hl
    | cons l r => rw [h] at hl; simp [Green.leavesL, leaf, Green.leaves] at hl ⊢; exact hl
  | err e => simp [place, Green.leavesL]
  | node k cs =>
    have := placeL_leaves n cs (afterTriv todo)
    simp [place, Green.leavesL, Green.leaves, this, hl]
  | errNode cs e =>
    have := placeL_leaves n cs (afterTriv todo)
    simp [place, Green.leavesL, Green.leaves, this, hl]
theorem placeL_leaves (n : Nat) (ts : List PTree) (todo : List Lx) :
    Green.leavesL (placeL n ts todo).greens ++ (placeL n ts todo).rest = todo := by
  cases ts with
  | nil => simp [placeL, Green.leavesL]
  | cons t ts =>
    have h1 := place_leaves n t todo
    have h2 := placeL_leaves n ts (place n t todo).rest
    simp [placeL, h2, h1]
end

theorem lead_afterTriv (ls : List Lx) : lead (afterTriv ls) = [] := by
  simp only [lead, List.map_eq_nil_iff]
  cases h : afterTriv ls with
  | nil => rfl
  | cons l r =>
    have := afterTriv_head h
    simp [this]

theorem shapedToks_litOk (n : Nat) (ts : List PTree) (todo : List Lx) (h : shapedToks ts) :
    LitOkL (placeL n ts todo).greens := by
  induction ts generalizing todo with
  | nil => simp [placeL, LitOkL]
  | cons t ts ih =>
    cases t with
    | tok k =>
      simp only [shapedToks] at h
      simp only [placeL, LitOkL_append]
      refine ⟨?_, ih _ h.2⟩
      simp only [place]
      split
      · exact LitOkL_leaves _
      · rw [LitOkL_append]; exact ⟨LitOkL_leaves _, by simp [LitOkL, LitOk, leaf]⟩
    | _ => simp [shapedToks] at h

mutual
theorem place_litOk (n : Nat) (t : PTree) (todo : List Lx) (ks : List SyntaxKind)
    (h : realKinds todo = yield t ++ ks) (hs : shaped t) : LitOkL (place n t todo).greens := by
  cases t with
  | tok k =>
    simp only [place]
    split
    · exact LitOkL_leaves _
    · rw [LitOkL_append]; exact ⟨LitOkL_leaves _, by simp [LitOkL, LitOk, leaf]⟩
  | err e => simp [place, LitOkL]
  | node k cs =>
    have hk : realKinds (afterTriv todo) = yieldL cs ++ ks := by
      rw [realKinds_afterTriv]; simpa [PTree.yield] using h
    simp only [shaped] at hs
    have := placeL_litOk n cs (afterTriv todo) ks hk hs.2
    simp only [place, LitOkL_append, LitOkL, LitOk, and_true]
    refine ⟨LitOkL_leaves _, ⟨?_, ?_, ?_⟩, this⟩
    · intro hlit
      obtain ⟨l, hl, rfl⟩ := hs.1.1 hlit
      obtain ⟨w, r, h1, h2⟩ := afterTriv_of_kinds (ls := afterTriv todo) (by simpa [yieldL, PTree.yield] using hk)
      refine ⟨(l, w), ?_, hl⟩
      simp [placeL, place, lead_afterTriv, h1]
    · intro hn
      obtain rfl := hs.1.2.1 hn
      obtain ⟨w, r, h1, h2⟩ := afterTriv_of_kinds (ls := afterTriv todo) (by simpa [yieldL, PTree.yield] using hk)
      refine ⟨w, ?_⟩
      simp [placeL, place, lead_afterTriv, h1, leaf]
    · intro hn
      rcases hs.1.2.2 hn with rfl | ⟨e, rfl⟩
      · obtain ⟨w, r, h1, h2⟩ := afterTriv_of_kinds (ls := afterTriv todo) (by simpa [yieldL, PTree.yield] using hk)
        refine .inr ⟨w, ?_⟩
        simp [placeL, place, lead_afterTriv, h1, leaf]
      · exact .inl (by simp [placeL, place])
  | errNode cs e =>
    simp only [shaped] at hs
    simp only [place, LitOkL_append, LitOkL, LitOk, and_true]
    exact ⟨LitOkL_leaves _, by simp, shapedToks_litOk n cs _ hs⟩
theorem placeL_litOk (n : Nat) (ts : List PTree) (todo : List Lx) (ks : List SyntaxKind)
    (h : realKinds todo = yieldL ts ++ ks) (hs : shapedL ts) : LitOkL (placeL n ts todo).greens := by
  cases ts with
  | nil => simp [placeL, LitOkL]
  | cons t ts =>
    simp only [shapedL] at hs
    have h1 := place_litOk n t todo (yieldL ts ++ ks) (by simpa [yieldL] using h) hs.1
    have h2 := realKinds_suffix n (t := t) (ks := yieldL ts ++ ks) (by simpa [yieldL] using h)
    have h3 := placeL_litOk n ts _ ks h2 hs.2
    simp [placeL, h1, h3]
end

mutual
theorem litOk_nodes {off o : Nat} {r g : Green} (hr : LitOk r) (h : (o, g) ∈ r.nodes off)
    (hk : g.kind = .literal) : ∃ l : Lx, g = .node .literal [leaf l] ∧ l.1 ∈ Lua.literalKinds ∧ l ∈ r.leaves := by
  cases r with
  | token k t => simp [Green.nodes] at h
  | node k cs =>
    simp only [LitOk] at hr
    simp only [Green.nodes, List.mem_cons, Prod.mk.injEq] at h
    rcases h with ⟨rfl, rfl⟩ | h
    · simp only [Green.kind] at hk
      obtain ⟨l, rfl, h2⟩ := hr.1.1 hk
      exact ⟨l, by rw [hk], h2, by simp [Green.leaves, Green.leavesL, leaf]⟩
    · exact litOkL_nodes hr.2 h hk
theorem litOkL_nodes {off o : Nat} {cs : List Green} {g : Green} (hr : LitOkL cs) (h : (o, g) ∈ Green.nodesL off cs)
    (hk : g.kind = .literal) :
    ∃ l : Lx, g = .node .literal [leaf l] ∧ l.1 ∈ Lua.literalKinds ∧ l ∈ Green.leavesL cs := by
  cases cs with
  | nil => simp [Green.nodesL] at h
  | cons c cs =>
    simp only [LitOkL] at hr
    simp only [Green.nodesL, List.mem_append] at h
    rcases h with h | h
    · obtain ⟨l, h1, h2, h3⟩ := litOk_nodes hr.1 h hk
      exact ⟨l, h1, h2, by simp [Green.leavesL, h3]⟩
    · obtain ⟨l, h1, h2, h3⟩ := litOkL_nodes hr.2 h hk
      exact ⟨l, h1, h2, by simp [Green.leavesL, h3]⟩
end

/-! ### statements -/

/-- Kinds of expressions, parenthesised ones included. -/
def exprNodeKinds : List SyntaxKind :=
  [.literal, .tableExpr, .infixExpr, .prefixExpr, .indexExpr, .dotExpr, .functionExpr, .callExpr,
    .methodCallExpr, .nameRef, .parenExpr]

mutual
/-- The statement nodes of a derivation. -/
def stmtOk : PTree → Prop
  | .node k cs =>
    (k = .multivalExpr → ∀ x ∈ cs.filterMap Lua.kindOf, x ∈ exprNodeKinds) ∧
    (k = .exprStmt → cs.filterMap Lua.kindOf = [.multivalExpr]) ∧
    (k = .assignStmt → cs.filterMap Lua.kindOf = [.multivalExpr, .multivalExpr]) ∧ stmtOkL cs
  | _ => True
def stmtOkL : List PTree → Prop
  | [] => True
  | t :: ts => stmtOk t ∧ stmtOkL ts
end

@[simp] theorem stmtOkL_append (a b) : stmtOkL (a ++ b) ↔ stmtOkL a ∧ stmtOkL b := by
  induction a with
  | nil => simp [stmtOkL]
  | cons x xs ih => simp [stmtOkL, ih, and_assoc]

@[simp] theorem kinds_tok (k ts) : List.filterMap Lua.kindOf (.tok k :: ts) = List.filterMap Lua.kindOf ts := rfl
@[simp] theorem kinds_node (k cs ts) :
    List.filterMap Lua.kindOf (.node k cs :: ts) = k :: List.filterMap Lua.kindOf ts := rfl

theorem deriv_expr_kind {x : Lua.Dialect} {ts : List PTree} (h : Lua.Deriv x .expr ts) :
    ∃ k cs, ts = [.node k cs] ∧ k ∈ exprNodeKinds := by
  cases h <;> exact ⟨_, _, rfl, by decide⟩

theorem deriv_tail_kind {x : Lua.Dialect} {nt : Lua.NT} {ts : List PTree} (h : Lua.Deriv x nt ts) (hn : nt = .exprTail) :
    ∀ k ∈ ts.filterMap Lua.kindOf, k ∈ exprNodeKinds := by
  induction h
  case tailNil => simp
  case tailCons e ts h1 h2 _ ih =>
    obtain ⟨k, cs, e1, hk⟩ := deriv_expr_kind h1
    simp at e1
    subst e1
    intro y hy
    simp only [kinds_tok, kinds_node, List.mem_cons] at hy
    rcases hy with rfl | hy
    · exact hk
    · exact ih rfl y hy
  all_goals exact absurd hn (by simp)

theorem deriv_multival {x : Lua.Dialect} {ts : List PTree} (h : Lua.Deriv x .multival ts) :
    ∃ cs, ts = [.node .multivalExpr cs] ∧ ∀ k ∈ cs.filterMap Lua.kindOf, k ∈ exprNodeKinds := by
  cases h with
  | multival e ts h1 h2 =>
    refine ⟨_, rfl, ?_⟩
    obtain ⟨k, cs, e1, hk⟩ := deriv_expr_kind h1
    simp at e1
    subst e1
    intro y hy
    simp only [kinds_node, List.mem_cons] at hy
    rcases hy with rfl | hy
    · exact hk
    · exact deriv_tail_kind h2 rfl y hy

theorem deriv_stmtOk {x : Lua.Dialect} {nt : Lua.NT} {ts : List PTree} (h : Lua.Deriv x nt ts) : stmtOkL ts := by
  induction h
  case multival e ts h1 h2 ih1 ih2 =>
    obtain ⟨cs, e1, h3⟩ := deriv_multival (.multival e ts h1 h2)
    simp at e1
    subst e1
    simp only [stmtOkL] at ih1
    simp only [stmtOkL, stmtOk, and_true]
    exact ⟨fun _ => h3, by simp, by simp, ih1.1, ih2⟩
  case exprStmt m h1 _ ih =>
    obtain ⟨cs, e1, -⟩ := deriv_multival h1
    simp at e1
    subst e1
    simpa [stmtOkL, stmtOk] using ih
  case assign m m' h1 _ h2 ih1 ih2 =>
    obtain ⟨cs, e1, -⟩ := deriv_multival h1
    obtain ⟨cs', e2, -⟩ := deriv_multival h2
    simp at e1 e2
    subst e1 e2
    simp only [stmtOkL] at ih1 ih2
    simp only [stmtOkL]
    rw [stmtOk]
    simp only [stmtOkL]
    refine ⟨⟨by simp, by simp, by simp, ih1.1, ?_, ih2.1, trivial⟩, trivial⟩
    simp [stmtOk]
  all_goals (simp only [stmtOkL, and_true] at *)
  all_goals (try simp only [stmtOk, stmtOkL, stmtOkL_append, and_true, true_and, reduceCtorEq, false_implies])
  all_goals (try simp only [*, and_self])

/-- kinds of the child nodes -/
def nodeKinds (cs : List Green) : List SyntaxKind := (cs.filter (·.isNode)).map (·.kind)

@[simp] theorem nodeKinds_append (a b) : nodeKinds (a ++ b) = nodeKinds a ++ nodeKinds b := by simp [nodeKinds]
@[simp] theorem nodeKinds_leaves (ls : List Lx) : nodeKinds (ls.map leaf) = [] := by
  induction ls with
  | nil => rfl
  | cons x xs ih =>
    rw [List.map_cons]
    exact ih
@[simp] theorem nodeKinds_lead (ls : List Lx) : nodeKinds (lead ls) = [] := nodeKinds_leaves _

mutual
/-- The statement nodes of a tree without errors. -/
def StmtOk : Green → Prop
  | .token _ _ => True
  | .node k cs =>
    (k = .multivalExpr → ∀ x ∈ nodeKinds cs, x ∈ exprNodeKinds) ∧
    (k = .exprStmt → nodeKinds cs = [.multivalExpr]) ∧
    (k = .assignStmt → nodeKinds cs = [.multivalExpr, .multivalExpr]) ∧ StmtOkL cs
def StmtOkL : List Green → Prop
  | [] => True
  | g :: gs => StmtOk g ∧ StmtOkL gs
end

@[simp] theorem StmtOkL_append (a b) : StmtOkL (a ++ b) ↔ StmtOkL a ∧ StmtOkL b := by
  induction a with
  | nil => simp [StmtOkL]
  | cons x xs ih => simp [StmtOkL, ih, and_assoc]

theorem StmtOkL_leaves (ls : List Lx) : StmtOkL (ls.map leaf) := by
  induction ls with
  | nil => simp [StmtOkL]
  | cons x xs ih => simp [StmtOkL, StmtOk, leaf]; exact ih

theorem placeL_nodeKinds (n : Nat) (ts : List PTree) (todo : List Lx) (he : errorsL ts = []) :
    nodeKinds (placeL n ts todo).greens = ts.filterMap Lua.kindOf := by
  induction ts generalizing todo with
  | nil => rfl
  | cons t ts ih =>
    simp only [errorsL, List.append_eq_nil_iff] at he
    have := ih (place n t todo).rest he.2
    simp only [placeL, nodeKinds_append, this]
    cases t with
    | tok k =>
      simp only [place]
      split
      · simp
      · rename_i l r _
        rw [nodeKinds_append, nodeKinds_lead, kinds_tok]; rfl
    | err e => simp [errors] at he
    | errNode cs e => simp [errors] at he
    | node k cs =>
      simp only [place, nodeKinds_append, nodeKinds_lead]
      rfl

mutual
theorem place_stmtOk (n : Nat) (t : PTree) (todo : List Lx) (he : errors t = []) (h : stmtOk t) :
    StmtOkL (place n t todo).greens := by
  cases t with
  | tok k =>
    simp only [place]
    split
    · exact StmtOkL_leaves _
    · rw [StmtOkL_append]; exact ⟨StmtOkL_leaves _, by simp [StmtOkL, StmtOk, leaf]⟩
  | err e => simp [errors] at he
  | errNode cs e => simp [errors] at he
  | node k cs =>
    simp only [errors] at he
    simp only [stmtOk] at h
    simp only [place, StmtOkL_append, StmtOkL, StmtOk, and_true, placeL_nodeKinds n cs _ he]
    exact ⟨StmtOkL_leaves _, h.1, h.2.1, h.2.2.1, placeL_stmtOk n cs _ he h.2.2.2⟩
theorem placeL_stmtOk (n : Nat) (ts : List PTree) (todo : List Lx) (he : errorsL ts = []) (h : stmtOkL ts) :
    StmtOkL (placeL n ts todo).greens := by
  cases ts with
  | nil => simp [placeL, StmtOkL]
  | cons t ts =>
    simp only [errorsL, List.append_eq_nil_iff] at he
    simp only [stmtOkL] at h
    simp [placeL, place_stmtOk n t todo he.1 h.1, placeL_stmtOk n ts _ he.2 h.2]
end

mutual
theorem place_errs_nil (n : Nat) (t : PTree) (todo : List Lx) (h : (place n t todo).errs = []) : errors t = [] := by
  cases t with
  | tok k => rfl
  | err e => simp [place] at h
  | node k cs => exact placeL_errs_nil n cs _ h
  | errNode cs e => simp [place] at h
theorem placeL_errs_nil (n : Nat) (ts : List PTree) (todo : List Lx) (h : (placeL n ts todo).errs = []) : errorsL ts = [] := by
  cases ts with
  | nil => rfl
  | cons t ts =>
    simp only [placeL, List.append_eq_nil_iff] at h
    simp [errorsL, place_errs_nil n t _ h.1, placeL_errs_nil n ts _ h.2]
end

mutual
theorem stmtOk_nodes {off o : Nat} {r g : Green} (hr : StmtOk r) (h : (o, g) ∈ r.nodes off) : StmtOk g := by
  cases r with
  | token k t => simp [Green.nodes] at h
  | node k cs =>
    simp only [Green.nodes, List.mem_cons, Prod.mk.injEq] at h
    rcases h with ⟨rfl, rfl⟩ | h
    · exact hr
    · simp only [StmtOk] at hr
      exact stmtOkL_nodes hr.2.2.2 h
theorem stmtOkL_nodes {off o : Nat} {cs : List Green} {g : Green} (hr : StmtOkL cs)
    (h : (o, g) ∈ Green.nodesL off cs) : StmtOk g := by
  cases cs with
  | nil => simp [Green.nodesL] at h
  | cons c cs =>
    simp only [StmtOkL] at hr
    simp only [Green.nodesL, List.mem_append] at h
    rcases h with h | h
    · exact stmtOk_nodes hr.1 h
    · exact stmtOkL_nodes hr.2 h
end

/-- The tree of a text: literal nodes are single literal tokens and the leaves are the tokens. -/
theorem parseText_tree (text : Text) : ∃ ls tree errors, Lexemes text ls ∧ parseText text = .ok (tree, errors) ∧
    LitOk tree ∧ (errors = [] → StmtOk tree) ∧ tree.leaves = ls.map lxOf ∧ tree.text = text ∧ tree.kind = .sourceFile ∧
    ∀ e ∈ errors, ∃ a b, b <:+ a ∧ a <:+ ls.map lxOf ∧ e.range = ⟨text.len - wlen a, text.len - wlen b⟩ := by
  obtain ⟨ls, ts, h1, h2, h3, ⟨h4, h4'⟩, h5⟩ := parseText_main text
  refine ⟨ls, _, _, h1, h5, ?_, ?_, ?_, ?_, rfl, ?_⟩
  · have := placeL_litOk text.len ts (ls.map lxOf) [] (by simp [h3]) h4
    simp [LitOk, LitOkL, this, LitOkL_leaves]
  · intro he
    simp only [List.append_eq_nil_iff] at he
    have he' := placeL_errs_nil _ _ _ he.1
    obtain ⟨b, e, hb⟩ := h4' he'
    simp at e
    subst e
    have := deriv_stmtOk hb
    simp only [stmtOkL, stmtOk] at this
    have := placeL_stmtOk text.len ts (ls.map lxOf) he' this.1.2.2.2
    simp [StmtOk, StmtOkL, this, StmtOkL_leaves]
  · have := placeL_leaves text.len ts (ls.map lxOf)
    simp [Green.leaves, Green.leavesL, this]
  · have := placeL_text text.len ts (ls.map lxOf)
    simp [Green.text, Green.textL, this, (lexemes_lx h1).1]
  · intro e he
    rw [List.mem_append] at he
    rcases he with he | he
    · exact placeL_errs text.len ts (ls.map lxOf) e he
    · clear h2 h3 h4 h4' h5 ts
      have key : ∀ (pre : Text) (ls : List Lexeme), ∀ e ∈ (attach (Text.len pre) ls).filterMap (·.2),
          ∃ a b, b <:+ a ∧ a <:+ ls.map lxOf ∧
            e.range = ⟨Text.len pre + wlen (ls.map lxOf) - wlen a, Text.len pre + wlen (ls.map lxOf) - wlen b⟩ := by
        intro pre ls
        induction ls generalizing pre with
        | nil => simp [attach]
        | cons l ls ih =>
          intro e he
          simp only [attach, List.filterMap_cons] at he
          have step : ∀ e ∈ (attach (Text.len pre + l.word.len) ls).filterMap (·.2),
              ∃ a b, b <:+ a ∧ a <:+ (l :: ls).map lxOf ∧
              e.range = ⟨Text.len pre + wlen ((l :: ls).map lxOf) - wlen a,
                Text.len pre + wlen ((l :: ls).map lxOf) - wlen b⟩ := by
            intro e he
            obtain ⟨a, b, x1, x2, x3⟩ := ih (pre ++ l.word) e (by simpa using he)
            refine ⟨a, b, x1, x2.trans (List.suffix_cons _ _), ?_⟩
            rw [x3]; simp [lxOf]; omega
          cases hl : l.err with
          | none => rw [hl] at he; exact step e (by simpa using he)
          | some m =>
            rw [hl] at he
            simp only [Option.map_some, List.mem_cons] at he
            rcases he with rfl | he
            · refine ⟨(l :: ls).map lxOf, ls.map lxOf, by simp, List.suffix_refl _, ?_⟩
              simp [Range.ofLen, lxOf]; omega
            · exact step e he
      have := key [] ls e (by simpa using he)
      have hw : wlen (ls.map lxOf) = text.len := by simp [wlen, (lexemes_lx h1).1]
      simpa [hw] using this

/-! ### string tokens -/

theorem singleKind_ne_str {c : Char} {k : SyntaxKind} (h : singleKind c = some k) : k ≠ .str := by
  have := singleKind_mem h
  have hall : ∀ p ∈ [('(', SyntaxKind.lParen), (')', .rParen), ('{', .lBrace), ('}', .rBrace), (']', .rBracket),
      (',', .comma), (';', .semicolon), ('#', .hash), ('+', .plus), ('*', .asterisk), ('/', .slash),
      ('%', .modulo), ('^', .caret), ('!', .bang)], p.2 ≠ .str := by decide
  exact hall _ this

theorem lexForm_str (c : Char) (cs : Text) (h : (lexForm c cs).1.1 = .str) : c = '\'' ∨ c = '"' ∨ c = '[' := by
  have two1 : ∀ x k2 k1 cs, k2 ≠ SyntaxKind.str → k1 ≠ SyntaxKind.str → (two x k2 k1 cs).1.1 ≠ .str := by
    intro x k2 k1 cs h2 h1
    cases cs with
    | nil => exact h1
    | cons y ys => simp only [two]; split <;> assumption
  revert h
  refine lexForm_cases (P := fun c cs r => r.1.1 = .str → c = '\'' ∨ c = '"' ∨ c = '[')
    ?_ ?_ ?_ ?_ ?_ ?_ ?_ ?_ ?_ ?_ ?_ ?_ ?_ ?_ ?_ ?_ ?_ c cs
  case refine_12 => intro c cs hc _; rcases hc with rfl | rfl <;> simp
  case refine_13 => intro c cs k h h'; exact absurd h' (singleKind_ne_str h)
  case refine_14 =>
    intro c cs h h'
    exact absurd h' (fromKeyword_ne_str _)
  all_goals (intros; first | (exfalso; rename_i h; exact two1 _ _ _ _ (by decide) (by decide) h) | simp_all)
where
  fromKeyword_ne_str (w : Text) : (SyntaxKind.fromKeyword w).getD .ident ≠ .str := by
    rw [fromKeyword_eq]
    unfold wordKind
    cases h : Lua.keywords.find? fun p => p.1.toList == w with
    | none => decide
    | some p =>
      have := List.mem_of_find?_eq_some h
      have hall : ∀ p ∈ Lua.keywords, p.2 ≠ .str := by decide
      exact hall p this

theorem Lexemes.str_head {s : Text} {ls : List Lexeme} (h : Lexemes s ls) : ∀ l ∈ ls, l.kind = .str →
    ∃ c w, l.word = c :: w ∧ (c = '\'' ∨ c = '"' ∨ c = '[') := by
  induction h with
  | nil => simp
  | cons h _ ih =>
    intro l hl hk
    simp at hl
    rcases hl with rfl | hl
    · have hne := h.word_ne
      cases h with
      | @mk c cs w k e rest h1 h2 =>
        cases w with
        | nil => exact absurd rfl hne
        | cons x w =>
          simp at h2
          obtain ⟨rfl, -⟩ := h2
          refine ⟨c, w, rfl, lexForm_str c cs ?_⟩
          rw [h1]; exact hk
    · exact ih l hl hk

/-! ### unquote and unescape -/

/-- `'['`, `=` signs, and then something other than a second `[`. -/
def MalformedOpen (w : Text) : Prop :=
  ∃ n rest, w = '[' :: (List.replicate n '=' ++ rest) ∧ rest.head? ≠ some '[' ∧ rest.head? ≠ some '='

theorem utf8Size_ascii (c : Char) (h : c ∈ ['\'', '"', '[', ']', '=', '\\']) : c.utf8Size = 1 := by
  have : ∀ c ∈ ['\'', '"', '[', ']', '=', '\\'], c.utf8Size = 1 := by decide
  exact this c h

theorem len_replicate_eq (n : Nat) : Text.len (List.replicate n '=') = n := by
  induction n with
  | zero => rfl
  | succ n ih => rw [List.replicate_succ, Text.len_cons, ih, utf8Size_ascii '=' (by decide)]; omega

theorem takeWhile_eq_replicate (s : Text) : s.takeWhile (· == '=') = List.replicate (s.takeWhile (· == '=')).length '=' := by
  induction s with
  | nil => rfl
  | cons c cs ih =>
    by_cases h : c = '='
    · subst h
      simp only [List.takeWhile_cons, beq_self_eq_true, if_true, List.length_cons, List.replicate_succ]
      rw [← ih]
    · simp [h]

theorem snoc_of_getLast? {s : Text} {c : Char} (h : s.getLast? = some c) : ∃ a, s = a ++ [c] := by
  rw [List.getLast?_eq_some_iff] at h
  exact h

theorem getLast_snoc (a : Text) (c : Char) : (a ++ [c]).getLast? = some c := by simp

open Validation in
/-- What `unquote` returns on a string that starts with a quote or a bracket. -/
theorem unquote_spec (c : Char) (w : Text) (hc : c = '\'' ∨ c = '"' ∨ c = '[') :
    unquote (c :: w) = .ok none ∨
    ∃ off front t back, unquote (c :: w) = .ok (some (off, t)) ∧ c :: w = front ++ t ++ back ∧
      (off = Text.len front ∨ (MalformedOpen (c :: w) ∧ off = Text.len front + 1)) ∧
      (c ≠ '[' → front = [c] ∧ back = [c]) ∧ (∀ x ∈ back, x ∈ ['\'', '"', ']', '=']) := by
  by_cases hq : c = '\'' ∨ c = '"'
  · have hs : c.utf8Size = 1 := utf8Size_ascii c (by rcases hq with rfl | rfl <;> decide)
    unfold unquote
    simp only [hq, if_true]
    by_cases h : (c :: w).getLast? ≠ some c ∨ Text.len (c :: w) = 1
    · left; rw [if_pos h]
    · right
      rw [if_neg h]
      simp only [not_or, Classical.not_not] at h
      obtain ⟨a, ha⟩ := snoc_of_getLast? h.1
      cases a with
      | nil =>
        simp at ha; subst ha
        exact absurd (by simp [hs]) h.2
      | cons x t =>
        simp only [List.cons_append, List.cons.injEq] at ha
        obtain ⟨rfl, rfl⟩ := ha
        refine ⟨1, [c], t, [c], ?_, by simp, Or.inl (by simp [hs]), fun _ => ⟨rfl, rfl⟩, by rcases hq with rfl | rfl <;> simp⟩
        have := Text.slice_append [c] t [c]
        simp only [Text.len_cons, Text.len_nil, hs, Nat.add_zero, List.cons_append, List.nil_append] at this
        have e : Text.len (c :: (t ++ [c])) - 1 = 1 + Text.len t := by simp [hs]; omega
        rw [e, this]
  · obtain rfl : c = '[' := by
      rcases hc with h | h | h
      · exact absurd (Or.inl h) hq
      · exact absurd (Or.inr h) hq
      · exact h
    right
    have hs : '['.utf8Size = 1 := rfl
    have hs2 : ']'.utf8Size = 1 := rfl
    have h1 : Text.sliceFrom 1 ('[' :: w) = some w := by
      have := Text.sliceFrom_append ['['] w
      simpa [hs] using this
    have h2 : Text.sliceFrom (w.takeWhile (· == '=')).length w = some (w.dropWhile (· == '=')) := by
      have := Text.sliceFrom_append (w.takeWhile (· == '=')) (w.dropWhile (· == '='))
      rw [List.takeWhile_append_dropWhile] at this
      rw [← this, takeWhile_eq_replicate w, len_replicate_eq]
      simp
    -- the closing part
    have hback : ∀ t3 : Text, ∃ t6 b, (if t3.getLast? = some ']' then
                (t3.sliceTo (t3.len - 1)).bind fun t4 =>
                (t4.sliceTo (t4.len - (t4.reverse.takeWhile (· == '=')).length)).bind fun t5 =>
                if t5.getLast? = some ']' then t5.sliceTo (t5.len - 1) else some t5
              else some t3) = some t6 ∧ t3 = t6 ++ b ∧ (∀ x ∈ b, x ∈ ['\'', '"', ']', '=']) := by
      intro t3
      have hsnoc : ∀ (a : Text), Text.sliceTo (Text.len (a ++ [']']) - 1) (a ++ [']']) = some a := by
        intro a
        have := Text.sliceTo_append a [']']
        have e : Text.len (a ++ [']']) - 1 = Text.len a := by simp [hs2]
        rw [e, this]
      by_cases hl : t3.getLast? = some ']'
      · rw [if_pos hl]
        obtain ⟨t4, rfl⟩ := snoc_of_getLast? hl
        rw [hsnoc, Option.bind_some]
        obtain ⟨t5, h5⟩ : ∃ t5, t4 = t5 ++ List.replicate (t4.reverse.takeWhile (· == '=')).length '=' := by
          refine ⟨(t4.reverse.dropWhile (· == '=')).reverse, ?_⟩
          rw [← List.reverse_replicate, ← takeWhile_eq_replicate, ← List.reverse_append,
            List.takeWhile_append_dropWhile, List.reverse_reverse]
        have h6 : Text.sliceTo (Text.len t4 - (t4.reverse.takeWhile (· == '=')).length) t4 = some t5 := by
          generalize (t4.reverse.takeWhile (· == '=')).length = n at h5
          subst h5
          have := Text.sliceTo_append t5 (List.replicate n '=')
          have e : Text.len (t5 ++ List.replicate n '=') - n = Text.len t5 := by simp [len_replicate_eq]
          rw [e, this]
        rw [h6, Option.bind_some]
        by_cases hl5 : t5.getLast? = some ']'
        · rw [if_pos hl5]
          obtain ⟨t6, rfl⟩ := snoc_of_getLast? hl5
          refine ⟨t6, [']'] ++ List.replicate (t4.reverse.takeWhile (· == '=')).length '=' ++ [']'], hsnoc t6, ?_, by simp; grind⟩
          conv => lhs; rw [h5]
          simp
        · rw [if_neg hl5]
          refine ⟨t5, List.replicate (t4.reverse.takeWhile (· == '=')).length '=' ++ [']'], rfl, ?_, by simp; grind⟩
          conv => lhs; rw [h5]
          simp
      · rw [if_neg hl]; exact ⟨t3, [], rfl, by simp, by simp⟩
    obtain ⟨t2, ht2⟩ : ∃ t2, w.dropWhile (· == '=') = t2 := ⟨_, rfl⟩
    have hw : w = List.replicate (w.takeWhile (· == '=')).length '=' ++ t2 := by
      rw [← takeWhile_eq_replicate, ← ht2, List.takeWhile_append_dropWhile]
    have hne : t2.head? ≠ some '=' := by
      rw [← ht2]
      have := List.head?_dropWhile_not (· == '=') w
      intro e; rw [e] at this; simp at this
    by_cases hh : t2.head? = some '['
    · obtain ⟨t3, rfl⟩ : ∃ t3, t2 = '[' :: t3 := by
        cases t2 with
        | nil => simp at hh
        | cons x xs => simp at hh; exact ⟨xs, by rw [hh]⟩
      obtain ⟨t6, b, h6, h7, h8⟩ := hback t3
      have h3 : Text.sliceFrom 1 ('[' :: t3) = some t3 := by
        have := Text.sliceFrom_append ['['] t3
        simpa [hs] using this
      refine ⟨2 + (w.takeWhile (· == '=')).length, '[' :: (List.replicate (w.takeWhile (· == '=')).length '=' ++ ['[']),
        t6, b, ?_, ?_, Or.inl ?_, fun h => absurd rfl h, h8⟩
      · unfold unquote
        simp only [show ¬ ('[' = '\'' ∨ '[' = '"') by decide, if_false, if_true, h1, h2, ht2, List.head?_cons, h3, h6]
      · conv => lhs; rw [hw, h7]
        simp
      · simp [len_replicate_eq, hs]; omega
    · obtain ⟨t6, b, h6, h7, h8⟩ := hback t2
      refine ⟨2 + (w.takeWhile (· == '=')).length, '[' :: List.replicate (w.takeWhile (· == '=')).length '=',
        t6, b, ?_, ?_, Or.inr ⟨⟨_, t2, by rw [← hw], hh, hne⟩, ?_⟩, fun h => absurd rfl h, h8⟩
      · unfold unquote
        simp only [show ¬ ('[' = '\'' ∨ '[' = '"') by decide, if_false, if_true, h1, h2, ht2, hh, h6]
      · conv => lhs; rw [hw, h7]
        simp
      · simp [len_replicate_eq, hs]; omega

open Validation in
/-- Where `unescape` reports errors. -/
theorem unescape_spec (start : Nat) (pre s : Text) : ∀ e ∈ unescape (Text.len pre + Text.len s) start s,
    ∃ p u q, pre ++ s = p ++ u ++ q ∧ e.range = ⟨start + Text.len p, start + Text.len p + Text.len u⟩ ∧
      (u = ['\\'] ∧ q = [] ∨ ∃ d, d ∉ escapes ∧ u = ['\\', d]) := by
  have hs : '\\'.utf8Size = 1 := rfl
  match s with
  | [] => simp [unescape]
  | c :: cs =>
    intro e he
    unfold unescape at he
    have hpos : Text.len pre + Text.len (c :: cs) - Text.len cs - c.utf8Size = Text.len pre := by simp; omega
    simp only [hpos] at he
    by_cases hc : c = '\\'
    · subst hc
      simp only [if_true] at he
      match cs with
      | [] =>
        simp at he
        subst he
        exact ⟨pre, ['\\'], [], by simp, by simp [Range.ofLen, Range.shift, hs]; omega, Or.inl ⟨rfl, rfl⟩⟩
      | d :: ds =>
        simp only [List.mem_append] at he
        rcases he with he | he
        · split at he
          · simp at he
          · rename_i hd
            simp at he
            subst he
            refine ⟨pre, ['\\', d], ds, by simp, by simp [Range.ofLen, Range.shift, hs]; omega,
              Or.inr ⟨d, by simpa using hd, rfl⟩⟩
        · have e2 : Text.len pre + Text.len ('\\' :: d :: ds) = Text.len (pre ++ ['\\', d]) + Text.len ds := by
            simp; omega
          rw [e2] at he
          obtain ⟨p, u, q, h1, h2, h3⟩ := unescape_spec start (pre ++ ['\\', d]) ds e he
          exact ⟨p, u, q, by simpa using h1, h2, h3⟩
    · simp only [hc, if_false] at he
      have e2 : Text.len pre + Text.len (c :: cs) = Text.len (pre ++ [c]) + Text.len cs := by simp; omega
      rw [e2] at he
      obtain ⟨p, u, q, h1, h2, h3⟩ := unescape_spec start (pre ++ [c]) cs e he
      exact ⟨p, u, q, by simpa using h1, h2, h3⟩

end Verif
