import Verif.Spec.Grouping
import Verif.Proof.AstProof
import Verif.Props.Parse
import Verif.Props.AstExamples
import Verif.Proof.Decide

/-
C84: the tree of an error-free file is the one derivation of its tokens.  C85: how operators group.
-/
namespace Verif
open Spec Lua PTree

/-! ### stripping -/

@[simp] theorem stripL_append (a b : List Green) : stripL (a ++ b) = stripL a ++ stripL b := by
  induction a with
  | nil => simp [stripL]
  | cons x xs ih =>
    cases x with
    | token k w => by_cases hk : k.isTrivia = true <;> simp [stripL, hk, ih]
    | node k ds => simp [stripL, ih]

theorem stripL_triv (ls : List Lx) (h : realKinds ls = []) : stripL (ls.map leaf) = [] := by
  induction ls with
  | nil => simp [stripL]
  | cons l ls ih =>
    by_cases ht : isTriv l = true
    · simp only [realKinds, List.filter_cons, ht] at h ih
      have := ih (by simpa using h)
      simp only [isTriv] at ht
      simp only [List.map_cons, leaf, stripL, ht, if_true]
      exact this
    · simp [realKinds, ht] at h

theorem stripL_lead (ls : List Lx) : stripL (lead ls) = [] := by
  induction ls with
  | nil => simp [lead, stripL]
  | cons l ls ih =>
    simp only [lead, List.takeWhile_cons] at ih ⊢
    split
    · rename_i h
      simp only [isTriv] at h
      simp only [List.map_cons, leaf, stripL, h, if_true]
      exact ih
    · simp [stripL]

mutual
theorem place_strip (n : Nat) (t : PTree) (todo : List Lx) (ks : List SyntaxKind)
    (h : realKinds todo = yield t ++ ks) (he : errors t = []) :
    stripL (place n t todo).greens = [t] ∧ realKinds (place n t todo).rest = ks := by
  cases t with
  | tok k =>
    obtain ⟨w, r, h1, h2⟩ := afterTriv_of_kinds (show realKinds todo = k :: ks by simpa [yield] using h)
    simp only [place, h1]
    refine ⟨?_, h2⟩
    have := afterTriv_head h1
    simp only [isTriv] at this
    rw [stripL_append, stripL_lead]
    simp [stripL, strip, leaf, this]
  | err e => simp [errors] at he
  | errNode cs e => simp [errors] at he
  | node k cs =>
    simp only [errors] at he
    have hk : realKinds (afterTriv todo) = yieldL cs ++ ks := by rw [realKinds_afterTriv]; simpa [yield] using h
    obtain ⟨h2, h3⟩ := placeL_strip n cs (afterTriv todo) ks hk he
    simp only [place]
    refine ⟨?_, h3⟩
    rw [stripL_append, stripL_lead]
    simp [stripL, strip, h2]
theorem placeL_strip (n : Nat) (ts : List PTree) (todo : List Lx) (ks : List SyntaxKind)
    (h : realKinds todo = yieldL ts ++ ks) (he : errorsL ts = []) :
    stripL (placeL n ts todo).greens = ts ∧ realKinds (placeL n ts todo).rest = ks := by
  cases ts with
  | nil => exact ⟨by simp [placeL, stripL], by simpa [placeL, yieldL] using h⟩
  | cons t ts =>
    simp only [errorsL, List.append_eq_nil_iff] at he
    obtain ⟨h2, h3⟩ := place_strip n t todo (yieldL ts ++ ks) (by simpa [yieldL] using h) he.1
    obtain ⟨h5, h6⟩ := placeL_strip n ts _ ks h3 he.2
    simp only [placeL]
    refine ⟨?_, h6⟩
    rw [stripL_append, h2, h5]; rfl
end

/-- The kinds of the tokens of a text, without white space and comments. -/
theorem strip_tree (text : Text) (tree : Green) (h : parseText text = .ok (tree, [])) :
    Program .accepted (strip tree) := by
  obtain ⟨ls, ts, h1, h2, h3, ⟨h4, h4'⟩, h5⟩ := parseText_main text
  rw [h5] at h
  simp only [Except.ok.injEq, Prod.mk.injEq, List.append_eq_nil_iff] at h
  obtain ⟨rfl, he, -⟩ := h
  have he' := placeL_errs_nil _ _ _ he
  obtain ⟨p2, p3⟩ := placeL_strip text.len ts (ls.map lxOf) [] (by simp [h3]) he'
  have := h4' he'
  simpa [strip, stripL, p2, stripL_triv _ p3] using this

mutual
theorem yield_strip (g : Green) (h : ∀ l ∈ g.leaves, g.isNode = true ∨ l.1.isTrivia = false) :
    yield (strip g) = (g.leaves.map (·.1)).filter fun k => !k.isTrivia := by
  cases g with
  | token k w =>
    have := h (k, w) (by simp [Green.leaves])
    simp [Green.isNode] at this
    simp [strip, yield, Green.leaves, this]
  | node k cs =>
    simp only [strip, yield, Green.leaves]
    exact yield_stripL cs
theorem yield_stripL (cs : List Green) :
    yieldL (stripL cs) = ((Green.leavesL cs).map (·.1)).filter fun k => !k.isTrivia := by
  cases cs with
  | nil => simp [stripL, yieldL, Green.leavesL]
  | cons c cs =>
    have ih := yield_stripL cs
    cases c with
    | token k w =>
      by_cases hk : k.isTrivia = true
      · simp [stripL, hk, Green.leavesL, Green.leaves, ih]
      · simp [stripL, hk, Green.leavesL, Green.leaves, ih, yieldL, strip, yield]
    | node k ds =>
      have := yield_strip (.node k ds) (by simp [Green.isNode])
      simp [stripL, Green.leavesL, ih, yieldL, this]
end

/-- **C84**: a sequence of tokens derives in at most one way from the grammar the parser accepts. -/
theorem C84_unambiguous (t t' : PTree) (h : Program .accepted t) (h' : Program .accepted t')
    (hy : yield t = yield t') : t = t' := by
  have h1 := parseKinds_complete h
  have h2 := parseKinds_complete h'
  rw [hy, h2] at h1
  simp only [Except.ok.injEq] at h1
  exact (calls_inj t t' [] [] [] [] (by simpa using h1.symm) (by simp [hy])).1

/-- **C84**: the tree of a file without lexical and syntax errors is, white space and comments left out, the one
derivation of its tokens. -/
theorem C84_derivation (text : Text) (tree : Green) (h : parseText text = .ok (tree, [])) :
    Program .accepted (strip tree) ∧
    (∃ tokens, tokenize text = .ok (tokens, []) ∧
      yield (strip tree) = (tokens.map (·.kind)).filter fun k => !k.isTrivia) ∧
    ∀ t, Program .accepted t → yield t = yield (strip tree) → t = strip tree := by
  refine ⟨strip_tree text tree h, ?_, fun t ht hy => C84_unambiguous _ _ ht (strip_tree text tree h) hy⟩
  obtain ⟨ls, ts, h1, h2, h3, h4, h5⟩ := parseText_main text
  obtain ⟨ls', tree', errors, h1', h', _, _, hl, _⟩ := parseText_tree text
  obtain rfl := h1.unique h1'
  have hn : tree.isNode = true := by
    rw [h] at h5; simp only [Except.ok.injEq, Prod.mk.injEq] at h5; rw [h5.1]; rfl
  rw [h] at h5 h'
  simp only [Except.ok.injEq, Prod.mk.injEq] at h5 h'
  obtain ⟨rfl, rfl⟩ := h'
  refine ⟨(Lexer.attach 0 ls).map (·.1), ?_, ?_⟩
  · rw [Lexer.tokenize_eq h1, (List.append_eq_nil_iff.1 h5.2.symm).2]
  · rw [yield_strip tree (fun _ _ => .inl hn), hl, Lexer.attach_tokens]
    simp [lxOf, Function.comp_def]

/-! ### operator nodes -/

private def IsOp (s : PTree) : Prop := kindOf s = some .infixExpr ∨ kindOf s = some .prefixExpr

private def AllD (x : Dialect) (t : PTree) : Prop := ∀ s, Sub s t → IsOp s → Deriv x .expr [s]

private theorem allD_tok (x k) : AllD x (.tok k) := by
  intro s h; cases h; simp [IsOp, kindOf]

private theorem allD_node {x k cs} (h : ∀ c ∈ cs, AllD x c) (hn : Deriv x .expr [.node k cs]) :
    AllD x (.node k cs) := by
  intro s hs ho
  cases hs with
  | refl => exact hn
  | node _ c _ hc hs => exact h c hc s hs ho

private theorem allD_node' {x k cs} (h : ∀ c ∈ cs, AllD x c) (hk : k ≠ .infixExpr) (hk' : k ≠ .prefixExpr) :
    AllD x (.node k cs) := by
  intro s hs ho
  cases hs with
  | refl => simp [IsOp, kindOf, hk, hk'] at ho
  | node _ c _ hc hs => exact h c hc s hs ho

private theorem deriv_allD {x nt ts} (h : Deriv x nt ts) : ∀ t ∈ ts, AllD x t := by
  have hn : AllD x nameT := allD_node' (by simp [allD_tok]) (by simp) (by simp)
  have hr : AllD x nameRefT := allD_node' (by simp [allD_tok]) (by simp) (by simp)
  induction h with
  | «prefix» op e hop he hl ih =>
    simp only [List.mem_singleton, forall_eq] at ih ⊢
    exact allD_node (by simp [allD_tok, ih]) (.prefix op e hop he hl)
  | «infix» op l r hb hl hr h1 h2 ihl ihr =>
    simp only [List.mem_singleton, forall_eq] at ihl ihr ⊢
    exact allD_node (by simp [allD_tok, ihl, ihr]) (.infix op l r hb hl hr h1 h2)
  | _ =>
    simp_all only [List.mem_cons, List.mem_append, List.mem_singleton, List.not_mem_nil, or_false,
      forall_eq_or_imp, forall_eq, and_true, or_imp, forall_and, false_implies, implies_true]
    repeat' first
      | exact allD_tok _ _
      | assumption
      | refine ⟨?_, ?_⟩
      | refine allD_node' ?_ (by simp) (by simp)
      | (simp_all only [List.mem_cons, List.mem_append, List.mem_singleton, List.not_mem_nil, or_false,
          forall_eq_or_imp, forall_eq, and_true, or_imp, forall_and, false_implies, implies_true])

/-! ### from nodes to derivations -/

private theorem strip_elems (path : List Nat) : ∀ (cs : List Green) (i off : Nat),
    ((Red.elemsFrom path i off cs).filter fun e => e.green.isNode || !e.kind.isTrivia).map (fun e => strip e.green) =
      stripL cs := by
  intro cs
  induction cs with
  | nil => intros; simp [Red.elemsFrom, stripL]
  | cons c cs ih =>
    intro i off
    rw [Red.elemsFrom, List.filter_cons]
    cases c with
    | node k ds =>
      rw [if_pos (by simp [Green.isNode]), List.map_cons, ih]
      simp [stripL]
    | token k t =>
      by_cases hk : k.isTrivia = true
      · rw [if_neg (by rw [show Red.kind _ = k from rfl, hk]; simp [Green.isNode]), ih]
        simp [stripL, hk]
      · rw [if_pos (by rw [show Red.kind _ = k from rfl]; simp [hk]), List.map_cons, ih]
        simp [stripL, hk]

theorem strip_parts (r : Red) (h : r.green.isNode = true) :
    strip r.green = .node r.kind ((parts r).map fun e => strip e.green) := by
  rcases r with ⟨p, o, g⟩
  cases g with
  | token k t => simp [Green.isNode] at h
  | node k cs =>
    simp only [strip, parts, Red.elems, Red.kind, Green.kind, Green.children]
    rw [← strip_elems p cs 0 o]
    rfl

theorem below_sub {a r : Red} (ha : a.green.isNode = true) (h : Below a r) :
    r.green.isNode = true ∧ ∀ s, Sub s (strip r.green) → Sub s (strip a.green) := by
  induction h with
  | self => exact ⟨ha, fun s h => h⟩
  | @child b c _ hc ih =>
    refine ⟨child_node hc, fun s hs => ih.2 s ?_⟩
    rw [strip_parts b ih.1]
    refine .node _ _ _ _ (List.mem_map.2 ⟨c, ?_, rfl⟩) hs
    have := List.mem_filter.1 hc
    exact List.mem_filter.2 ⟨this.1, by simp [this.2]⟩

private theorem tok_of_sym {e : Red} {k : SyntaxKind} (h : sym e = .tok k) : strip e.green = .tok e.kind := by
  have := (sym_tok.1 h).1
  rcases e with ⟨p, o, g⟩
  cases g with
  | token k t => simp [strip, Red.kind, Green.kind]
  | node k cs => simp [Green.isNode] at this

private theorem node_of_red {text : Text} {k : SyntaxKind} {e : Red} (h : NodeOf text k e) : e.green.isNode = true := by
  obtain ⟨tree, h, hb, -⟩ := h
  have hn : (Red.root tree).green.isNode = true := by
    obtain ⟨ls, ts, -, -, -, -, h5⟩ := parseText_main text
    rw [h5] at h
    simp only [Except.ok.injEq, Prod.mk.injEq] at h
    rw [← h.1]; rfl
  exact (below_sub hn hb).1

private theorem deriv_of_red {text : Text} {k : SyntaxKind} {e : Red} (h : NodeOf text k e)
    (hk : k = .infixExpr ∨ k = .prefixExpr) : Deriv .accepted .expr [strip e.green] := by
  have hn := node_of_red h
  obtain ⟨tree, h, hb, hek⟩ := h
  have hr : (Red.root tree).green.isNode = true := by
    obtain ⟨ls, ts, -, -, -, -, h5⟩ := parseText_main text
    rw [h5] at h
    simp only [Except.ok.injEq, Prod.mk.injEq] at h
    rw [← h.1]; rfl
  obtain ⟨b, hb', hd⟩ := strip_tree text tree h
  have hs : Sub (strip e.green) (strip tree) := (below_sub hr hb).2 _ (.refl _)
  rw [hb'] at hs
  have hop : IsOp (strip e.green) := by
    rw [strip_parts e hn, hek]
    rcases hk with rfl | rfl <;> simp [IsOp, kindOf]
  exact allD_node' (fun c hc => deriv_allD hd c hc) (by simp) (by simp) _ hs hop

private theorem part_node {text : Text} {k : SyntaxKind} {s m : Red} (h : NodeOf text k s) (hm : m ∈ parts s)
    (hs : m.green.isNode = true) : NodeOf text m.kind m := by
  obtain ⟨tree, h1, h2, h3⟩ := h
  exact ⟨tree, h1, .child h2 (List.mem_filter.2 ⟨(List.mem_filter.1 hm).1, hs⟩), rfl⟩

private theorem infix_parts {text : Text} {e l op r : Red} (h : NodeOf text .infixExpr e) (hp : parts e = [l, op, r]) :
    NodeOf text l.kind l ∧ NodeOf text r.kind r ∧ strip e.green = .node .infixExpr [strip l.green, .tok op.kind, strip r.green] ∧
      op.green.isNode = false ∧ isBinary op.kind := by
  obtain ⟨ss, h1, h2⟩ := production h
  cases h2 with
  | infixExpr a o b ha ho hb =>
    obtain ⟨x, y, z, hxyz, hx, hy, hz⟩ := map3 h1
    rw [hp] at hxyz
    simp only [List.cons.injEq, and_true] at hxyz
    obtain ⟨rfl, rfl, rfl⟩ := hxyz
    obtain ⟨ka, hka, rfl⟩ := ha
    obtain ⟨kb, hkb, rfl⟩ := hb
    refine ⟨part_node h (by rw [hp]; simp) (sym_node.1 hx).1, part_node h (by rw [hp]; simp) (sym_node.1 hz).1, ?_,
      (sym_tok.1 hy).1, by rw [(sym_tok.1 hy).2]; exact ho⟩
    rw [strip_parts e (node_of_red h), h.choose_spec.2.2, hp]
    simp [tok_of_sym hy]

private theorem prefix_parts {text : Text} {e op r : Red} (h : NodeOf text .prefixExpr e) (hp : parts e = [op, r]) :
    NodeOf text r.kind r ∧ strip e.green = .node .prefixExpr [.tok op.kind, strip r.green] := by
  obtain ⟨ss, h1, h2⟩ := production h
  cases h2 with
  | prefixExpr o b ho hb =>
    obtain ⟨y, z, hxyz, hy, hz⟩ := map2 h1
    rw [hp] at hxyz
    simp only [List.cons.injEq, and_true] at hxyz
    obtain ⟨rfl, rfl⟩ := hxyz
    obtain ⟨kb, hkb, rfl⟩ := hb
    refine ⟨part_node h (by rw [hp]; simp) (sym_node.1 hz).1, ?_⟩
    rw [strip_parts e (node_of_red h), h.choose_spec.2.2, hp]
    simp [tok_of_sym hy]

private theorem rightEdge_levels {text : Text} {e : Red} {p : Nat} (h : RightEdge e p) :
    NodeOf text e.kind e → p ∈ rightLevels (strip e.green) := by
  induction h with
  | «infix» hk hp => intro h; rw [hk] at h; rw [(infix_parts h hp).2.2.1]; simp [rightLevels]
  | infixRight hk hp _ ih =>
    intro h; rw [hk] at h
    have := infix_parts h hp
    rw [this.2.2.1]; simp [rightLevels, ih this.2.1]
  | «prefix» hk hp => intro h; rw [hk] at h; rw [(prefix_parts h hp).2]; simp [rightLevels]
  | prefixRight hk hp _ ih =>
    intro h; rw [hk] at h
    have := prefix_parts h hp
    rw [this.2]; simp [rightLevels, ih this.1]

private theorem leftEdge_levels {text : Text} {e : Red} {p : Nat} (h : LeftEdge e p) :
    NodeOf text e.kind e → ∃ q ∈ leftOps (strip e.green), p = level q := by
  induction h with
  | «infix» hk hp => intro h; rw [hk] at h; rw [(infix_parts h hp).2.2.1]; simp [leftOps]
  | infixLeft hk hp _ ih =>
    intro h; rw [hk] at h
    have := infix_parts h hp
    obtain ⟨q, hq, e⟩ := ih this.1
    rw [this.2.2.1]; exact ⟨q, by simp [leftOps, hq], e⟩

/-- **C85**: operators group by their levels: an operator exposed on the right edge of the left operand binds tighter,
or is the same left associative operator; an operator exposed on the left edge of the right operand binds tighter, or
is the same right associative operator. -/
theorem C85_infix (text : Text) (e l op r : Red) (h : NodeOf text .infixExpr e) (hp : parts e = [l, op, r]) :
    (∀ p, RightEdge l p → level op.kind < p ∨ (level op.kind = p ∧ rightAssoc op.kind = false)) ∧
    (∀ p, LeftEdge r p → level op.kind < p ∨ (level op.kind = p ∧ rightAssoc op.kind = true)) := by
  obtain ⟨h1, h2, h3, -⟩ := infix_parts h hp
  have hd := deriv_of_red h (.inl rfl)
  rw [h3] at hd
  cases hd with
  | «infix» _ _ _ _ _ _ hl hr =>
    refine ⟨fun p he => hl p (rightEdge_levels he h1), fun p he => ?_⟩
    obtain ⟨q, hq, rfl⟩ := leftEdge_levels he h2
    exact hr q hq

/-- **C85**: an operator exposed on the left edge of the operand of a unary operator binds tighter (it is `^`). -/
theorem C85_prefix (text : Text) (e op r : Red) (h : NodeOf text .prefixExpr e) (hp : parts e = [op, r]) :
    ∀ p, LeftEdge r p → unaryLevel < p := by
  obtain ⟨h1, h2⟩ := prefix_parts h hp
  have hd := deriv_of_red h (.inr rfl)
  rw [h2] at hd
  cases hd with
  | «prefix» _ _ _ _ hl =>
    intro p he
    obtain ⟨q, hq, rfl⟩ := leftEdge_levels he h1
    exact hl q hq

/-- **C85**: the levels are all different, apart from the unary operators. -/
theorem C85_levels (a b : SyntaxKind) (ha : isBinary a) (h : level a = level b) : a = b := by
  have hb : isBinary b := by rw [isBinary, ← h]; exact ha
  have key : ∀ a ∈ infixOps, ∀ b ∈ infixOps, level a = level b → a = b := by decide
  exact key a (mem_infixOps_of_level ha) b (mem_infixOps_of_level hb) h

/-! ### examples -/

instance : DecidableEq Red := fun a b =>
  decidable_of_iff (a.path = b.path ∧ a.off = b.off ∧ a.green = b.green) (by cases a; cases b; simp)

/-- the tree of `x=a*b+-c^d` -/
private def sumText : Text := "x=a*b+-c^d".toList
private def sumGreen : Green :=

  .node .sourceFile [.node .block [.node .assignStmt [.node .multivalExpr [.node .nameRef [.token .ident "x".toList]],
  .token .eq "=".toList,
  .node .multivalExpr [.node .infixExpr [.node .infixExpr [.node .nameRef [.token .ident "a".toList],
  .token .asterisk "*".toList, .node .nameRef [.token .ident "b".toList]], .token .plus "+".toList,
  .node .prefixExpr [.token .minus "-".toList, .node .infixExpr [.node .nameRef [.token .ident "c".toList],
  .token .caret "^".toList, .node .nameRef [.token .ident "d".toList]]]]]]]]

private theorem sum_parses : parseText sumText = .ok (sumGreen, []) := by
  rw [parseText_eq_eval]; decide +kernel

/-- The outermost operator is `+`; `*` is exposed on the right edge of its left operand and binds tighter. -/
example : ∃ e l op r, NodeOf sumText .infixExpr e ∧ parts e = [l, op, r] ∧ op.kind = .plus ∧ RightEdge l 12 := by
  have h := nodeOf_firstD (k := .infixExpr) sum_parses (by decide +kernel)
  refine ⟨_, (parts ((firstOf .infixExpr 40 (Red.root sumGreen)).getD (Red.root (.node .error []))))[0]'(by decide +kernel),
    (parts ((firstOf .infixExpr 40 (Red.root sumGreen)).getD (Red.root (.node .error []))))[1]'(by decide +kernel),
    (parts ((firstOf .infixExpr 40 (Red.root sumGreen)).getD (Red.root (.node .error []))))[2]'(by decide +kernel),
    h, by decide +kernel, by decide +kernel, ?_⟩
  exact .infix (l := ⟨[0, 0, 2, 0, 0, 0], 2, .node .nameRef [.token .ident "a".toList]⟩)
    (op := ⟨[0, 0, 2, 0, 0, 1], 3, .token .asterisk "*".toList⟩)
    (r := ⟨[0, 0, 2, 0, 0, 2], 4, .node .nameRef [.token .ident "b".toList]⟩) (by decide +kernel) (by decide +kernel)

/-- The operand of the unary operator has `^` on its left edge. -/
example : ∃ e op r, NodeOf sumText .prefixExpr e ∧ parts e = [op, r] ∧ LeftEdge r 16 := by
  have h := nodeOf_firstD (k := .prefixExpr) sum_parses (by decide +kernel)
  refine ⟨_, (parts ((firstOf .prefixExpr 40 (Red.root sumGreen)).getD (Red.root (.node .error []))))[0]'(by decide +kernel),
    (parts ((firstOf .prefixExpr 40 (Red.root sumGreen)).getD (Red.root (.node .error []))))[1]'(by decide +kernel),
    h, by decide +kernel, ?_⟩
  exact .infix (l := ⟨[0, 0, 2, 0, 2, 1, 0], 7, .node .nameRef [.token .ident "c".toList]⟩)
    (op := ⟨[0, 0, 2, 0, 2, 1, 1], 8, .token .caret "^".toList⟩)
    (r := ⟨[0, 0, 2, 0, 2, 1, 2], 9, .node .nameRef [.token .ident "d".toList]⟩) (by decide +kernel) (by decide +kernel)

/-- Stripping keeps the shape. -/
example : Program .accepted (strip sumGreen) ∧ yield (strip sumGreen) =
    [.ident, .eq, .ident, .asterisk, .ident, .plus, .minus, .ident, .caret, .ident] :=
  ⟨(C84_derivation _ _ sum_parses).1, by decide +kernel⟩

end Verif
