import Verif.Proof.AstProof
import Verif.Props.Spelling
import Verif.Proof.TreeContext

/-
C63, C64, C66, C71, C72: names, literals, operators and calls.
-/
namespace Verif
open Spec Lua

variable {text : Text} {r : Red}

/-! ### the words of a tree -/

private theorem leaf_mem {tree : Green} {r x : Red} (h : Below (Red.root tree) r) (hx : x ∈ r.elems)
    (ht : x.green.isNode = false) : (x.kind, x.green.text) ∈ tree.leaves := by
  obtain ⟨a, b, h1, _⟩ := ((inTree_root tree).below h).elem hx
  rw [h1.leaves]
  rcases x with ⟨_, _, g⟩
  cases g with
  | token k t => simp [Green.leaves, Green.text, Red.kind, Green.kind]
  | node => simp [Green.isNode] at ht

/-- A token of a node is written as its kind says. -/
theorem part_spelled {k k' : SyntaxKind} (h : NodeOf text k r) {x : Red} (hx : x ∈ parts r) (hs : sym x = .tok k') :
    Spelled k' x.green.text := by
  obtain ⟨tree, h1, h2, _⟩ := h
  rw [sym_tok] at hs
  have := C75_tree text tree h1 _ (leaf_mem h2 (List.mem_filter.1 hx).1 hs.1)
  rw [hs.2] at this
  exact this

/-! ### C63: names -/

private theorem litOk_ctx {x g : Green} {p : List Nat} {a b} (h : Ctx x g p a b) (hl : LitOk g) : LitOk x := by
  induction h with
  | here => exact hl
  | down _ ih =>
    simp only [LitOk, LitOkL_append, LitOkL] at hl
    exact ih hl.2.2.1

private theorem litOk_below {tree : Green} {errors} (h : parseText text = .ok (tree, errors))
    (hr : Below (Red.root tree) r) : LitOk r.green ∧ r.green.isNode = true ∧ ∃ ls, Lexer.Lexemes text ls ∧ tree.leaves = ls.map lxOf := by
  obtain ⟨ls, tree', errors', h1, h2, h3, _, h4, _⟩ := parseText_tree text
  rw [h] at h2
  simp only [Except.ok.injEq, Prod.mk.injEq] at h2
  obtain ⟨rfl, rfl⟩ := h2
  obtain ⟨a, b, h5, _⟩ := (inTree_root tree).below hr
  refine ⟨litOk_ctx h5 h3, ?_, ls, h1, h4⟩
  cases hr with
  | self =>
    obtain ⟨_, _, _, _, _, _, h'⟩ := parseText_main text
    rw [h] at h'
    simp only [Except.ok.injEq, Prod.mk.injEq] at h'
    rw [h'.1]; rfl
  | child _ hc => exact (List.mem_filter.1 hc).2

private theorem ident_spelled {tree : Green} {errors} (h : parseText text = .ok (tree, errors))
    (hr : Below (Red.root tree) r) {k w} (e : r.green = .node k [.token .ident w]) : Spelled .ident w := by
  obtain ⟨_, _, ls, h1, h2⟩ := litOk_below h hr
  obtain ⟨a, b, h5, _⟩ := (inTree_root tree).below hr
  have hm : (SyntaxKind.ident, w) ∈ tree.leaves := by
    rw [h5.leaves, e]; simp [Green.leaves, Green.leavesL]
  rw [h2, List.mem_map] at hm
  obtain ⟨l, hl, e⟩ := hm
  simp only [lxOf, Prod.mk.injEq] at e
  obtain ⟨e1, rfl⟩ := e
  have := lexemes_spelled h1 l hl
  rw [e1] at this
  split at this
  · exact this
  · cases this

/-- **C63**: in every file, with or without errors, the text of a name (`Name::text`) is defined, is the text of the node,
and is a name of the language. -/
theorem C63_name (text : Text) (tree : Green) (errors : List SyntaxError) (h : parseText text = .ok (tree, errors))
    (r : Red) (hr : Below (Red.root tree) r) (hk : r.kind = .name) :
    ∃ w, Ast.Name.text r = some w ∧ r.green.text = w ∧ Spelled .ident w := by
  obtain ⟨hl, hn, _⟩ := litOk_below h hr
  rcases r with ⟨p, o, g⟩
  cases g with
  | token k w => simp [Green.isNode] at hn
  | node k cs =>
    simp only [LitOk] at hl
    obtain ⟨w, rfl⟩ := hl.1.2.1 hk
    have hs := ident_spelled h hr rfl
    exact ⟨w, rfl, by simp [Green.text, Green.textL], hs⟩

/-- **C63**: in every file the text of a use of a name (`NameRef::text`) is defined exactly if the node is not empty, and
then it is the text of the node, a name of the language. -/
theorem C63_nameRef (text : Text) (tree : Green) (errors : List SyntaxError) (h : parseText text = .ok (tree, errors))
    (r : Red) (hr : Below (Red.root tree) r) (hk : r.kind = .nameRef) :
    (r.green.text = [] ∧ Ast.NameRef.text r = none) ∨
      ∃ w, Ast.NameRef.text r = some w ∧ r.green.text = w ∧ Spelled .ident w := by
  obtain ⟨hl, hn, _⟩ := litOk_below h hr
  rcases r with ⟨p, o, g⟩
  cases g with
  | token k w => simp [Green.isNode] at hn
  | node k cs =>
    simp only [LitOk] at hl
    rcases hl.1.2.2 hk with rfl | ⟨w, rfl⟩
    · exact .inl ⟨rfl, rfl⟩
    · have hs := ident_spelled h hr rfl
      exact .inr ⟨w, rfl, by simp [Green.text, Green.textL], hs⟩

/-- **C63**: in files without errors `NameRef::text` is always defined. -/
theorem C63_nameRef_clean (h : NodeOf text .nameRef r) :
    ∃ w, Ast.NameRef.text r = some w ∧ r.green.text = w ∧ Spelled .ident w := by
  obtain ⟨ss, e, P⟩ := production h
  obtain ⟨tree, h1, h2, h3⟩ := h
  obtain ⟨hl, hn, _⟩ := litOk_below h1 h2
  cases P with
  | nameRef =>
    obtain ⟨x, hp, hx⟩ := map1 e
    rcases r with ⟨p, o, g⟩
    cases g with
    | token k t => simp [Green.isNode] at hn
    | node k cs =>
      simp only [LitOk] at hl
      rcases hl.1.2.2 h3 with rfl | ⟨w, rfl⟩
      · simp [parts, Red.elems, Green.children, Red.elemsFrom] at hp
      · have hs := ident_spelled h1 h2 rfl
        exact ⟨w, rfl, by simp [Green.text, Green.textL], hs⟩

/-- **C63**: `Name::ident_token` and `NameRef::ident_token` are the identifier. -/
theorem C63_ident (h : NodeOf text .name r) : ∃ x, parts r = [x] ∧ sym x = .tok .ident ∧ Ast.Name.identToken r = some x ∧
    Spelled .ident x.green.text := by
  obtain ⟨ss, e, P⟩ := production h
  cases P with
  | name =>
    obtain ⟨x, hp, h1⟩ := map1 e
    refine ⟨x, hp, h1, ?_, part_spelled h (by simp [hp]) h1⟩
    rw [sym_tok] at h1
    ast_simp [Ast.Name.identToken, hp, h1]

theorem C63_ref_ident (h : NodeOf text .nameRef r) : ∃ x, parts r = [x] ∧ sym x = .tok .ident ∧
    Ast.NameRef.identToken r = some x ∧ Spelled .ident x.green.text := by
  obtain ⟨ss, e, P⟩ := production h
  cases P with
  | nameRef =>
    obtain ⟨x, hp, h1⟩ := map1 e
    refine ⟨x, hp, h1, ?_, part_spelled h (by simp [hp]) h1⟩
    rw [sym_tok] at h1
    ast_simp [Ast.NameRef.identToken, hp, h1]

/-! ### C72: literals -/

/-- What a literal means, from its text: the constant it names, or the text of a number or string. -/
inductive Value where
  | nil | true | false | vararg
  | number (w : Text)
  | str (w : Text)
  deriving DecidableEq

/-- `LiteralKind` with the text of its token. -/
def Ast.LiteralKind.value : Ast.LiteralKind → Value
  | .str t => .str t.green.text
  | .number t => .number t.green.text
  | .bool b => if b then .true else .false
  | .nil => .nil
  | .vararg => .vararg

/-- The value of a literal, read off its text. -/
def literalValue (w : Text) : Value :=
  if w = "nil".toList then .nil else if w = "true".toList then .true else if w = "false".toList then .false
  else if w = "...".toList then .vararg
  else match w with
    | c :: _ => if c.isDigit then .number w else .str w
    | [] => .str []

private def kindValue (w : Text) : SyntaxKind → Value
  | .nilKw => .nil
  | .trueKw => .true
  | .falseKw => .false
  | .tripleDot => .vararg
  | .number => .number w
  | _ => .str w

private theorem value_of {k : SyntaxKind} {w : Text} (hk : k ∈ literalKinds) (h : Spelled k w ∨ Misspelled k w) :
    literalValue w = kindValue w k := by
  have digit : ∀ {c : Char} {v : Text}, c.isDigit = true → literalValue (c :: v) = .number (c :: v) := by
    intro c v hc
    have hne : ∀ d : Char, d.isDigit = false → c ≠ d := by rintro d hd rfl; rw [hc] at hd; cases hd
    simp [literalValue, hc, hne 'n' (by decide), hne 't' (by decide), hne 'f' (by decide), hne '.' (by decide)]
  have str : ∀ {c : Char} {v : Text}, c = '\'' ∨ c = '"' ∨ c = '[' → literalValue (c :: v) = .str (c :: v) := by
    rintro c v (rfl | rfl | rfl) <;> simp [literalValue] <;> decide
  rcases h with h | h
  · simp only [literalKinds, List.mem_cons, List.not_mem_nil, or_false] at hk
    rcases hk with rfl | rfl | rfl | rfl | rfl | rfl
    · rw [C75_fixed h "true" (by decide)]; decide
    · rw [C75_fixed h "false" (by decide)]; decide
    · cases h with
      | fixed h =>
        have hd : ∀ p ∈ keywords ++ operators, p.2 ≠ .number := by decide
        exact absurd rfl (hd _ h)
      | number h1 => exact digit h1
      | hex => exact digit (by decide)
    · cases h with
      | fixed h =>
        have hd : ∀ p ∈ keywords ++ operators, p.2 ≠ .str := by decide
        exact absurd rfl (hd _ h)
      | quoted h1 => exact str (h1.elim .inl (fun h => .inr (.inl h)))
      | long => exact str (.inr (.inr rfl))
    · rw [C75_fixed h "nil" (by decide)]; decide
    · rw [C75_fixed h "..." (by decide)]; decide
  · cases h with
    | quoted h1 => exact str (h1.elim .inl (fun h => .inr (.inl h)))
    | long => exact str (.inr (.inr rfl))
    | char => simp [literalKinds] at hk

/-- **C72**: in every file, with or without errors, `Literal::kind` is defined, and it is the value the text of the literal
denotes. -/
theorem C72_literal (text : Text) (tree : Green) (errors : List SyntaxError) (h : parseText text = .ok (tree, errors))
    (r : Red) (hr : Below (Red.root tree) r) (hk : r.kind = .literal) :
    ∃ v, Ast.Literal.kind r = some v ∧ v.value = literalValue r.green.text := by
  obtain ⟨hl, hn, ls, hls, hlv⟩ := litOk_below h hr
  obtain ⟨a, b, h5, _⟩ := (inTree_root tree).below hr
  rcases r with ⟨p, o, g⟩
  cases g with
  | token k w => simp [Green.isNode] at hn
  | node k cs =>
    simp only [LitOk] at hl
    obtain ⟨⟨k', w⟩, rfl, hk'⟩ := hl.1.1 hk
    have hm : (k', w) ∈ tree.leaves := by
      rw [h5.leaves]; simp [Green.leaves, Green.leavesL, leaf]
    rw [hlv, List.mem_map] at hm
    obtain ⟨l, hml, e⟩ := hm
    simp only [lxOf, Prod.mk.injEq] at e
    obtain ⟨rfl, rfl⟩ := e
    have hs := lexemes_spelled hls l hml
    have hv := value_of hk' (by split at hs; exact .inl hs; exact .inr hs)
    have ht : (Green.node k [leaf (l.kind, l.word)]).text = l.word := by simp [Green.text, Green.textL, leaf]
    simp only [ht, hv]
    generalize l.kind = k at *
    generalize l.word = w at *
    simp only [literalKinds, List.mem_cons, List.not_mem_nil, or_false] at hk'
    rcases hk' with rfl | rfl | rfl | rfl | rfl | rfl <;>
      simp [Ast.Literal.kind, Ast.Literal.firstToken, Red.elems, Red.elemsFrom, Green.children, leaf, Red.kind, Green.kind,
        Green.isNode, SyntaxKind.isTrivia, Ast.LiteralKind.value, Green.text, kindValue]

/-! ### C64: operators -/

/-- The binary operators of the language by their spelling. -/
def binarySpelling : List (String × LuaOp) :=
  [("or", .or), ("and", .and), ("<", .lt), (">", .gt), ("<=", .ltEq), (">=", .gtEq), ("~=", .notEq), ("==", .eq),
    ("..", .concat), ("+", .plus), ("-", .minus), ("*", .mul), ("/", .div), ("%", .mod), ("^", .power)]

private theorem binary_spelled {k : SyntaxKind} (hk : isBinary k) : ∃ s op, (s, op) ∈ binarySpelling ∧
    (s, k) ∈ keywords ++ operators ∧ LuaOp.ofKind k = some op ∧ k ≠ .notKw ∧ k.isTrivia = false := by
  have : ∃ p ∈ binarySpelling, (p.1, k) ∈ keywords ++ operators ∧ LuaOp.ofKind k = some p.2 ∧ k ≠ .notKw ∧
      k.isTrivia = false := by
    cases k <;> simp [isBinary, level] at hk <;> decide
  obtain ⟨⟨s, op⟩, h⟩ := this
  exact ⟨s, op, h⟩

private theorem tokens_find (f : Red → Option (Red × LuaOp))
    (hf : ∀ x : Red, x.kind.isTrivia = true → f x = none) (r : Red) :
    (Ast.tokens r).findSome? f = ((parts r).filter fun e => !e.green.isNode).findSome? f := by
  simp only [Ast.tokens, parts]
  generalize r.elems = l
  induction l with
  | nil => rfl
  | cons x xs ih =>
    simp only [List.filter_cons]
    cases hx : x.green.isNode
    · cases ht : x.kind.isTrivia
      · simp [List.findSome?_cons, hx, ih]
      · simp [hf x ht, hx, ih]
    · simp [hx, ih]

/-- **C64**: the operator of a binary expression: `InfixExpr::op_token` is the token between the operands, and
`InfixExpr::op_kind` is the operator it spells. -/
theorem C64_op (h : NodeOf text .infixExpr r) : ∃ l o x s op, parts r = [l, o, x] ∧ IsExpr (sym l) ∧ IsExpr (sym x) ∧
    o.green.text = String.toList s ∧ (s, op) ∈ binarySpelling ∧
    Ast.InfixExpr.opToken r = some o ∧ Ast.InfixExpr.opKind r = some op := by
  obtain ⟨ss, e, P⟩ := production h
  cases P with
  | infixExpr a k b ha hk hb =>
    obtain ⟨l, o, x, hp, h1, h2, h3⟩ := map3 e
    obtain ⟨s, op, hs, hs', hop, hnot, -⟩ := binary_spelled hk
    refine ⟨l, o, x, s, op, hp, h1 ▸ ha, h3 ▸ hb, C75_fixed (part_spelled h (by simp [hp]) h2) s hs', hs, ?_⟩
    have hd : Ast.InfixExpr.opDetails r = some (o, op) := by
      rw [Ast.InfixExpr.opDetails, tokens_find _ _ r, hp]
      · obtain ⟨_, _, rfl⟩ := ha
        obtain ⟨_, _, rfl⟩ := hb
        rw [sym_tok] at h2
        rw [sym_node] at h1 h3
        simp [h1, h2, h3, hnot, hop]
      · intro y hy
        have : ∀ k : SyntaxKind, k.isTrivia = true → LuaOp.ofKind k = none := by
          intro k; cases k <;> simp [SyntaxKind.isTrivia, LuaOp.ofKind]
        simp [this _ hy]
    simp [Ast.InfixExpr.opToken, Ast.InfixExpr.opKind, hd]

/-- **C64**: the operands of a binary expression.  They are right unless the left one is in parentheses: operands in
parentheses are skipped, so the right operand is taken for the left one. -/
theorem C64_operands_partial (h : NodeOf text .infixExpr r) : ∃ l o x, parts r = [l, o, x] ∧
    IsExpr (sym l) ∧ IsExpr (sym x) ∧
    (sym l ≠ .node .parenExpr → Ast.InfixExpr.lhs r = some l) ∧
    (sym l ≠ .node .parenExpr → sym x ≠ .node .parenExpr → Ast.InfixExpr.rhs r = some x) ∧
    (sym l ≠ .node .parenExpr → sym x = .node .parenExpr → Ast.InfixExpr.rhs r = none) ∧
    (sym l = .node .parenExpr → sym x ≠ .node .parenExpr → Ast.InfixExpr.lhs r = some x ∧ Ast.InfixExpr.rhs r = none) ∧
    (sym l = .node .parenExpr → sym x = .node .parenExpr → Ast.InfixExpr.lhs r = none ∧ Ast.InfixExpr.rhs r = none) := by
  obtain ⟨ss, e, P⟩ := production h
  cases P with
  | infixExpr a k b ha hk hb =>
    obtain ⟨l, o, x, hp, h1, h2, h3⟩ := map3 e
    refine ⟨l, o, x, hp, h1 ▸ ha, h3 ▸ hb, ?_⟩
    obtain ⟨ka, hka, rfl⟩ := ha
    obtain ⟨kb, hkb, rfl⟩ := hb
    rw [h1, h3]
    rw [sym_tok] at h2
    rw [sym_node] at h1 h3
    simp only [Ast.InfixExpr.lhs, Ast.InfixExpr.rhs, Ast.InfixExpr.subExprs, children_parts, hp]
    by_cases hpa : ka = .parenExpr <;> by_cases hpb : kb = .parenExpr <;>
      simp (decide := true) [hpa, hpb, h1, h2, h3, expr_can hka, expr_can hkb]

/-- **C64**: the operand of a unary operator. -/
theorem C64_prefix_partial (h : NodeOf text .prefixExpr r) : ∃ o x s, parts r = [o, x] ∧
    o.green.text = String.toList s ∧ s ∈ ["not", "#", "-"] ∧ IsExpr (sym x) ∧
    Ast.PrefixExpr.expr r = if sym x = .node .parenExpr then none else some x := by
  obtain ⟨ss, e, P⟩ := production h
  cases P with
  | prefixExpr k b hk hb =>
    obtain ⟨o, x, hp, h1, h2⟩ := map2 e
    have hs : ∃ s, (s, k) ∈ keywords ++ operators ∧ s ∈ ["not", "#", "-"] := by
      simp only [unaryOps, List.mem_cons, List.not_mem_nil, or_false] at hk
      rcases hk with rfl | rfl | rfl
      · exact ⟨"not", by decide⟩
      · exact ⟨"#", by decide⟩
      · exact ⟨"-", by decide⟩
    obtain ⟨s, hs, hs'⟩ := hs
    refine ⟨o, x, s, hp, C75_fixed (part_spelled h (by simp [hp]) h1) s hs, hs', h2 ▸ hb, ?_⟩
    obtain ⟨kb, hkb, rfl⟩ := hb
    rw [h2]
    rw [sym_tok] at h1
    rw [sym_node] at h2
    by_cases hpb : kb = .parenExpr
    · subst hpb; ast_simp [Ast.PrefixExpr.expr, hp, h1, h2]
    · ast_simp [Ast.PrefixExpr.expr, hp, h1, h2, hpb, expr_can hkb]

/-! ### C71: calls -/

/-- **C71**: `receiver:name args`.  The colon and the arguments are right.  The receiver is right unless it is in
parentheses (then it is the name of the method), and the name of the method is right unless the receiver is a plain name
(then it is the receiver). -/
theorem C71_method_partial (h : NodeOf text .methodCallExpr r) : ∃ f c n a, parts r = [f, c, n, a] ∧
    IsExpr (sym f) ∧ sym c = .tok .colon ∧ sym n = .node .nameRef ∧ sym a = .node .callArgs ∧
    Ast.MethodCallExpr.colonToken r = some c ∧ Ast.MethodCallExpr.callArgs r = some a ∧
    Ast.MethodCallExpr.fun_ r = (if sym f = .node .parenExpr then some n else some f) ∧
    Ast.MethodCallExpr.nameRef r = (if sym f = .node .nameRef then some f else some n) := by
  obtain ⟨ss, e, P⟩ := production h
  cases P with
  | methodCallExpr b hb =>
    obtain ⟨f, c, n, a, hp, h1, h2, h3, h4⟩ := map4 e
    refine ⟨f, c, n, a, hp, h1 ▸ hb, h2, h3, h4, ?_⟩
    obtain ⟨k, hk, rfl⟩ := hb
    rw [h1]
    rw [sym_tok] at h2
    rw [sym_node] at h1 h3 h4
    have hk4 := (expr_ne hk).2.2.2.1
    by_cases hpb : k = .parenExpr
    · subst hpb
      ast_simp [Ast.MethodCallExpr.colonToken, Ast.MethodCallExpr.callArgs, Ast.MethodCallExpr.fun_,
        Ast.MethodCallExpr.nameRef, Ast.Can.callArgs, Ast.Can.nameRef, hp, h1, h2, h3, h4]
    · by_cases hr : k = .nameRef
      · subst hr
        ast_simp [Ast.MethodCallExpr.colonToken, Ast.MethodCallExpr.callArgs, Ast.MethodCallExpr.fun_,
          Ast.MethodCallExpr.nameRef, Ast.Can.callArgs, Ast.Can.nameRef, hp, h1, h2, h3, h4]
      · ast_simp [Ast.MethodCallExpr.colonToken, Ast.MethodCallExpr.callArgs, Ast.MethodCallExpr.fun_,
          Ast.MethodCallExpr.nameRef, Ast.Can.callArgs, Ast.Can.nameRef, hp, h1, h2, h3, h4, hpb, hr, hk4, expr_can hk]

/-- **C71**: the arguments of a call: a list in parentheses, a table or a string, whichever is written. -/
theorem C71_callArgs (h : NodeOf text .callArgs r) : ∃ a, parts r = [a] ∧
    Ast.CallArgs.argList r = (if sym a = .node .argList then some a else none) ∧
    Ast.CallArgs.tableExpr r = (if sym a = .node .tableExpr then some a else none) ∧
    Ast.CallArgs.strToken r = (if sym a = .tok .str then some a else none) ∧
    (sym a = .node .argList ∨ sym a = .node .tableExpr ∨ sym a = .tok .str) := by
  obtain ⟨ss, e, P⟩ := production h
  cases P with
  | callArgs b hb =>
    obtain ⟨a, hp, h1⟩ := map1 e
    refine ⟨a, hp, ?_⟩
    rw [h1]
    simp only [List.mem_cons, List.not_mem_nil, or_false] at hb
    rcases hb with rfl | rfl | rfl
    · rw [sym_node] at h1
      ast_simp [Ast.CallArgs.argList, Ast.CallArgs.tableExpr, Ast.CallArgs.strToken, Ast.Can.argList, Ast.Can.tableExpr, hp, h1]
    · rw [sym_node] at h1
      ast_simp [Ast.CallArgs.argList, Ast.CallArgs.tableExpr, Ast.CallArgs.strToken, Ast.Can.argList, Ast.Can.tableExpr, hp, h1]
    · rw [sym_tok] at h1
      ast_simp [Ast.CallArgs.argList, Ast.CallArgs.tableExpr, Ast.CallArgs.strToken, Ast.Can.argList, Ast.Can.tableExpr, hp, h1]

/-- **C68**: `TableSep::semicolon_token` is there exactly if the separator is a semicolon. -/
theorem C68_tableSep (h : NodeOf text .tableSep r) : ∃ a, parts r = [a] ∧
    Ast.TableSep.semicolonToken r = (if a.green.text = [';'] then some a else none) := by
  obtain ⟨ss, e, P⟩ := production h
  cases P with
  | tableSep k hk =>
    obtain ⟨a, hp, h1⟩ := map1 e
    refine ⟨a, hp, ?_⟩
    have hs := part_spelled h (x := a) (by simp [hp]) h1
    rw [sym_tok] at h1
    simp only [List.mem_cons, List.not_mem_nil, or_false] at hk
    rcases hk with rfl | rfl
    · rw [C75_fixed hs "," (by decide)]
      ast_simp [Ast.TableSep.semicolonToken, hp, h1]
    · rw [C75_fixed hs ";" (by decide)]
      ast_simp [Ast.TableSep.semicolonToken, hp, h1]

end Verif
