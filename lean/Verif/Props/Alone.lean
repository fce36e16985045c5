import Verif.Props.Pasting
import Verif.Spec.Alone

/-
C125: a construct with its own brackets, on its own.
-/
namespace Verif
open Lexer Lua Accept Spec PTree Nest

private theorem node_of {text : Text} {K : SyntaxKind} {pos n : Nat}
    (h : (sourceFileParseEval text).toOption.map (fun p => (p.2.length,
      (p.1.nodes 0).any fun x => x.1 == pos && x.2.kind == K && x.2.len == n)) = some (0, true)) :
    ∃ tree r, sourceFileParse text = .ok (tree, []) ∧ Below (Red.root tree) r ∧ r.kind = K ∧ r.range = ⟨pos, pos + n⟩ := by
  rw [sourceFileParse_eq_eval]
  cases e : sourceFileParseEval text with
  | error x => rw [e] at h; simp [Except.toOption] at h
  | ok q =>
    rw [e] at h
    obtain ⟨t, es⟩ := q
    simp only [Except.toOption, Option.map_some, Option.some.injEq, Prod.mk.injEq, List.length_eq_zero_iff,
      List.any_eq_true, Bool.and_eq_true, beq_iff_eq] at h
    obtain ⟨rfl, x, hx, ⟨h1, h2⟩, h3⟩ := h
    cases t with
    | token k w => simp [Green.nodes] at hx
    | node k cs =>
      obtain ⟨r, hr, rfl⟩ := (nodes_red (Red.root (.node k cs)) rfl x).1 hx
      refine ⟨_, r, rfl, hr, h2, ?_⟩
      simp only [redPair] at h1 h3
      simp [Red.range, Green.range, Range.ofLen, h1, h3]

private theorem swap_nodes {x y g g' : Green} {a b} (hy : y.isNode = true) (h : Swap x y a b g g') :
    ∀ off, (off + wlen a, y) ∈ g'.nodes off := by
  induction h with
  | here =>
    intro off
    cases y with
    | token => simp [Green.isNode] at hy
    | node k cs => simp [Green.nodes, wlen, wordsOf, Text.len]
  | @down k pre c c' post a b h ih =>
    intro off
    have key : ∀ (pre : List Green) (off : Nat), (off + wlen (Green.leavesL pre ++ a), y) ∈ Green.nodesL off (pre ++ c' :: post) := by
      intro pre
      induction pre with
      | nil =>
        intro off
        simp only [List.nil_append, Green.nodesL, Green.leavesL]
        exact List.mem_append_left _ (ih off)
      | cons p pre ih2 =>
        intro off
        simp only [List.cons_append, Green.nodesL]
        refine List.mem_append_right _ ?_
        have := ih2 (off + p.len)
        have e : off + wlen (Green.leavesL (p :: pre) ++ a) = off + p.len + wlen (Green.leavesL pre ++ a) := by
          have e2 : wlen p.leaves = p.len := by rw [wlen, ← text_leaves]; rfl
          simp [Green.leavesL, wlen_append, e2]; omega
        rw [e]
        exact this
    simp only [Green.nodes]
    exact List.mem_cons_of_mem _ (key pre off)

/-- the construct pasted into a file of which the other node is known -/
private theorem alone {text : Text} {tree : Green} {r : Red} {K : SyntaxKind} (h : sourceFileParse text = .ok (tree, []))
    (hr : Below (Red.root tree) r) (hk : r.kind = K) (hK : K ∈ selfClosing) (A O B : Text)
    (hs : (sourceFileParseEval (A ++ O ++ B)).toOption.map (fun p => (p.2.length,
      (p.1.nodes 0).any fun x => x.1 == A.len && x.2.kind == K && x.2.len == O.len)) = some (0, true)) :
    ∃ tree' r', sourceFileParse (A ++ r.green.text ++ B) = .ok (tree', []) ∧ Below (Red.root tree') r' ∧ r'.green = r.green ∧
      r'.range = ⟨A.len, A.len + r.green.text.len⟩ := by
  obtain ⟨tree1, r1, h1, b1, k1, g1⟩ := node_of hs
  have h2 := C124_paste _ _ A O B tree1 tree r1 r h1 h b1 hr (by rw [k1, hk]) (by rw [hk]; exact hK) rfl g1
  obtain ⟨a, b, ctx, ho⟩ := (inTree_root tree1).below b1
  have hn : r.green.isNode = true := by
    cases hr with
    | self =>
      exfalso
      obtain ⟨p, -⟩ := (C78_accepted _ tree).1 h
      obtain ⟨_, _, -, -, -, -, e⟩ := parseText_main text
      rw [p] at e
      simp only [Except.ok.injEq, Prod.mk.injEq] at e
      rw [e.1] at hk
      have : K = .sourceFile := hk.symm
      rw [this] at hK
      revert hK; decide
    | child _ hc => exact child_node hc
  have hm := swap_nodes hn (ctx.swap (y := r.green)) 0
  have hroot : (Green.replaceAt r.green r1.path tree1).isNode = true := by
    cases hg : Green.replaceAt r.green r1.path tree1 with
    | token k w => rw [hg] at hm; simp [Green.nodes] at hm
    | node => rfl
  obtain ⟨r', hb, e⟩ := (nodes_red (Red.root _) hroot _).1 hm
  refine ⟨_, r', h2, hb, ?_⟩
  have e1 := congrArg Prod.fst e
  have e2 := congrArg Prod.snd e
  simp only [redPair] at e1 e2
  have hoff : r1.off = A.len := by
    have := congrArg Range.start g1
    exact this
  refine ⟨e2, ?_⟩
  simp only [Red.range, Green.range, Range.ofLen, e1, e2, ← hoff, ho, Range.mk.injEq, Nat.zero_add, true_and]
  rfl

/-- **C125** Every construct with its own brackets in a file without errors stands alone: a do, while, if, for, function or
local function statement is a file without errors by itself, a table, a function or an expression in parentheses is one
behind `return`, an argument list behind a name, and so on; and in that file it is the same node. -/
theorem C125_alone (text : Text) (tree : Green) (r : Red) (h : sourceFileParse text = .ok (tree, []))
    (hr : Below (Red.root tree) r) (hK : r.kind ∈ selfClosing) :
    let A : Text := (around r.kind).1.toList
    let B : Text := (around r.kind).2.toList
    ∃ tree' r', sourceFileParse (A ++ r.green.text ++ B) = .ok (tree', []) ∧ Below (Red.root tree') r' ∧ r'.green = r.green ∧
      r'.range = ⟨Text.len A, Text.len A + r.green.text.len⟩ := by
  generalize hk : r.kind = K at hK
  have hK' := hK
  simp only [selfClosing, List.mem_cons, List.not_mem_nil, or_false] at hK'
  rcases hK' with rfl | rfl | rfl | rfl | rfl | rfl | rfl | rfl | rfl | rfl | rfl | rfl
  · exact alone h hr hk hK "return ".toList "(x)".toList "".toList (by decide +kernel)
  · exact alone h hr hk hK "return ".toList "{}".toList "".toList (by decide +kernel)
  · exact alone h hr hk hK "return ".toList "function() end".toList "".toList (by decide +kernel)
  · exact alone h hr hk hK "return a".toList "[1]".toList "".toList (by decide +kernel)
  · exact alone h hr hk hK "f".toList "()".toList "".toList (by decide +kernel)
  · exact alone h hr hk hK "function f".toList "()".toList " end".toList (by decide +kernel)
  · exact alone h hr hk hK "".toList "do end".toList "".toList (by decide +kernel)
  · exact alone h hr hk hK "".toList "while x do end".toList "".toList (by decide +kernel)
  · exact alone h hr hk hK "".toList "if x then end".toList "".toList (by decide +kernel)
  · exact alone h hr hk hK "".toList "for i=1,2 do end".toList "".toList (by decide +kernel)
  · exact alone h hr hk hK "".toList "function f() end".toList "".toList (by decide +kernel)
  · exact alone h hr hk hK "".toList "local function f() end".toList "".toList (by decide +kernel)

/-- `return ` and twice the parentheses around an expression -/
private def doubled (x : Green) : Green :=
  .node .sourceFile [.node .block [.node .returnStmt [.token .returnKw "return".toList, .token .whitespace [' '],
    .node .multivalExpr [.node .parenExpr [.token .lParen ['('], x, .token .rParen [')']]]]]]

private theorem doubled_nodes (x : Green) (hx : x.isNode = true) :
    Below (Red.root (doubled x)) ⟨[0, 0, 2, 0], 7, .node .parenExpr [.token .lParen ['('], x, .token .rParen [')']]⟩ ∧
    Below (Red.root (doubled x)) ⟨[0, 0, 2, 0, 1], 8, x⟩ := by
  cases x with
  | token => simp [Green.isNode] at hx
  | node k cs =>
    have h1 := Below.child (.self (root := Red.root (doubled (.node k cs)))) (List.mem_singleton.2 rfl)
    have h2 := Below.child h1 (List.mem_singleton.2 rfl)
    have h3 := Below.child h2 (List.mem_singleton.2 rfl)
    have h4 := Below.child h3 (List.mem_singleton.2 rfl)
    have h5 := Below.child h4 (List.mem_singleton.2 rfl)
    exact ⟨h4, h5⟩

/-- **C125** Parentheses may be doubled: where a file without errors has `(e)`, it may have `((e))`. -/
theorem C125_double (A O B : Text) (tree : Green) (r : Red) (h : sourceFileParse (A ++ O ++ B) = .ok (tree, []))
    (hr : Below (Red.root tree) r) (hk : r.kind = .parenExpr) (hrange : r.range = ⟨A.len, A.len + O.len⟩) :
    sourceFileParse (A ++ ('(' :: r.green.text ++ [')']) ++ B) =
      .ok (Green.replaceAt (.node .parenExpr [.token .lParen ['('], r.green, .token .rParen [')']]) r.path tree, []) := by
  have hx : sourceFileParse "return ((x))".toList = .ok (doubled (.node .parenExpr [.token .lParen ['('],
      .node .nameRef [.token .ident ['x']], .token .rParen [')']]), []) := by
    rw [sourceFileParse_eq_eval]; decide +kernel
  have hn : r.green.isNode = true := by
    cases hr with
    | self =>
      exfalso
      obtain ⟨p, -⟩ := (C78_accepted _ tree).1 h
      obtain ⟨_, _, -, -, -, -, e⟩ := parseText_main (A ++ O ++ B)
      rw [p] at e
      simp only [Except.ok.injEq, Prod.mk.injEq] at e
      rw [e.1] at hk
      exact absurd (show SyntaxKind.sourceFile = .parenExpr from hk) (by decide)
    | child _ hc => exact child_node hc
  have h2 := C124_paste _ _ "return (".toList "(x)".toList ")".toList _ tree
    ⟨[0, 0, 2, 0, 1], 8, .node .parenExpr [.token .lParen ['('], .node .nameRef [.token .ident ['x']], .token .rParen [')']]⟩ r hx h
    (doubled_nodes _ rfl).2 hr hk.symm (by rw [hk]; decide) (by decide) (by decide)
  have e : Green.replaceAt r.green [0, 0, 2, 0, 1] (doubled (.node .parenExpr [.token .lParen ['('],
      .node .nameRef [.token .ident ['x']], .token .rParen [')']])) = doubled r.green := rfl
  simp only [e] at h2
  have h3 := C124_paste _ _ A O B tree (doubled r.green) r
    ⟨[0, 0, 2, 0], 7, .node .parenExpr [.token .lParen ['('], r.green, .token .rParen [')']]⟩ h h2 hr
    (doubled_nodes _ hn).1
    hk (by show SyntaxKind.parenExpr ∈ selfClosing; decide) rfl hrange
  · rw [← h3]
    simp [Green.text, Green.textL]

/-- **C125** and halved: `(e)` for `((e))`. -/
theorem C125_halve (text A O B : Text) (tree : Green) (outer inside : Red) (h : sourceFileParse text = .ok (tree, []))
    (hr : Below (Red.root tree) outer) (hi : inside ∈ outer.children) (hk : outer.kind = .parenExpr) (hk2 : inside.kind = .parenExpr)
    (ht : text = A ++ O ++ B) (hrange : outer.range = ⟨A.len, A.len + O.len⟩) :
    sourceFileParse (A ++ inside.green.text ++ B) = .ok (Green.replaceAt inside.green outer.path tree, []) :=
  C124_paste _ _ A O B tree tree outer inside h h hr (.child hr hi) (by rw [hk, hk2]) (by rw [hk2]; decide) ht hrange

/-- The loop of a file, on its own; a table of it, doubled parentheses and halved ones. -/
theorem C125_example :
    (∃ tree r tree' r', sourceFileParse "if x then while y do g() end end".toList = .ok (tree, []) ∧ Below (Red.root tree) r ∧
      r.kind = .whileStmt ∧ r.range = ⟨10, 28⟩ ∧ sourceFileParse r.green.text = .ok (tree', []) ∧ Below (Red.root tree') r' ∧
      r'.green = r.green ∧ r'.range = ⟨0, r.green.text.len⟩) ∧
    (∃ tree r, sourceFileParse "x=(y)".toList = .ok (tree, []) ∧ Below (Red.root tree) r ∧ r.kind = .parenExpr ∧
      r.range = ⟨2, 5⟩ ∧ ∃ tree', sourceFileParse ("x=(".toList ++ r.green.text ++ ")".toList) = .ok (tree', [])) := by
  refine ⟨?_, ?_⟩
  · obtain ⟨tree, r, h, b, k, g⟩ := node_of (text := "if x then while y do g() end end".toList) (K := .whileStmt) (pos := 10)
      (n := 18) (by decide +kernel)
    obtain ⟨tree', r', h', b', e', g'⟩ := C125_alone _ tree r h b (by rw [k]; decide)
    rw [k] at h' g'
    refine ⟨tree, r, tree', r', h, b, k, g, ?_, b', e', ?_⟩
    · simpa [around] using h'
    · simpa [around, Text.len] using g'
  · obtain ⟨tree, r, h, b, k, g⟩ := node_of (text := "x=(y)".toList) (K := .parenExpr) (pos := 2) (n := 3) (by decide +kernel)
    have h2 := C125_double "x=".toList "(y)".toList [] tree r h b k (by rw [g]; decide)
    exact ⟨tree, r, h, b, k, g, _, by simpa using h2⟩

end Verif
