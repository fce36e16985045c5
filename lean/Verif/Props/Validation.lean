import Verif.Proof.ValidationProof
import Verif.Props.ParseText
import Verif.Proof.Decide

/-
C07, C08, C57, C58, C59: `SourceFile::parse`, i.e. `parse_text` followed by validation.
-/
namespace Verif
open Lexer Validation

theorem validate_eq (root : Green) (f : Nat × Green → List SyntaxError)
    (h : ∀ p ∈ root.nodes 0, validateNode p.1 p.2 = .ok (f p)) :
    validate root = .ok ((root.nodes 0).flatMap f) := by
  unfold validate
  have key : ∀ (l : List (Nat × Green)) (acc : List SyntaxError), (∀ p ∈ l, validateNode p.1 p.2 = .ok (f p)) →
      l.foldlM (init := acc) (fun acc (p : Nat × Green) => (validateNode p.1 p.2).map (acc ++ ·)) =
        (.ok (acc ++ l.flatMap f) : Except Fail _) := by
    intro l
    induction l with
    | nil => intro acc _; simp; rfl
    | cons p ps ih =>
      intro acc h
      rw [List.foldlM_cons, h p (by simp)]
      show List.foldlM _ (acc ++ f p) ps = _
      rw [ih _ (fun q hq => h q (by simp [hq]))]
      simp
  simpa using key (root.nodes 0) [] h

/-- On every literal node the parser builds, validation returns normally. -/
theorem validateNode_total {text : Text} {ls : List Lexeme} {tree : Green} (hl : Lexemes text ls) (ht : LitOk tree)
    (hlv : tree.leaves = ls.map lxOf) : ∀ p ∈ tree.nodes 0, ∃ es, validateNode p.1 p.2 = .ok es := by
  rintro ⟨o, g⟩ hp
  unfold validateNode
  by_cases h1 : g.kind = .exprStmt
  · rw [if_pos h1]; exact ⟨_, rfl⟩
  rw [if_neg h1]
  by_cases h2 : g.kind = .literal
  · rw [if_pos h2]
    obtain ⟨l, rfl, h3, h4⟩ := litOk_nodes ht hp h2
    have hnt : l.1.isTrivia = false := by
      have : ∀ k ∈ Lua.literalKinds, k.isTrivia = false := by decide
      exact this _ h3
    simp only [literal, Green.children, Green.withOffsets, leaf, List.find?, Green.kind, hnt, Bool.not_false]
    unfold literalToken
    by_cases hs : l.1 = .str
    · rw [if_pos hs]
      rw [hlv, List.mem_map] at h4
      obtain ⟨lx, h5, rfl⟩ := h4
      obtain ⟨c, w, h6, h7⟩ := Lexemes.str_head hl lx h5 hs
      simp only [lxOf] at *
      rw [h6]
      rcases unquote_spec c w h7 with h8 | ⟨off, front, t, back, h8, -, -⟩
      · rw [h8]; exact ⟨_, rfl⟩
      · rw [h8]; exact ⟨_, rfl⟩
    · rw [if_neg hs]
      have : ∀ k ∈ Lua.literalKinds, k ≠ .str → (k = .number ∨ k = .trueKw ∨ k = .falseKw ∨ k = .nilKw ∨ k = .tripleDot) := by
        decide
      rw [if_pos (this _ h3 hs)]; exact ⟨_, rfl⟩
  rw [if_neg h2]
  split <;> exact ⟨_, rfl⟩

/-- The outcome of `SourceFile::parse`: the errors of `parse_text`, then those of validation, which are
those of the nodes in document order. -/
theorem sourceFileParse_eq (text : Text) : ∃ tree errors more,
    parseText text = .ok (tree, errors) ∧ sourceFileParse text = .ok (tree, errors ++ more) ∧
    (∀ e ∈ more, ∃ p ∈ tree.nodes 0, ∃ es, validateNode p.1 p.2 = .ok es ∧ e ∈ es) ∧
    (∀ p ∈ tree.nodes 0, ∀ es, validateNode p.1 p.2 = .ok es → ∀ e ∈ es, e ∈ more) := by
  obtain ⟨ls, tree, errors, h1, h2, h3, -, h4, -, h6, -⟩ := parseText_tree text
  have htot := validateNode_total h1 h3 h4
  have hv := validate_eq tree (fun p => match validateNode p.1 p.2 with | .ok es => es | .error _ => [])
    (by intro p hp; obtain ⟨es, he⟩ := htot p hp; rw [he])
  refine ⟨tree, errors, ((tree.nodes 0).flatMap fun p => match validateNode p.1 p.2 with | .ok es => es | .error _ => []),
    h2, ?_, ?_, ?_⟩
  · unfold sourceFileParse
    rw [h2]
    simp only [hv, h6, if_true]
  · intro e he
    obtain ⟨p, hp, he⟩ := List.mem_flatMap.mp he
    obtain ⟨es, h⟩ := htot p hp
    rw [h] at he
    exact ⟨p, hp, es, h, he⟩
  · intro p hp es hes e he
    refine List.mem_flatMap.mpr ⟨p, hp, ?_⟩
    rw [hes]; exact he

/-! ### C08 -/

/-- **C08** (and C01, C02, C03 for the whole of `SourceFile::parse`): on every text it returns normally; the
tree is that of `parse_text`, so its text is the input. -/
theorem C08_source_file_parse_total (text : Text) : ∃ tree errors,
    sourceFileParse text = .ok (tree, errors) ∧ tree.text = text ∧ tree.kind = .sourceFile := by
  obtain ⟨ls, tree, errors, h1, h2, h3, -, h4, h5, h6, -⟩ := parseText_tree text
  obtain ⟨tree', errors', more, h7, h8, -⟩ := sourceFileParse_eq text
  rw [h2] at h7
  simp only [Except.ok.injEq, Prod.mk.injEq] at h7
  obtain ⟨rfl, rfl⟩ := h7
  exact ⟨_, _, h8, h5, h6⟩

/-- The leaves of the tree are exactly the tokens of the lexer, in order, with their texts. -/
theorem C01_leaves_are_tokens (text : Text) (tree : Green) (errors : List SyntaxError) (tokens : List Token)
    (lexErrors : List SyntaxError) (h : sourceFileParse text = .ok (tree, errors))
    (ht : tokenize text = .ok (tokens, lexErrors)) :
    tree.leaves.map (fun l => (⟨l.1, Text.len l.2⟩ : Token)) = tokens ∧
    (tree.leaves.map (·.2)).flatten = text := by
  obtain ⟨ls, tree', errors', h1, h2, -, -, h4, -, -, -⟩ := parseText_tree text
  obtain ⟨tree'', _, more, h7, h8, -⟩ := sourceFileParse_eq text
  rw [h2] at h7
  rw [h] at h8
  rw [tokenize_eq h1] at ht
  simp only [Except.ok.injEq, Prod.mk.injEq] at h7 h8 ht
  obtain ⟨rfl, rfl⟩ := h7
  obtain ⟨rfl, -⟩ := h8
  obtain ⟨hw, htk, -⟩ := lexemes_lx h1
  rw [h4]
  refine ⟨?_, hw⟩
  rw [← ht.1, ← htk]; rfl

/-! ### C07 -/

/-- `e` is reported inside the string token `w` at offset `o`: on a backslash followed by a character that
is not a known escape, or on a last
backslash, with only closing delimiters after it. -/
def EscapeErrorIn (o : Nat) (w : Text) (e : SyntaxError) : Prop :=
  e.msg = "Invalid escape sequence" ∧ ∃ p u q, w = p ++ u ++ q ∧
    e.range = ⟨o + Text.len p, o + Text.len p + Text.len u⟩ ∧
    ((u = ['\\'] ∧ ∀ c ∈ q, c ∈ ['\'', '"', ']', '=']) ∨
      ∃ d, d ∉ ['a', 'b', 'f', 'n', 'r', 't', 'v', '\\', '"', '\'', '[', ']'] ∧ u = ['\\', d])

theorem unescape_msg (size start : Nat) (s : Text) : ∀ e ∈ unescape size start s, e.msg = escapeMsg := by
  fun_induction unescape size start s with
  | case1 => simp
  | case2 => simp
  | case3 _ d ds ih =>
    intro e he
    simp only [List.mem_append] at he
    rcases he with he | he
    · split at he <;> simp at he
      rw [he]
    · exact ih e he
  | case4 _ _ _ ih => exact ih

/-- The errors of one node are ranges of the text, and those of a literal are inside its token unless its
long bracket is malformed. -/
theorem validateNode_ranges {text : Text} {ls : List Lexeme} {tree : Green} (hl : Lexemes text ls) (ht : LitOk tree)
    (hlv : tree.leaves = ls.map lxOf) (htx : tree.text = text) : ∀ p ∈ tree.nodes 0, ∀ es,
    validateNode p.1 p.2 = .ok es → ∀ e ∈ es, p.2.kind ≠ .literal ∧ RangeOf text e.range ∨
      ∃ w, (.str, w) ∈ tree.leaves ∧ (Green.token .str w).At text p.1 ∧ (EscapeErrorIn p.1 w e ∨ MalformedOpen w) := by
  rintro ⟨o, g⟩ hp es hes e he
  have hat : g.At text o := by have := at_nodes hp; rwa [htx] at this
  unfold validateNode at hes
  have hex : ∀ moff m, (moff, m) ∈ multivals o g → m.At text moff := by
    intro moff m hm
    exact (at_childNodes hat (List.mem_filter.mp hm).1).1
  have hexpr : ∀ moff m, m.At text moff → ∀ c ∈ exprs moff m, c.2.At text c.1 := by
    rintro moff m hm ⟨a, c⟩ hc
    exact (at_childNodes hm (List.mem_filter.mp hc).1).1
  by_cases h1 : g.kind = .exprStmt
  · rw [if_pos h1] at hes
    injection hes with hes
    subst hes
    refine Or.inl ⟨by rw [h1]; decide, ?_⟩
    unfold exprStmt at he
    split at he
    · simp at he; subst he; exact hat.rangeOf
    · rename_i moff m _ hm
      have h2 := hexpr moff m (hex moff m (by rw [hm]; simp))
      simp only [List.mem_append, List.mem_map] at he
      rcases he with (⟨c, hc, rfl⟩ | he) | he
      · exact (h2 c (List.mem_filter.mp hc).1).rangeOf
      · split at he <;> simp at he
        subst he; exact hat.rangeOf
      · split at he <;> simp at he
        subst he; exact hat.rangeOf
  rw [if_neg h1] at hes
  by_cases h2 : g.kind = .literal
  · rw [if_pos h2] at hes
    obtain ⟨l, rfl, h3, h4⟩ := litOk_nodes ht hp h2
    have hnt : l.1.isTrivia = false := by
      have : ∀ k ∈ Lua.literalKinds, k.isTrivia = false := by decide
      exact this _ h3
    simp only [literal, Green.children, Green.withOffsets, leaf, List.find?, Green.kind, hnt, Bool.not_false] at hes
    unfold literalToken at hes
    by_cases hs : l.1 = .str
    · rw [if_pos hs] at hes
      right
      have h4' := h4
      rw [hlv, List.mem_map] at h4
      obtain ⟨lx, h5, rfl⟩ := h4
      obtain ⟨c, w, h6, h7⟩ := Lexemes.str_head hl lx h5 hs
      simp only [lxOf] at *
      refine ⟨lx.word, by rw [← hs]; exact h4', ?_, ?_⟩
      · obtain ⟨a, b, h8, h9⟩ := hat
        exact ⟨a, b, by simpa [Green.text, Green.textL, leaf] using h8, h9⟩
      · rw [h6] at hes ⊢
        rcases unquote_spec c w h7 with h8 | ⟨off, front, t, back, h8, h9, h10, -, hb⟩
        · rw [h8] at hes
          injection hes with hes
          subst hes; simp at he
        · rw [h8] at hes
          injection hes with hes
          subst hes
          rcases h10 with h10 | h10
          · left
            refine ⟨unescape_msg _ _ _ e he, ?_⟩
            have := unescape_spec (o + off) [] t e (by simpa using he)
            obtain ⟨p, u, q, h11, h12, h13⟩ := this
            simp only [List.nil_append] at h11
            refine ⟨front ++ p, u, q ++ back, by rw [h9, h11]; simp, ?_, ?_⟩
            · rw [h12, h10]; simp [Nat.add_assoc]
            · rcases h13 with ⟨h13, rfl⟩ | ⟨d, h13, h14⟩
              · left; exact ⟨h13, by simpa using hb⟩
              · right; exact ⟨d, h13, h14⟩
          · right; exact h10.1
    · rw [if_neg hs] at hes
      split at hes
      · injection hes with hes; subst hes; simp at he
      · simp at hes
  rw [if_neg h2] at hes
  by_cases h3 : g.kind = .assignStmt
  · rw [if_pos h3] at hes
    injection hes with hes
    subst hes
    refine Or.inl ⟨h2, ?_⟩
    unfold assignStmt at he
    split at he
    · simp at he; subst he; exact hat.rangeOf
    · simp at he; subst he; exact hat.rangeOf
    · rename_i loff l _ _ hm
      have h2 := hexpr loff l (hex loff l (by rw [hm]; simp))
      simp only [List.mem_map] at he
      obtain ⟨c, hc, rfl⟩ := he
      exact (h2 c (List.mem_filter.mp hc).1).rangeOf
  · rw [if_neg h3] at hes
    injection hes with hes; subst hes; simp at he

theorem EscapeErrorIn.rangeOf {text w : Text} {o : Nat} {e : SyntaxError} (h : EscapeErrorIn o w e)
    (hw : (Green.token .str w).At text o) : RangeOf text e.range := by
  obtain ⟨-, p, u, q, h1, h2, -⟩ := h
  obtain ⟨a, b, h3, h4⟩ := hw
  simp only [Green.text] at h3
  subst h1 h3 h4
  rw [h2]
  refine ⟨by simp, by simp; omega, ⟨a ++ p, u ++ q ++ b, by simp, by simp⟩,
    ⟨a ++ p ++ u, q ++ b, by simp, by simp [Nat.add_assoc]⟩⟩

/-- **C07**, for files in which every long bracket that is opened with `[=` is completed by a second `[`:
every error of `SourceFile::parse` is a range of the text; and the errors about escapes lie inside the
string token, on a backslash that starts no known escape. -/
theorem C07_error_ranges_partial (text : Text) (tree : Green) (errors : List SyntaxError)
    (h : sourceFileParse text = .ok (tree, errors)) (hw : ∀ w, (.str, w) ∈ tree.leaves → ¬ MalformedOpen w) :
    (∀ e ∈ errors, RangeOf text e.range) ∧
    ∃ parseErrors more, parseText text = .ok (tree, parseErrors) ∧ errors = parseErrors ++ more ∧
      ∀ e ∈ more, (∃ p ∈ tree.nodes 0, p.2.kind ≠ .literal ∧ ∃ es, validateNode p.1 p.2 = .ok es ∧ e ∈ es) ∨
        ∃ o w, (.str, w) ∈ tree.leaves ∧ (Green.token .str w).At text o ∧ EscapeErrorIn o w e := by
  obtain ⟨ls, tree', errors', h1, h2, h3, -, h4, h5, h6, -⟩ := parseText_tree text
  obtain ⟨tree'', errors'', more, h7, h8, h9, -⟩ := sourceFileParse_eq text
  have h2' := h2
  rw [h2] at h7
  rw [h] at h8
  simp only [Except.ok.injEq, Prod.mk.injEq] at h7 h8
  obtain ⟨rfl, rfl⟩ := h7
  obtain ⟨rfl, rfl⟩ := h8
  constructor
  · intro e he
    rw [List.mem_append] at he
    rcases he with he | he
    · exact C06_error_ranges text _ _ h2 e he
    · obtain ⟨p, hp, es, hes, he⟩ := h9 e he
      rcases validateNode_ranges h1 h3 h4 h5 p hp es hes e he with ⟨-, hr⟩ | ⟨w, hm, hat, hr | hr⟩
      · exact hr
      · exact hr.rangeOf hat
      · exact absurd hr (hw w hm)
  · refine ⟨errors', more, h2, rfl, ?_⟩
    intro e he
    obtain ⟨p, hp, es, hes, he⟩ := h9 e he
    rcases validateNode_ranges h1 h3 h4 h5 p hp es hes e he with ⟨hk, -⟩ | ⟨w, hm, hat, hr | hr⟩
    · exact Or.inl ⟨p, hp, hk, es, hes, he⟩
    · exact Or.inr ⟨p.1, w, hm, hat, hr⟩
    · exact absurd hr (hw w hm)

/-- `SourceFile::parse` with the parser in evaluable form. -/
def sourceFileParseEval (text : Text) : Except Fail (Green × List SyntaxError) :=
  match parseTextEval text with
  | .error e => .error e
  | .ok (green, errors) =>
    match validate green with
    | .error e => .error e
    | .ok more => if green.kind = .sourceFile then .ok (green, errors ++ more) else .error .panic

theorem sourceFileParse_eq_eval (text : Text) : sourceFileParse text = sourceFileParseEval text := by
  unfold sourceFileParse sourceFileParseEval; rw [parseText_eq_eval]
  rcases parseTextEval text with _ | ⟨_, _⟩ <;> rfl

/-- the tree of `x=<literal>` -/
def assignTree (k : SyntaxKind) (w : Text) : Green :=
  .node .sourceFile [.node .block [.node .assignStmt [
    .node .multivalExpr [.node .nameRef [.token .ident ['x']]],
    .token .eq ['='],
    .node .multivalExpr [.node .literal [.token k w]]]]]

/-- The hypotheses of C07 are met by `x='a\qb'`, which has an escape error in the middle. -/
example : ∃ tree, sourceFileParse "x='a\\qb'".toList = .ok (tree, [⟨"Invalid escape sequence", ⟨4, 6⟩⟩]) ∧
    ∀ w, (.str, w) ∈ tree.leaves → ¬ MalformedOpen w := by
  refine ⟨assignTree .str "'a\\qb'".toList, ?_, ?_⟩
  · rw [sourceFileParse_eq_eval]; decide +kernel
  · rintro w hw ⟨n, r, rfl, -⟩
    simp [assignTree, Green.leaves, Green.leavesL] at hw

/-- **C07 fails** in general: for `x=[=\` (an unfinished long bracket) an escape error is reported at
5..6, outside of the token and beyond the end of the text, which is 5 bytes long. -/
theorem C07_error_ranges_fails : ∃ text tree errors, sourceFileParse text = .ok (tree, errors) ∧
    ∃ e ∈ errors, ¬ RangeOf text e.range := by
  refine ⟨"x=[=\\".toList, assignTree .str "[=\\".toList,
    [⟨"Could not find bracket string close", ⟨2, 5⟩⟩, ⟨"Invalid escape sequence", ⟨5, 6⟩⟩], ?_,
    ⟨"Invalid escape sequence", ⟨5, 6⟩⟩, by simp, ?_⟩
  · rw [sourceFileParse_eq_eval]; decide +kernel
  · rintro ⟨-, h, -⟩
    exact absurd h (by decide)

/-! ### C57 -/

/-- A piece of the contents of a quoted string: a character, or a backslash with the character after it. -/
inductive Piece where
  | plain (c : Char)
  | esc (c : Char)

def Piece.text : Piece → Text
  | .plain c => [c]
  | .esc c => ['\\', c]

/-- Plain pieces are not backslashes. -/
def Piece.ok : Piece → Prop
  | .plain c => c ≠ '\\'
  | .esc _ => True

/-- The escapes with one letter or symbol (Lua 5.1 manual 2.1), and the brackets. -/
def simpleEscapes : List Char := ['a', 'b', 'f', 'n', 'r', 't', 'v', '\\', '"', '\'', '[', ']']

/-- Where the unknown escapes are, the first piece being at `pos`. -/
def unknownEscapes : Nat → List Piece → List Range
  | _, [] => []
  | pos, p :: ps =>
    (match p with
      | .plain _ => []
      | .esc c => if c ∈ simpleEscapes then [] else [⟨pos, pos + Text.len p.text⟩]) ++
    unknownEscapes (pos + Text.len p.text) ps

theorem unescape_pieces (start : Nat) (pre : Text) (ps : List Piece) (hp : ∀ p ∈ ps, p.ok) :
    unescape (Text.len pre + Text.len (ps.map Piece.text).flatten) start (ps.map Piece.text).flatten =
      (unknownEscapes (start + Text.len pre) ps).map fun r => ⟨"Invalid escape sequence", r⟩ := by
  have hs : '\\'.utf8Size = 1 := rfl
  induction ps generalizing pre with
  | nil => simp [unescape, unknownEscapes]
  | cons p ps ih =>
    have hp' := hp p (by simp)
    cases p with
    | plain c =>
      simp only [Piece.ok] at hp'
      have := ih (pre ++ [c]) (fun q hq => hp q (by simp [hq]))
      simp only [Text.len_append, Text.len_cons, Text.len_nil, Nat.add_zero] at this
      simp only [List.map_cons, Piece.text, List.flatten_cons, List.cons_append, List.nil_append,
        Text.len_cons, unknownEscapes, Text.len_nil, Nat.add_zero]
      have e : ∀ size, unescape size start (c :: (ps.map Piece.text).flatten) = unescape size start (ps.map Piece.text).flatten := by
        intro size
        conv => lhs; unfold unescape
        simp [hp']
      rw [← Nat.add_assoc, e, this]
      simp [Nat.add_assoc]
    | esc c =>
      have := ih (pre ++ ['\\', c]) (fun q hq => hp q (by simp [hq]))
      simp only [Text.len_append, Text.len_cons, Text.len_nil, Nat.add_zero, hs] at this
      simp only [List.map_cons, Piece.text, List.flatten_cons, List.cons_append, List.nil_append, unescape, if_true,
        Text.len_cons, unknownEscapes, Text.len_nil, Nat.add_zero, hs]
      have e1 : Text.len pre + (1 + (c.utf8Size + Text.len (ps.map Piece.text).flatten)) =
          Text.len pre + (1 + c.utf8Size) + Text.len (ps.map Piece.text).flatten := by omega
      have e2 : Text.len pre + (1 + c.utf8Size) + Text.len (ps.map Piece.text).flatten -
          (c.utf8Size + Text.len (ps.map Piece.text).flatten) - 1 = Text.len pre := by omega
      rw [e1, this]
      simp only [List.map_append, e2]
      congr 1
      · have hc : escapes.contains c = true ↔ c ∈ simpleEscapes := List.contains_iff_mem
        by_cases h : c ∈ simpleEscapes
        · rw [if_pos (hc.mpr h), if_pos h]; rfl
        · rw [if_neg (fun h' => h (hc.mp h')), if_neg h]
          simp [Range.ofLen, Range.shift, escapeMsg]; omega
      · simp [Nat.add_assoc]

/-- **C57**, for the literals validation looks at and the escapes it knows: the errors for a terminated
quoted string literal are exactly its unknown escapes, in order. -/
theorem C57_quoted_escapes_partial (off : Nat) (q : Char) (hq : q = '\'' ∨ q = '"') (ps : List Piece)
    (hp : ∀ p ∈ ps, p.ok) :
    validateNode off (.node .literal [.token .str (q :: ((ps.map Piece.text).flatten ++ [q]))]) =
      .ok ((unknownEscapes (off + 1) ps).map fun r => ⟨"Invalid escape sequence", r⟩) := by
  have hs : q.utf8Size = 1 := utf8Size_ascii q (by rcases hq with rfl | rfl <;> decide)
  have h1 : unquote (q :: ((ps.map Piece.text).flatten ++ [q])) = .ok (some (1, (ps.map Piece.text).flatten)) := by
    unfold unquote
    simp only [hq, if_true]
    have e : (q :: ((ps.map Piece.text).flatten ++ [q])).getLast? = some q := by
      rw [← List.cons_append]; exact getLast_snoc _ _
    have e1 : ¬ Text.len (q :: ((ps.map Piece.text).flatten ++ [q])) = 1 := by simp [hs]
    rw [if_neg (by simp only [e]; simpa using e1)]
    have := Text.slice_append [q] (ps.map Piece.text).flatten [q]
    simp only [Text.len_cons, Text.len_nil, hs, Nat.add_zero, List.cons_append, List.nil_append] at this
    have e2 : Text.len (q :: ((ps.map Piece.text).flatten ++ [q])) - 1 = 1 + Text.len (ps.map Piece.text).flatten := by
      simp [hs]; omega
    rw [e2, this]
  have h2 := unescape_pieces (off + 1) [] ps hp
  simp only [Text.len_nil, Nat.zero_add, Nat.add_zero] at h2
  show literalToken off .str (q :: ((ps.map Piece.text).flatten ++ [q])) = _
  simp only [literalToken, if_true, h1, h2]

/-- `"\n\q"`: one unknown escape. -/
example : validateNode 10 (.node .literal [.token .str "\"\\n\\q\"".toList]) =
    .ok [⟨"Invalid escape sequence", ⟨13, 15⟩⟩] :=
  C57_quoted_escapes_partial 10 '"' (Or.inr rfl) [.esc 'n', .esc 'q'] (by simp [Piece.ok])

/-- **C57 fails**: the decimal escape of `x="\65"`, which is Lua, is reported. -/
theorem C57_decimal_escape_fails : ∃ tree, sourceFileParse "x=\"\\65\"".toList =
    .ok (tree, [⟨"Invalid escape sequence", ⟨3, 5⟩⟩]) :=
  ⟨assignTree .str "\"\\65\"".toList, by rw [sourceFileParse_eq_eval]; decide +kernel⟩

/-- **C57 fails**: the invalid escape of `f"\q"` is not reported (the argument is not a literal node). -/
theorem C57_call_string_fails : ∃ tree, sourceFileParse "f\"\\q\"".toList = .ok (tree, []) :=
  ⟨.node .sourceFile [.node .block [.node .exprStmt [.node .multivalExpr [.node .callExpr
      [.node .nameRef [.token .ident ['f']], .node .callArgs [.token .str "\"\\q\"".toList]]]]]],
    by rw [sourceFileParse_eq_eval]; decide +kernel⟩

/-- **C57 fails**: `[[\q]]` has no escapes, being a long string, but an error is reported. -/
theorem C57_long_string_fails : validateNode 0 (.node .literal [.token .str "[[\\q]]".toList]) =
    .ok [⟨"Invalid escape sequence", ⟨2, 4⟩⟩] := by rfl

/-! ### C58, C59 -/

/-- The child nodes of a node. -/
def childrenOf (g : Green) : List Green := g.children.filter (·.isNode)

theorem childNodes_snd (off : Nat) (g : Green) : (g.childNodes off).map (·.2) = childrenOf g := by
  simp only [Green.childNodes, childrenOf]
  have : ∀ (cs : List Green) (off : Nat), ((Green.withOffsets off cs).filter (·.2.isNode)).map (·.2) = cs.filter (·.isNode) := by
    intro cs
    induction cs with
    | nil => intro off; rfl
    | cons c cs ih =>
      intro off
      simp only [Green.withOffsets, List.filter_cons]
      split <;> simp [ih]
  exact this _ _

theorem nodeKinds_childrenOf (g : Green) : nodeKinds g.children = (childrenOf g).map (·.kind) := rfl

theorem stmt_facts {text : Text} {tree : Green} (h : sourceFileParse text = .ok (tree, [])) {o : Nat} {g : Green}
    (hg : (o, g) ∈ tree.nodes 0) : StmtOk g ∧ validateNode o g = .ok [] ∧ StmtOk tree := by
  obtain ⟨ls, tree', errors', h1, h2, h3, h3', h4, h5, h6, -⟩ := parseText_tree text
  obtain ⟨tree'', errors'', more, h7, h8, h9, h10⟩ := sourceFileParse_eq text
  rw [h2] at h7
  rw [h] at h8
  simp only [Except.ok.injEq, Prod.mk.injEq] at h7 h8
  obtain ⟨rfl, rfl⟩ := h7
  obtain ⟨rfl, h8⟩ := h8
  have h8 := h8.symm
  simp only [List.append_eq_nil_iff] at h8
  obtain ⟨rfl, rfl⟩ := h8
  have hs := h3' rfl
  refine ⟨stmtOk_nodes hs hg, ?_, hs⟩
  obtain ⟨es, hes⟩ := validateNode_total h1 h3 h4 (o, g) hg
  cases es with
  | nil => exact hes
  | cons e es => exact absurd (h10 (o, g) hg _ hes e (by simp)) (by simp)

theorem stmtOk_child {k : SyntaxKind} {cs : List Green} (h : StmtOk (.node k cs)) : ∀ c ∈ cs, StmtOk c := by
  simp only [StmtOk] at h
  have : ∀ cs : List Green, StmtOkL cs → ∀ c ∈ cs, StmtOk c := by
    intro cs
    induction cs with
    | nil => simp
    | cons x xs ih =>
      intro h c hc
      simp only [StmtOkL] at h
      simp at hc
      rcases hc with rfl | hc
      · exact h.1
      · exact ih h.2 c hc
  exact this cs h.2.2.2

theorem stmtOk_childrenOf {g : Green} (h : StmtOk g) : ∀ c ∈ childrenOf g, StmtOk c := by
  intro c hc
  have hc := (List.mem_filter.mp hc).1
  cases g with
  | token k t => simp [Green.children] at hc
  | node k cs => exact stmtOk_child h c hc

theorem multival_kinds {m : Green} (h : StmtOk m) (hk : m.kind = .multivalExpr) :
    ∀ c ∈ childrenOf m, c.kind ∈ exprNodeKinds := by
  intro c hc
  cases m with
  | token k t => simp [childrenOf, Green.children] at hc
  | node k cs =>
    simp only [StmtOk] at h
    exact h.1 hk c.kind (List.mem_map_of_mem hc)

mutual
theorem token_not_node (o : Nat) (k : SyntaxKind) (t : Text) (off : Nat) (r : Green) :
    (o, Green.token k t) ∉ Green.nodes off r := by
  cases r with
  | token k t => simp [Green.nodes]
  | node k' cs =>
    simp only [Green.nodes, List.mem_cons, Prod.mk.injEq, not_or]
    exact ⟨by simp, token_not_nodeL o k t off cs⟩
theorem token_not_nodeL (o : Nat) (k : SyntaxKind) (t : Text) (off : Nat) (cs : List Green) :
    (o, Green.token k t) ∉ Green.nodesL off cs := by
  cases cs with
  | nil => simp [Green.nodesL]
  | cons c cs =>
    simp only [Green.nodesL, List.mem_append, not_or]
    exact ⟨token_not_node o k t off c, token_not_nodeL o k t _ cs⟩
end

theorem exprs_snd (off : Nat) (g : Green) :
    (exprs off g).map (·.2) = (childrenOf g).filter (fun c => isExprKind c.kind) := by
  rw [← childNodes_snd off g, exprs, List.filter_map]
  rfl

theorem multivals_snd (off : Nat) (g : Green) :
    (multivals off g).map (·.2) = (childrenOf g).filter (fun c => c.kind == .multivalExpr) := by
  rw [← childNodes_snd off g, multivals, List.filter_map]
  rfl

theorem isExprKind_iff : ∀ k ∈ exprNodeKinds, isExprKind k = true ∨ k = .parenExpr := by decide

/-- **C58** up to parenthesised expressions: if `SourceFile::parse` reports no error, every expression
statement of the tree has one expression list, in which exactly one expression is a call and all others
(if any) are in parentheses. -/
theorem C58_expr_stmt_partial (text : Text) (tree : Green) (h : sourceFileParse text = .ok (tree, []))
    (o : Nat) (g : Green) (hg : (o, g) ∈ tree.nodes 0) (hk : g.kind = .exprStmt) :
    ∃ m, childrenOf g = [m] ∧ m.kind = .multivalExpr ∧
      (childrenOf m).countP (fun c => c.kind == .callExpr || c.kind == .methodCallExpr) = 1 ∧
      ∀ c ∈ childrenOf m, c.kind = .callExpr ∨ c.kind = .methodCallExpr ∨ c.kind = .parenExpr := by
  obtain ⟨h1, h2, -⟩ := stmt_facts h hg
  obtain ⟨m, h3, h4⟩ : ∃ m, childrenOf g = [m] ∧ m.kind = .multivalExpr := by
    have h3 : (childrenOf g).map (·.kind) = [.multivalExpr] := by
      cases g with
      | token k t => exact absurd hg (token_not_node _ _ _ _ _)
      | node k cs =>
        simp only [Green.kind] at hk
        subst hk
        simp only [StmtOk] at h1
        exact h1.2.1 trivial
    cases hc : childrenOf g with
    | nil => rw [hc] at h3; simp at h3
    | cons m ms => rw [hc] at h3; simp at h3; exact ⟨m, by rw [h3.2], h3.1⟩
  have hm : StmtOk m := stmtOk_childrenOf h1 m (by rw [h3]; simp)
  have hmk := multival_kinds hm h4
  have h5 := multivals_snd o g
  rw [h3] at h5
  simp only [List.filter_cons, h4, beq_self_eq_true, if_true, List.filter_nil] at h5
  obtain ⟨moff, h6⟩ : ∃ moff, multivals o g = [(moff, m)] := by
    cases hc : multivals o g with
    | nil => rw [hc] at h5; simp at h5
    | cons p ps => rw [hc] at h5; simp at h5; exact ⟨p.1, by rw [h5.2, ← h5.1]⟩
  have h7 : exprStmt o g = [] := by
    simpa [validateNode, hk] using h2
  unfold exprStmt at h7
  rw [h6] at h7
  simp only [List.append_eq_nil_iff, List.map_eq_nil_iff, List.filter_eq_nil_iff] at h7
  obtain ⟨⟨h8, h9⟩, h10⟩ := h7
  have hcount : ((exprs moff m).filter fun e => isCall e.2.kind).length = 1 := by
    split at h9
    · simp at h9
    · split at h10
      · simp at h10
      · omega
  have he := exprs_snd moff m
  refine ⟨m, h3, h4, ?_, ?_⟩
  · rw [← hcount, ← List.countP_eq_length_filter]
    have e1 : (exprs moff m).countP (fun e => isCall e.2.kind) = ((exprs moff m).map (·.2)).countP (fun e => isCall e.kind) := by
      rw [List.countP_map]; rfl
    rw [e1, he, List.countP_filter]
    apply List.countP_congr
    intro c hc
    have : ∀ k : SyntaxKind, (k == .callExpr || k == .methodCallExpr) = true ↔ (isCall k && isExprKind k) = true := by
      intro k; cases k <;> decide
    exact this c.kind
  · intro c hc
    rcases isExprKind_iff c.kind (hmk c hc) with h11 | h11
    · have h12 : c ∈ (exprs moff m).map (·.2) := by rw [he]; exact List.mem_filter.mpr ⟨hc, h11⟩
      obtain ⟨e, h13, rfl⟩ := List.mem_map.mp h12
      have := h8 e h13
      simp only [isCall, Bool.not_eq_true', Bool.not_eq_false, Bool.or_eq_true, beq_iff_eq] at this
      rcases this with h | h
      · exact Or.inl h
      · exact Or.inr (Or.inl h)
    · exact Or.inr (Or.inr h11)

/-- `f()` then `a:b "c"` in a file without errors. -/
example : ∃ tree, sourceFileParse "f() a:b 'c'".toList = .ok (tree, []) ∧
    ∃ o g, (o, g) ∈ tree.nodes 0 ∧ g.kind = .exprStmt := by
  let tree : Green := match sourceFileParseEval "f() a:b 'c'".toList with | .ok (t, _) => t | .error _ => .token .eof []
  refine ⟨tree, ?_, ?_⟩
  · rw [sourceFileParse_eq_eval]; decide +kernel
  · have : (tree.nodes 0).find? (fun p => p.2.kind == .exprStmt) ≠ none := by decide +kernel
    cases h : (tree.nodes 0).find? (fun p => p.2.kind == .exprStmt) with
    | none => exact absurd h this
    | some p => exact ⟨p.1, p.2, List.mem_of_find?_eq_some h, by simpa using List.find?_some h⟩

/-- **C58 fails** in general: `f(), (x)` is not a statement of Lua, but no error is reported. -/
theorem C58_expr_stmt_fails : ∃ tree, sourceFileParse "f(),(x)".toList = .ok (tree, []) ∧
    tree = .node .sourceFile [.node .block [.node .exprStmt [.node .multivalExpr [
      .node .callExpr [.node .nameRef [.token .ident ['f']],
        .node .callArgs [.node .argList [.token .lParen ['('], .token .rParen [')']]]],
      .token .comma [','],
      .node .parenExpr [.token .lParen ['('], .node .nameRef [.token .ident ['x']], .token .rParen [')']]]]]] := by
  refine ⟨_, ?_, rfl⟩
  rw [sourceFileParse_eq_eval]; decide +kernel

/-- **C59** up to parenthesised expressions: if `SourceFile::parse` reports no error, every assignment of the
tree has two expression lists, and everything on its left-hand side is a name, a field or an index
expression, or in parentheses. -/
theorem C59_assign_partial (text : Text) (tree : Green) (h : sourceFileParse text = .ok (tree, []))
    (o : Nat) (g : Green) (hg : (o, g) ∈ tree.nodes 0) (hk : g.kind = .assignStmt) :
    ∃ l r, childrenOf g = [l, r] ∧ l.kind = .multivalExpr ∧ r.kind = .multivalExpr ∧
      ∀ c ∈ childrenOf l, c.kind = .nameRef ∨ c.kind = .dotExpr ∨ c.kind = .indexExpr ∨ c.kind = .parenExpr := by
  obtain ⟨h1, h2, -⟩ := stmt_facts h hg
  obtain ⟨l, r, h3, h4, h4'⟩ : ∃ l r, childrenOf g = [l, r] ∧ l.kind = .multivalExpr ∧ r.kind = .multivalExpr := by
    have h3 : (childrenOf g).map (·.kind) = [.multivalExpr, .multivalExpr] := by
      cases g with
      | token k t => exact absurd hg (token_not_node _ _ _ _ _)
      | node k cs =>
        simp only [Green.kind] at hk
        subst hk
        simp only [StmtOk] at h1
        exact h1.2.2.1 trivial
    match hc : childrenOf g with
    | [] => rw [hc] at h3; simp at h3
    | [m] => rw [hc] at h3; simp at h3
    | l :: r :: ms => rw [hc] at h3; simp at h3; exact ⟨l, r, by rw [h3.2.2], h3.1, h3.2.1⟩
  have hm : StmtOk l := stmtOk_childrenOf h1 l (by rw [h3]; simp)
  have hmk := multival_kinds hm h4
  have h5 := multivals_snd o g
  rw [h3] at h5
  simp only [List.filter_cons, h4, h4', beq_self_eq_true, if_true, List.filter_nil] at h5
  obtain ⟨loff, roff, h6⟩ : ∃ loff roff, multivals o g = [(loff, l), (roff, r)] := by
    match hc : multivals o g with
    | [] => rw [hc] at h5; simp at h5
    | [p] => rw [hc] at h5; simp at h5
    | p :: q :: ps => rw [hc] at h5; simp at h5; exact ⟨p.1, q.1, by rw [h5.2.2, ← h5.1, ← h5.2.1]⟩
  have h7 : assignStmt o g = [] := by
    simpa [validateNode, hk] using h2
  unfold assignStmt at h7
  rw [h6] at h7
  simp only [List.map_eq_nil_iff, List.filter_eq_nil_iff] at h7
  have he := exprs_snd loff l
  refine ⟨l, r, h3, h4, h4', ?_⟩
  intro c hc
  rcases isExprKind_iff c.kind (hmk c hc) with h11 | h11
  · have h12 : c ∈ (exprs loff l).map (·.2) := by rw [he]; exact List.mem_filter.mpr ⟨hc, h11⟩
    obtain ⟨e, h13, rfl⟩ := List.mem_map.mp h12
    have := h7 e h13
    simp only [Bool.not_eq_true', Bool.not_eq_false, Bool.or_eq_true, beq_iff_eq] at this
    rcases this with (h | h) | h
    · exact Or.inr (Or.inl h)
    · exact Or.inr (Or.inr (Or.inl h))
    · exact Or.inl h
  · exact Or.inr (Or.inr (Or.inr h11))

/-- `a.b, c[1] = 1, 2` has no errors. -/
example : ∃ tree, sourceFileParse "a.b, c[1] = 1, 2".toList = .ok (tree, []) ∧
    ∃ o g, (o, g) ∈ tree.nodes 0 ∧ g.kind = .assignStmt := by
  let tree : Green := match sourceFileParseEval "a.b, c[1] = 1, 2".toList with | .ok (t, _) => t | .error _ => .token .eof []
  refine ⟨tree, ?_, ?_⟩
  · rw [sourceFileParse_eq_eval]; decide +kernel
  · have : (tree.nodes 0).find? (fun p => p.2.kind == .assignStmt) ≠ none := by decide +kernel
    cases h : (tree.nodes 0).find? (fun p => p.2.kind == .assignStmt) with
    | none => exact absurd h this
    | some p => exact ⟨p.1, p.2, List.mem_of_find?_eq_some h, by simpa using List.find?_some h⟩

/-- **C59 fails** in general: `(a)=1` is not an assignment of Lua, but no error is reported. -/
theorem C59_assign_fails : ∃ tree, sourceFileParse "(a)=1".toList = .ok (tree, []) ∧
    tree = .node .sourceFile [.node .block [.node .assignStmt [
      .node .multivalExpr [.node .parenExpr [.token .lParen ['('], .node .nameRef [.token .ident ['a']],
        .token .rParen [')']]],
      .token .eq ['='],
      .node .multivalExpr [.node .literal [.token .number ['1']]]]]] := by
  refine ⟨_, ?_, rfl⟩
  rw [sourceFileParse_eq_eval]; decide +kernel

end Verif
