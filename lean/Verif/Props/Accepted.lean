import Verif.Spec.Accepted
import Verif.Props.Spelling
import Verif.Props.Validation

/-
C78: exactly which files are accepted without an error.
-/
namespace Verif
open Spec PTree Lexer Lua Validation

private theorem unescape_nil (size start : Nat) : ∀ (n : Nat) (s : Text), s.length ≤ n →
    (unescape size start s = [] ↔ EscapesOk s) := by
  intro n
  induction n with
  | zero =>
    intro s hs
    have : s = [] := List.length_eq_zero_iff.1 (by omega)
    subst this
    simp [unescape, EscapesOk.nil]
  | succ n ih =>
    intro s hs
    cases s with
    | nil => simp [unescape, EscapesOk.nil]
    | cons c cs =>
      simp only [List.length_cons] at hs
      by_cases hc : c = '\\'
      · subst hc
        cases cs with
        | nil =>
          simp only [unescape, if_true, List.cons_ne_nil, false_iff]
          intro h; cases h with
          | plain h => exact h rfl
        | cons d ds =>
          simp only [List.length_cons] at hs
          simp only [unescape, if_true, List.append_eq_nil_iff, ih ds (by omega)]
          constructor
          · rintro ⟨h1, h2⟩
            split at h1
            · rename_i h; exact .esc (List.contains_iff_mem.1 h) h2
            · simp at h1
          · intro h
            cases h with
            | plain h => exact absurd rfl h
            | esc h1 h2 => exact ⟨if_pos (List.contains_iff_mem.2 h1), h2⟩
      · have : unescape size start (c :: cs) = unescape size start cs := by
          rw [unescape.eq_def]; simp [hc]
        rw [this, ih cs (by omega)]
        constructor
        · exact fun h => .plain hc h
        · intro h
          cases h with
          | plain _ h => exact h
          | esc => exact absurd rfl hc

private theorem unquote_quoted {d : Char} (hd : d = '\'' ∨ d = '"') (body : Text) :
    unquote (d :: (body ++ [d])) = .ok (some (1, body)) := by
  have hs : d.utf8Size = 1 := by rcases hd with rfl | rfl <;> rfl
  unfold unquote
  simp only [hd, if_true]
  have e : (d :: (body ++ [d])).getLast? = some d := by
    rw [← List.cons_append, List.getLast?_append]; simp
  rw [if_neg (by rw [e]; simp [hs])]
  have := Text.slice_append [d] body [d]
  simp only [Text.len_cons, Text.len_nil, hs, Nat.add_zero, List.cons_append, List.nil_append] at this
  have e2 : Text.len (d :: (body ++ [d])) - 1 = 1 + Text.len body := by simp [hs]; omega
  rw [e2, this]

private theorem len_eqs (n : Nat) : Text.len (List.replicate n '=') = n := by
  induction n with
  | zero => rfl
  | succ n ih =>
    have : '='.utf8Size = 1 := rfl
    simp [List.replicate_succ, ih, this]; omega

private theorem takeWhile_eqs (n : Nat) {c : Char} (hc : c ≠ '=') (t : Text) :
    (List.replicate n '=' ++ c :: t).takeWhile (· == '=') = List.replicate n '=' := by
  induction n with
  | zero => simp [hc]
  | succ n ih => simp [List.replicate_succ, ih]

private theorem unquote_long (n : Nat) (body : Text) :
    unquote (longOpen n ++ body ++ longClose n) = .ok (some (2 + n, body)) := by
  have h1 : Text.sliceFrom 1 (longOpen n ++ body ++ longClose n) =
      some (List.replicate n '=' ++ '[' :: (body ++ longClose n)) := by
    have := Text.sliceFrom_append ['['] (List.replicate n '=' ++ '[' :: (body ++ longClose n))
    simpa [longOpen, show '['.utf8Size = 1 from rfl] using this
  have h2 : Text.sliceFrom n (List.replicate n '=' ++ '[' :: (body ++ longClose n)) = some ('[' :: (body ++ longClose n)) := by
    have := Text.sliceFrom_append (List.replicate n '=') ('[' :: (body ++ longClose n))
    rwa [len_eqs] at this
  have h3 : Text.sliceFrom 1 ('[' :: (body ++ longClose n)) = some (body ++ longClose n) := by
    have := Text.sliceFrom_append ['['] (body ++ longClose n)
    simpa [show '['.utf8Size = 1 from rfl] using this
  have h4 : (body ++ longClose n).getLast? = some ']' := by
    simp [longClose, List.getLast?_append, List.getLast?_cons]
  have h5 : Text.sliceTo (Text.len (body ++ longClose n) - 1) (body ++ longClose n) =
      some (body ++ ']' :: List.replicate n '=') := by
    have := Text.sliceTo_append (body ++ ']' :: List.replicate n '=') [']']
    have e : body ++ ']' :: List.replicate n '=' ++ [']'] = body ++ longClose n := by simp [longClose]
    rw [e] at this
    rw [← e, Text.len_append, show Text.len [']'] = 1 from rfl, Nat.add_sub_cancel, e]
    exact this
  have h6 : ((body ++ ']' :: List.replicate n '=').reverse.takeWhile (· == '=')).length = n := by
    have : (body ++ ']' :: List.replicate n '=').reverse = List.replicate n '=' ++ ']' :: body.reverse := by simp
    rw [this, takeWhile_eqs n (by decide)]; simp
  have h7 : Text.sliceTo (Text.len (body ++ ']' :: List.replicate n '=') - n) (body ++ ']' :: List.replicate n '=') =
      some (body ++ [']']) := by
    have := Text.sliceTo_append (body ++ [']']) (List.replicate n '=')
    have e : body ++ [']'] ++ List.replicate n '=' = body ++ ']' :: List.replicate n '=' := by simp
    rw [e] at this
    rw [← e, Text.len_append, len_eqs, Nat.add_sub_cancel, e]
    exact this
  have h8 : Text.sliceTo (Text.len (body ++ [']']) - 1) (body ++ [']']) = some body := by
    have := Text.sliceTo_append body [']']
    rw [Text.len_append, show Text.len [']'] = 1 from rfl, Nat.add_sub_cancel]
    exact this
  have h0 : longOpen n ++ body ++ longClose n = '[' :: (List.replicate n '=' ++ ['['] ++ body ++ longClose n) := by
    simp [longOpen]
  unfold unquote
  rw [h0]
  simp only [show ¬ ('[' = '\'' ∨ '[' = '"') by decide, if_false, if_true]
  rw [← h0, h1]
  simp only [takeWhile_eqs n (show '[' ≠ '=' by decide), List.length_replicate, h2, List.head?_cons, if_true, h3, h4, h5,
    Option.bind_some, h6, h7, List.getLast?_append, List.getLast?_singleton, Option.some_or, h8]

private theorem quoted_long {d : Char} (hd : d = '\'' ∨ d = '"') {body body' : Text} {n : Nat}
    (h : d :: (body ++ [d]) = longOpen n ++ body' ++ longClose n) : False := by
  simp only [longOpen, List.cons_append, List.cons.injEq] at h
  rcases hd with rfl | rfl <;> simp at h

private theorem literal_ok {w : Text} (hw : Spelled .str w) (o : Nat) :
    validateNode o (.node .literal [.token .str w]) = .ok [] ↔ StringOk w := by
  have hv : validateNode o (.node .literal [.token .str w]) = literalToken o .str w := by
    simp [validateNode, Green.kind, Validation.literal, Green.children, Green.withOffsets, SyntaxKind.isTrivia]
  have key : ∀ off body, unquote w = .ok (some (off, body)) → (StringOk w ↔ EscapesOk body) →
      (validateNode o (.node .literal [.token .str w]) = .ok [] ↔ StringOk w) := by
    intro off body h1 h2
    rw [hv, h2, literalToken, if_pos rfl, h1]
    simp only [Except.ok.injEq]
    exact unescape_nil _ _ _ body (Nat.le_refl _)
  cases hw with
  | fixed h =>
    have : ∀ p ∈ keywords ++ operators, p.2 ≠ .str := by decide
    exact absurd rfl (this _ h)
  | quoted hd _ =>
    rename_i d body _
    refine key 1 body (unquote_quoted hd body) ⟨?_, fun h => ⟨body, h, .inl ⟨d, hd, rfl⟩⟩⟩
    rintro ⟨b, h1, ⟨d', h2, h3⟩ | ⟨n, h3⟩⟩
    · simp only [List.cons.injEq] at h3
      obtain ⟨rfl, h3⟩ := h3
      rw [List.append_cancel_right h3]; exact h1
    · exact (quoted_long hd h3).elim
  | long =>
    rename_i n body
    refine key (2 + n) body (unquote_long n body) ⟨?_, fun h => ⟨body, h, .inr ⟨n, rfl⟩⟩⟩
    rintro ⟨b, h1, ⟨d', h2, h3⟩ | ⟨m, h3⟩⟩
    · exact (quoted_long h2 h3.symm).elim
    · have e := unquote_long m b
      rw [← h3, unquote_long n body] at e
      simp only [Except.ok.injEq, Option.some.injEq, Prod.mk.injEq] at e
      rw [e.2]; exact h1

private theorem exprStmt_ok {o : Nat} {g : Green} (h1 : StmtOk g) (hg : g.isNode = true) (hk : g.kind = .exprStmt) :
    Validation.exprStmt o g = [] ↔ ∃ m, nodesIn g = [m] ∧ m.kind = .multivalExpr ∧
      (nodesIn m).countP (fun c => c.kind == .callExpr || c.kind == .methodCallExpr) = 1 ∧
      ∀ c ∈ nodesIn m, c.kind = .callExpr ∨ c.kind = .methodCallExpr ∨ c.kind = .parenExpr := by
  obtain ⟨m, h3, h4⟩ : ∃ m, childrenOf g = [m] ∧ m.kind = .multivalExpr := by
    have h3 : (childrenOf g).map (·.kind) = [.multivalExpr] := by
      cases g with
      | token k t => simp [Green.isNode] at hg
      | node k cs =>
        simp only [Green.kind] at hk
        subst hk
        simp only [StmtOk] at h1
        exact h1.2.1 trivial
    cases hc : childrenOf g with
    | nil => rw [hc] at h3; simp at h3
    | cons m ms => rw [hc] at h3; simp at h3; exact ⟨m, by rw [h3.2], h3.1⟩
  have hm : StmtOk m := stmtOk_childrenOf h1 m (by rw [h3]; simp)
  have hmk := multival_kinds hm h4
  have h5 := multivals_snd o g
  rw [h3] at h5
  simp only [List.filter_cons, h4, beq_self_eq_true, if_true, List.filter_nil] at h5
  obtain ⟨moff, h6⟩ : ∃ moff, multivals o g = [(moff, m)] := by
    cases hc : multivals o g with
    | nil => rw [hc] at h5; simp at h5
    | cons p ps => rw [hc] at h5; simp at h5; exact ⟨p.1, by rw [h5.2, ← h5.1]⟩
  have he := exprs_snd moff m
  have hcount : ((exprs moff m).filter fun e => isCall e.2.kind).length =
      (childrenOf m).countP (fun c => c.kind == .callExpr || c.kind == .methodCallExpr) := by
    rw [← List.countP_eq_length_filter]
    have e1 : (exprs moff m).countP (fun e => isCall e.2.kind) = ((exprs moff m).map (·.2)).countP (fun e => isCall e.kind) := by
      rw [List.countP_map]; rfl
    rw [e1, he, List.countP_filter]
    apply List.countP_congr
    intro c hc
    have : ∀ k : SyntaxKind, (k == .callExpr || k == .methodCallExpr) = true ↔ (isCall k && isExprKind k) = true := by
      intro k; cases k <;> decide
    exact (this c.kind).symm
  have hbad : (∀ e ∈ exprs moff m, ¬ (!isCall e.2.kind) = true) ↔
      ∀ c ∈ childrenOf m, c.kind = .callExpr ∨ c.kind = .methodCallExpr ∨ c.kind = .parenExpr := by
    have e1 : (∀ e ∈ exprs moff m, ¬ (!isCall e.2.kind) = true) ↔ ∀ c ∈ (exprs moff m).map (·.2), isCall c.kind = true := by
      simp only [List.mem_map]
      constructor
      · rintro h c ⟨e, h1, rfl⟩; simpa using h e h1
      · intro h e h1; simpa using h e.2 ⟨e, h1, rfl⟩
    rw [e1, he]
    constructor
    · intro h c hc
      rcases isExprKind_iff c.kind (hmk c hc) with h11 | h11
      · have := h c (List.mem_filter.mpr ⟨hc, h11⟩)
        simp only [isCall, Bool.or_eq_true, beq_iff_eq] at this
        rcases this with h | h
        · exact .inl h
        · exact .inr (.inl h)
      · exact .inr (.inr h11)
    · intro h c hc
      obtain ⟨hc, h2⟩ := List.mem_filter.mp hc
      rcases h c hc with h | h | h
      · simp [isCall, h]
      · simp [isCall, h]
      · rw [h] at h2; exact absurd h2 (by decide)
  have hgm : nodesIn g = [m] := h3
  rw [hgm]
  unfold Validation.exprStmt
  rw [h6]
  simp only [List.append_eq_nil_iff, List.map_eq_nil_iff, List.filter_eq_nil_iff, hcount, hbad]
  constructor
  · rintro ⟨⟨h8, h9⟩, h10⟩
    refine ⟨m, rfl, h4, ?_, h8⟩
    split at h9
    · simp at h9
    · split at h10
      · simp at h10
      · show (childrenOf m).countP _ = 1
        omega
  · rintro ⟨m', h7, -, h8, h9⟩
    simp only [List.cons.injEq, and_true] at h7
    subst h7
    have h8 : (childrenOf m).countP (fun c => c.kind == .callExpr || c.kind == .methodCallExpr) = 1 := h8
    exact ⟨⟨h9, by rw [h8]; simp⟩, by rw [h8]; simp⟩

private theorem assignStmt_ok {o : Nat} {g : Green} (h1 : StmtOk g) (hg : g.isNode = true) (hk : g.kind = .assignStmt) :
    Validation.assignStmt o g = [] ↔ ∃ l r, nodesIn g = [l, r] ∧ l.kind = .multivalExpr ∧ r.kind = .multivalExpr ∧
      ∀ c ∈ nodesIn l, c.kind = .nameRef ∨ c.kind = .dotExpr ∨ c.kind = .indexExpr ∨ c.kind = .parenExpr := by
  obtain ⟨l, r, h3, h4, h4'⟩ : ∃ l r, childrenOf g = [l, r] ∧ l.kind = .multivalExpr ∧ r.kind = .multivalExpr := by
    have h3 : (childrenOf g).map (·.kind) = [.multivalExpr, .multivalExpr] := by
      cases g with
      | token k t => simp [Green.isNode] at hg
      | node k cs =>
        simp only [Green.kind] at hk
        subst hk
        simp only [StmtOk] at h1
        exact h1.2.2.1 trivial
    match hc : childrenOf g with
    | [] => rw [hc] at h3; simp at h3
    | [m] => rw [hc] at h3; simp at h3
    | l :: r :: ms => rw [hc] at h3; simp at h3; exact ⟨l, r, by rw [h3.2.2], h3.1, h3.2.1⟩
  have hm : StmtOk l := stmtOk_childrenOf h1 l (by rw [h3]; simp)
  have hmk := multival_kinds hm h4
  have h5 := multivals_snd o g
  rw [h3] at h5
  simp only [List.filter_cons, h4, h4', beq_self_eq_true, if_true, List.filter_nil] at h5
  obtain ⟨loff, roff, h6⟩ : ∃ loff roff, multivals o g = [(loff, l), (roff, r)] := by
    match hc : multivals o g with
    | [] => rw [hc] at h5; simp at h5
    | [p] => rw [hc] at h5; simp at h5
    | p :: q :: ps => rw [hc] at h5; simp at h5; exact ⟨p.1, q.1, by rw [h5.2.2, ← h5.1, ← h5.2.1]⟩
  have he := exprs_snd loff l
  have hbad : (∀ e ∈ exprs loff l, ¬ (!(e.2.kind == .dotExpr || e.2.kind == .indexExpr || e.2.kind == .nameRef)) = true) ↔
      ∀ c ∈ childrenOf l, c.kind = .nameRef ∨ c.kind = .dotExpr ∨ c.kind = .indexExpr ∨ c.kind = .parenExpr := by
    have e1 : (∀ e ∈ exprs loff l, ¬ (!(e.2.kind == .dotExpr || e.2.kind == .indexExpr || e.2.kind == .nameRef)) = true) ↔
        ∀ c ∈ (exprs loff l).map (·.2), (c.kind = .dotExpr ∨ c.kind = .indexExpr) ∨ c.kind = .nameRef := by
      simp only [List.mem_map]
      constructor
      · rintro h c ⟨e, h1, rfl⟩; simpa [Decidable.or_iff_not_imp_left, not_or] using h e h1
      · intro h e h1; simpa [Decidable.or_iff_not_imp_left, not_or] using h e.2 ⟨e, h1, rfl⟩
    rw [e1, he]
    constructor
    · intro h c hc
      rcases isExprKind_iff c.kind (hmk c hc) with h11 | h11
      · have := h c (List.mem_filter.mpr ⟨hc, h11⟩)
        rcases this with (h | h) | h
        · exact .inr (.inl h)
        · exact .inr (.inr (.inl h))
        · exact .inl h
      · exact .inr (.inr (.inr h11))
    · intro h c hc
      obtain ⟨hc, h2⟩ := List.mem_filter.mp hc
      rcases h c hc with h | h | h | h
      · exact .inr h
      · exact .inl (.inl h)
      · exact .inl (.inr h)
      · rw [h] at h2; exact absurd h2 (by decide)
  have hgm : nodesIn g = [l, r] := h3
  rw [hgm]
  unfold Validation.assignStmt
  rw [h6]
  simp only [List.map_eq_nil_iff, List.filter_eq_nil_iff, hbad]
  constructor
  · intro h; exact ⟨l, r, rfl, h4, h4', h⟩
  · rintro ⟨l', r', h7, -, -, h8⟩
    simp only [List.cons.injEq, and_true] at h7
    obtain ⟨rfl, rfl⟩ := h7
    exact h8

/-- **C78**: a file is accepted without an error exactly if it is without lexical and syntax errors, and its expression
statements, assignments and literal strings are fine. -/
theorem C78_accepted (text : Text) (tree : Green) : sourceFileParse text = .ok (tree, []) ↔
    parseText text = .ok (tree, []) ∧ ∀ p ∈ tree.nodes 0, Fine p.2 := by
  obtain ⟨ls, tr, errors, h1, h2, h3, h3', h4, h5, h6, -⟩ := parseText_tree text
  obtain ⟨tree'', errors'', more, h7, h8, h9, h10⟩ := sourceFileParse_eq text
  rw [h2] at h7
  simp only [Except.ok.injEq, Prod.mk.injEq] at h7
  obtain ⟨rfl, rfl⟩ := h7
  rw [h2, h8]
  simp only [Except.ok.injEq, Prod.mk.injEq, List.append_eq_nil_iff]
  constructor
  · rintro ⟨rfl, rfl, rfl⟩
    refine ⟨⟨rfl, rfl⟩, ?_⟩
    rintro ⟨o, g⟩ hp
    have hs := stmtOk_nodes (h3' rfl) hp
    have hnode : g.isNode = true := by
      cases g with
      | token k t => exact absurd hp (token_not_node _ _ _ _ _)
      | node => rfl
    have hv : validateNode o g = .ok [] := by
      obtain ⟨es, hes⟩ := validateNode_total h1 h3 h4 (o, g) hp
      cases es with
      | nil => exact hes
      | cons e es => exact absurd (h10 (o, g) hp _ hes e (by simp)) (by simp)
    refine ⟨fun hk => ?_, fun hk => ?_, ?_⟩
    · exact (exprStmt_ok hs hnode hk).1 (by simpa [validateNode, hk] using hv)
    · exact (assignStmt_ok hs hnode hk).1 (by simpa [validateNode, hk] using hv)
    · rintro w rfl
      have hl : (SyntaxKind.str, w) ∈ tr.leaves := by
        obtain ⟨l, e1, _, e2⟩ := litOk_nodes h3 hp rfl
        simp only [leaf, Green.node.injEq, List.cons.injEq, Green.token.injEq, and_true, true_and] at e1
        rw [show l = (.str, w) from Prod.ext e1.1.symm e1.2.symm] at e2
        exact e2
      exact (literal_ok (C75_tree text tr h2 _ hl) o).1 hv
  · rintro ⟨⟨rfl, rfl⟩, hf⟩
    refine ⟨rfl, rfl, ?_⟩
    cases hm : more with
    | nil => rfl
    | cons e es =>
      obtain ⟨⟨o, g⟩, hp, es', hes, he⟩ := h9 e (by rw [hm]; simp)
      have hs := stmtOk_nodes (h3' rfl) hp
      have hnode : g.isNode = true := by
        cases g with
        | token k t => exact absurd hp (token_not_node _ _ _ _ _)
        | node => rfl
      have hfine := hf _ hp
      have : es' = [] := by
        by_cases k1 : g.kind = .exprStmt
        · have := (exprStmt_ok (o := o) hs hnode k1).2 (hfine.exprStmt k1)
          simp only [validateNode, k1, if_true, this, Except.ok.injEq] at hes
          exact hes.symm
        · by_cases k2 : g.kind = .assignStmt
          · have := (assignStmt_ok (o := o) hs hnode k2).2 (hfine.assignStmt k2)
            simp only [validateNode, k2, if_true, this] at hes
            simpa using hes.symm
          · by_cases k3 : g.kind = .literal
            · obtain ⟨l, rfl, e3, e2⟩ := litOk_nodes h3 hp k3
              by_cases k4 : l.1 = .str
              · have hl : (SyntaxKind.str, l.2) ∈ tr.leaves := by rw [← k4]; exact e2
                have e : (Green.node .literal [leaf l]) = .node .literal [.token .str l.2] := by rw [leaf, k4]
                simp only [e] at hes hfine
                rw [(literal_ok (C75_tree text tr h2 _ hl) o).2 (hfine.literal _ rfl)] at hes
                simpa using hes.symm
              · have hnt : l.1.isTrivia = false := by
                  have : ∀ k ∈ Lua.literalKinds, k.isTrivia = false := by decide
                  exact this _ e3
                have : ∀ k ∈ Lua.literalKinds, k ≠ .str →
                    (k = .number ∨ k = .trueKw ∨ k = .falseKw ∨ k = .nilKw ∨ k = .tripleDot) := by decide
                have := this _ e3 k4
                simp only [validateNode, Green.kind, Validation.literal, Green.children, Green.withOffsets, leaf,
                  List.find?, hnt, Bool.not_false, literalToken, k4, if_false, this, if_true] at hes
                simpa using hes.symm
            · simp only [validateNode, k1, k2, k3, if_false] at hes
              simpa using hes.symm
      rw [this] at he
      simp at he

/-- **C78**: a file has no lexical and no syntax error exactly if it lexes without an error and its tokens derive from the
grammar the parser accepts. -/
theorem C78_parses (text : Text) : (∃ tree, parseText text = .ok (tree, [])) ↔
    ∃ tokens t, tokenize text = .ok (tokens, []) ∧ Program .accepted t ∧
      yield t = (tokens.map (·.kind)).filter (fun k => !k.isTrivia) := by
  obtain ⟨ls, ts, h1, h2, h3, ⟨h4, h4'⟩, h5⟩ := parseText_main text
  obtain ⟨hw, htk, hne, heof⟩ := lexemes_lx h1
  have hk : (((attach 0 ls).map (·.1)).map (·.kind)).filter (fun k => !k.isTrivia) = realKinds (ls.map lxOf) := by
    rw [← htk]; simp [toksOf, realKinds, isTriv, List.filter_map, Function.comp_def]
  rw [h5, tokenize_eq h1]
  simp only [Except.ok.injEq, Prod.mk.injEq, List.append_eq_nil_iff]
  constructor
  · rintro ⟨tree, -, he, hl⟩
    exact ⟨_, _, ⟨rfl, hl⟩, h4' (placeL_errs_nil _ _ _ he), by rw [hk, ← h3]; simp [PTree.yield, yieldL]⟩
  · rintro ⟨tokens, t, ⟨rfl, hl⟩, hp, hy⟩
    refine ⟨_, rfl, ?_, hl⟩
    rw [hk] at hy
    have hc := parseKinds_complete hp
    rw [hy, h2] at hc
    have hc := (calls_inj (.node .sourceFile [.node .block ts]) t [] [] [] []
      (by simpa using hc) (by simp [PTree.yield, yieldL, h3, hy])).1
    have := program_errors hp
    rw [← hc] at this
    have : errorsL ts = [] := by simpa [PTree.errors, errorsL] using this
    have key := errs_of_none text.len ts (ls.map lxOf) this
    exact key
where
  errs_of_none (n : Nat) (ts : List PTree) (todo : List Lx) (h : errorsL ts = []) : (placeL n ts todo).errs = [] := by
    match ts with
    | [] => rfl
    | t :: ts =>
      simp only [errorsL, List.append_eq_nil_iff] at h
      simp only [placeL, List.append_eq_nil_iff]
      exact ⟨errs_none n t todo h.1, errs_of_none n ts _ h.2⟩
  errs_none (n : Nat) (t : PTree) (todo : List Lx) (h : errors t = []) : (place n t todo).errs = [] := by
    match t with
    | .tok k => simp only [place]; cases afterTriv todo <;> rfl
    | .err e => simp [PTree.errors] at h
    | .errNode cs e => simp [PTree.errors] at h
    | .node k cs => exact errs_of_none n cs _ (by simpa [PTree.errors] using h)

/-- A file with all three kinds of nodes that is accepted, and one that is not. -/
private def acceptedTree : Green :=

  .node .sourceFile [.node .block [.node .assignStmt [.node .multivalExpr [.node .dotExpr [.node .nameRef [.token .ident "x".toList],
  .token .dot ".".toList, .token .ident "y".toList]], .token .eq "=".toList,
  .node .multivalExpr [.node .literal [.token .str "'\\n'".toList]]],
  .node .exprStmt [.node .multivalExpr [.node .callExpr [.node .nameRef [.token .ident "f".toList],
  .node .callArgs [.node .argList [.token .lParen "(".toList, .token .rParen ")".toList]]]]]]]

example : sourceFileParse "x.y='\\n'f()".toList = .ok (acceptedTree, []) ∧ (∀ p ∈ acceptedTree.nodes 0, Fine p.2) ∧
    (acceptedTree.nodes 0).map (·.2.kind) = [.sourceFile, .block, .assignStmt, .multivalExpr, .dotExpr, .nameRef,
      .multivalExpr, .literal, .exprStmt, .multivalExpr, .callExpr, .nameRef, .callArgs, .argList] := by
  have h : sourceFileParse "x.y='\\n'f()".toList = .ok (acceptedTree, []) := by
    rw [sourceFileParse_eq_eval]; decide +kernel
  exact ⟨h, ((C78_accepted _ _).1 h).2, by decide +kernel⟩

example : ¬ Fine (.node .exprStmt [.node .multivalExpr [.node .nameRef [.token .ident ['f']]]]) := by
  intro h
  obtain ⟨m, h1, -, h2, -⟩ := h.exprStmt rfl
  have : m = .node .multivalExpr [.node .nameRef [.token .ident ['f']]] := by
    have e : nodesIn (.node .exprStmt [.node .multivalExpr [.node .nameRef [.token .ident ['f']]]]) =
      [.node .multivalExpr [.node .nameRef [.token .ident ['f']]]] := by decide
    rw [e] at h1; simpa using h1.symm
  subst this
  exact absurd h2 (by decide)

end Verif
