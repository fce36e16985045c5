import Verif.Spec.Complaints
import Verif.Props.Reads
import Verif.Props.Validation
import Verif.Props.Walk
import Verif.Proof.AstProof
import Verif.Proof.ReparseProof

/-
C83: what `SourceFile::parse` reports about a file without lexical and syntax errors, exactly.
-/
namespace Verif
open Lexer Lua Spec Validation

/-! ### the nodes of a tree, with and without paths -/

def redPair (e : Red) : Nat × Green := (e.off, e.green)

theorem elems_offsets (path : List Nat) : ∀ (cs : List Green) (i off : Nat),
    (Red.elemsFrom path i off cs).map redPair = Green.withOffsets off cs := by
  intro cs
  induction cs with
  | nil => intro i off; rfl
  | cons g gs ih => intro i off; simp only [Red.elemsFrom, List.map_cons, Green.withOffsets, ih]; rfl

theorem childNodes_red (r : Red) : r.green.childNodes r.off = r.children.map redPair := by
  simp only [Green.childNodes, Red.children, Red.elems]
  rw [← elems_offsets r.path _ 0, List.filter_map]
  rfl

private theorem nodesL_red (path : List Nat) : ∀ (cs : List Green) (i off : Nat) (x : Nat × Green),
    x ∈ Green.nodesL off cs ↔ ∃ e ∈ Red.elemsFrom path i off cs, x ∈ e.green.nodes e.off := by
  intro cs
  induction cs with
  | nil => intro i off x; simp [Green.nodesL, Red.elemsFrom]
  | cons g gs ih =>
    intro i off x
    simp only [Green.nodesL, Red.elemsFrom, List.mem_append, ih (i + 1) (off + g.len) x, List.mem_cons]
    constructor
    · rintro (h | ⟨e, he, h⟩)
      · exact ⟨_, .inl rfl, h⟩
      · exact ⟨e, .inr he, h⟩
    · rintro ⟨e, rfl | he, h⟩
      · exact .inl h
      · exact .inr ⟨e, he, h⟩

theorem nodes_red (r : Red) : r.green.isNode = true → ∀ x, x ∈ r.green.nodes r.off ↔ ∃ a, Below r a ∧ redPair a = x := by
  refine red_ind (P := fun r => r.green.isNode = true → ∀ x, x ∈ r.green.nodes r.off ↔ ∃ a, Below r a ∧ redPair a = x) ?_ r
  intro r ih hn x
  obtain ⟨path, off, g⟩ := r
  cases g with
  | token k t => simp [Green.isNode] at hn
  | node k cs =>
    simp only [Green.nodes, List.mem_cons, nodesL_red path cs 0 off x]
    constructor
    · rintro (rfl | ⟨e, he, h⟩)
      · exact ⟨_, .self, rfl⟩
      · have hen : e.green.isNode = true := by
          cases hg : e.green with
          | token k t => rw [hg] at h; simp [Green.nodes] at h
          | node => rfl
        have hc : e ∈ Red.children ⟨path, off, .node k cs⟩ := List.mem_filter.2 ⟨he, hen⟩
        obtain ⟨a, h1, h2⟩ := (ih e hc hen x).1 h
        exact ⟨a, below_of_child hc h1, h2⟩
    · rintro ⟨a, h1, rfl⟩
      rcases below_cases h1 with h | ⟨c, hc, h⟩
      · rw [h]; exact .inl rfl
      · exact .inr ⟨c, (List.mem_filter.1 hc).1, (ih c hc (child_node hc) _).2 ⟨a, h, rfl⟩⟩

/-! ### escapes -/

private theorem whole_plain {c : Char} {t : Text} (h : c ≠ '\\') : Whole (c :: t) ↔ Whole t := by
  refine ⟨fun hw => ?_, .plain h⟩
  cases hw with
  | plain _ h => exact h
  | pair _ => exact absurd rfl h

private theorem whole_pair {c : Char} {t : Text} : Whole ('\\' :: c :: t) ↔ Whole t := by
  refine ⟨fun hw => ?_, .pair⟩
  cases hw with
  | plain h _ => exact absurd rfl h
  | pair h => exact h

private theorem not_whole_one : ¬ Whole ['\\'] := by
  intro h
  cases h with
  | plain h _ => exact absurd rfl h

def BadEscape (start : Nat) (s : Text) (e : SyntaxError) : Prop :=
  (∃ p c q, s = p ++ '\\' :: c :: q ∧ Whole p ∧ c ∉ escapeChars ∧
    e = ⟨"Invalid escape sequence", ⟨start + Text.len p, start + Text.len p + Text.len ['\\', c]⟩⟩) ∨
  ∃ p, s = p ++ ['\\'] ∧ Whole p ∧ e = ⟨"Invalid escape sequence", ⟨start + Text.len p, start + Text.len p + 1⟩⟩

private theorem bad_nil (start : Nat) (e : SyntaxError) : ¬ BadEscape start [] e := by
  rintro (⟨p, c, q, h, -⟩ | ⟨p, h, -⟩) <;> simp at h

private theorem bad_one (start : Nat) (e : SyntaxError) :
    BadEscape start ['\\'] e ↔ e = ⟨"Invalid escape sequence", ⟨start, start + 1⟩⟩ := by
  constructor
  · rintro (⟨p, c, q, h, -⟩ | ⟨p, h, hw, he⟩)
    · have := congrArg List.length h; simp at this; omega
    · cases p with
      | nil => simpa using he
      | cons x xs => simp at h
  · intro h; exact .inr ⟨[], rfl, .nil, by simpa using h⟩

private theorem bad_plain {c : Char} (hc : c ≠ '\\') (start : Nat) (s : Text) (e : SyntaxError) :
    BadEscape start (c :: s) e ↔ BadEscape (start + c.utf8Size) s e := by
  constructor
  · rintro (⟨p, d, q, h, hw, hd, he⟩ | ⟨p, h, hw, he⟩)
    · cases p with
      | nil => simp at h; exact absurd h.1 hc
      | cons x xs =>
        simp at h
        obtain ⟨rfl, rfl⟩ := h
        refine .inl ⟨xs, d, q, rfl, (whole_plain hc).1 hw, hd, ?_⟩
        rw [he]; simp [Text.len_cons, Nat.add_assoc]
    · cases p with
      | nil => simp at h; exact absurd h.1 hc
      | cons x xs =>
        simp at h
        obtain ⟨rfl, rfl⟩ := h
        refine .inr ⟨xs, rfl, (whole_plain hc).1 hw, ?_⟩
        rw [he]; simp [Text.len_cons, Nat.add_assoc]
  · rintro (⟨p, d, q, h, hw, hd, he⟩ | ⟨p, h, hw, he⟩)
    · refine .inl ⟨c :: p, d, q, by rw [h]; rfl, .plain hc hw, hd, ?_⟩
      rw [he]; simp [Text.len_cons, Nat.add_assoc]
    · refine .inr ⟨c :: p, by rw [h]; rfl, .plain hc hw, ?_⟩
      rw [he]; simp [Text.len_cons, Nat.add_assoc]

private theorem bad_pair (d : Char) (start : Nat) (s : Text) (e : SyntaxError) :
    BadEscape start ('\\' :: d :: s) e ↔
      (d ∉ escapeChars ∧ e = ⟨"Invalid escape sequence", ⟨start, start + Text.len ['\\', d]⟩⟩) ∨
      BadEscape (start + Text.len ['\\', d]) s e := by
  constructor
  · rintro (⟨p, x, q, h, hw, hd, he⟩ | ⟨p, h, hw, he⟩)
    · match p, h, hw with
      | [], h, hw =>
        simp at h
        obtain ⟨rfl, rfl⟩ := h
        exact .inl ⟨hd, by simpa using he⟩
      | [a], h, hw =>
        simp at h
        rw [← h.1] at hw
        exact absurd hw not_whole_one
      | a :: b :: p, h, hw =>
        simp at h
        obtain ⟨rfl, rfl, rfl⟩ := h
        refine .inr (.inl ⟨p, x, q, rfl, whole_pair.1 hw, hd, ?_⟩)
        rw [he]; simp [Text.len_cons, Nat.add_assoc]
    · match p, h, hw with
      | [], h, hw => simp at h
      | [a], h, hw =>
        simp at h
        rw [← h.1] at hw
        exact absurd hw not_whole_one
      | a :: b :: p, h, hw =>
        simp at h
        obtain ⟨rfl, rfl, rfl⟩ := h
        refine .inr (.inr ⟨p, rfl, whole_pair.1 hw, ?_⟩)
        rw [he]; simp [Text.len_cons, Nat.add_assoc]
  · rintro (⟨hd, he⟩ | ⟨p, x, q, h, hw, hd, he⟩ | ⟨p, h, hw, he⟩)
    · exact .inl ⟨[], d, s, rfl, .nil, hd, by simpa using he⟩
    · refine .inl ⟨'\\' :: d :: p, x, q, by rw [h]; rfl, .pair hw, hd, ?_⟩
      rw [he]; simp [Text.len_cons, Nat.add_assoc]
    · refine .inr ⟨'\\' :: d :: p, by rw [h]; rfl, .pair hw, ?_⟩
      rw [he]; simp [Text.len_cons, Nat.add_assoc]

theorem unescape_bad (start : Nat) (e : SyntaxError) : ∀ (n : Nat) (pre s : Text), s.length = n →
    (e ∈ unescape (Text.len pre + Text.len s) start s ↔ BadEscape (start + Text.len pre) s e) := by
  have hb : '\\'.utf8Size = 1 := rfl
  intro n
  induction n using Nat.strongRecOn with
  | ind n ih =>
    intro pre s hn
    cases s with
    | nil => simp [unescape, bad_nil]
    | cons c cs =>
      by_cases hc : c = '\\'
      · subst hc
        cases cs with
        | nil =>
          rw [bad_one]
          simp only [unescape, if_true, List.mem_singleton, escapeMsg, Range.ofLen, Range.shift]
          simp [Text.len_cons, hb, Nat.add_comm, Nat.add_left_comm]
        | cons d ds =>
          have h := ih ds.length (by simp at hn; omega) (pre ++ ['\\', d]) ds rfl
          rw [bad_pair]
          rw [show start + Text.len pre + Text.len ['\\', d] = start + Text.len (pre ++ ['\\', d]) by simp [Nat.add_assoc], ← h]
          simp only [unescape, if_true, List.mem_append]
          rw [show Text.len pre + Text.len ('\\' :: d :: ds) = Text.len (pre ++ ['\\', d]) + Text.len ds by
            simp [Text.len_cons]; omega]
          refine or_congr ?_ Iff.rfl
          by_cases hd : d ∈ escapeChars
          · have : escapes.contains d = true := by simpa [escapes, escapeChars] using hd
            rw [if_pos this]; simp [hd]
          · have : escapes.contains d = false := by
              rw [← Bool.not_eq_true]; intro h; exact hd (by simpa [escapes, escapeChars] using h)
            rw [if_neg (by rw [this]; simp)]
            simp only [hd, not_false_eq_true, true_and, List.mem_singleton, escapeMsg, Range.ofLen, Range.shift]
            have e1 : Text.len (pre ++ ['\\', d]) + Text.len ds - Text.len (d :: ds) - '\\'.utf8Size = Text.len pre := by
              simp [Text.len_cons, hb]; omega
            rw [e1]
            simp [Text.len_cons, hb, Nat.add_comm, Nat.add_left_comm]
      · have h := ih cs.length (by simp at hn; omega) (pre ++ [c]) cs rfl
        rw [bad_plain hc]
        rw [show start + Text.len pre + c.utf8Size = start + Text.len (pre ++ [c]) by simp [Text.len_cons, Nat.add_assoc], ← h]
        have hu : ∀ z, unescape z start (c :: cs) = unescape z start cs := by
          intro z; rw [unescape.eq_def]; simp only [hc, if_false]
        rw [hu]
        rw [show Text.len pre + Text.len (c :: cs) = Text.len (pre ++ [c]) + Text.len cs by simp [Text.len_cons]; omega]

theorem unquote_quoted {d : Char} (hd : d = '\'' ∨ d = '"') (body : Text) :
    unquote ([d] ++ body ++ [d]) = .ok (some (Text.len [d], body)) := by
  have hs : d.utf8Size = 1 := utf8Size_ascii d (by rcases hd with rfl | rfl <;> decide)
  show unquote (d :: (body ++ [d])) = _
  unfold unquote
  simp only [hd, if_true]
  have e : (d :: (body ++ [d])).getLast? = some d := by
    rw [← List.cons_append]; exact getLast_snoc _ _
  have e1 : ¬ Text.len (d :: (body ++ [d])) = 1 := by simp [hs]
  rw [if_neg (by simp only [e]; simpa using e1)]
  have := Text.slice_append [d] body [d]
  simp only [Text.len_cons, Text.len_nil, hs, Nat.add_zero, List.cons_append, List.nil_append] at this
  have e2 : Text.len (d :: (body ++ [d])) - 1 = 1 + Text.len body := by
    simp [hs]; omega
  rw [e2, this]
  simp [hs]

theorem len_longOpen (n : Nat) : Text.len (longOpen n) = 2 + n := by
  simp only [longOpen, Text.len_cons, Text.len_append, len_replicate_eq, Text.len_nil, show '['.utf8Size = 1 from rfl]
  omega

theorem unquote_long (n : Nat) (body : Text) :
    unquote (longOpen n ++ body ++ longClose n) = .ok (some (Text.len (longOpen n), body)) := by
  have hb : '['.utf8Size = 1 := rfl
  have hc : ']'.utf8Size = 1 := rfl
  rw [len_longOpen]
  have e0 : longOpen n ++ body ++ longClose n =
      '[' :: (List.replicate n '=' ++ '[' :: (body ++ ']' :: (List.replicate n '=' ++ [']']))) := by
    simp [longOpen, longClose]
  rw [e0]
  unfold unquote
  have c1 : ¬ ('[' = '\'' ∨ '[' = '"') := by decide
  simp only [if_neg c1, if_true]
  have s1 : Text.sliceFrom 1 ('[' :: (List.replicate n '=' ++ '[' :: (body ++ ']' :: (List.replicate n '=' ++ [']'])))) =
      some (List.replicate n '=' ++ '[' :: (body ++ ']' :: (List.replicate n '=' ++ [']']))) := Text.sliceFrom_append ['['] _
  rw [s1]
  have t1 : (List.replicate n '=' ++ '[' :: (body ++ ']' :: (List.replicate n '=' ++ [']']))).takeWhile (· == '=') =
      List.replicate n '=' := by
    rw [(dropWhile_append_of_head (by rfl)).2]
    simp [List.takeWhile_replicate]
  simp only [t1, List.length_replicate]
  have s2 : Text.sliceFrom n (List.replicate n '=' ++ '[' :: (body ++ ']' :: (List.replicate n '=' ++ [']']))) =
      some ('[' :: (body ++ ']' :: (List.replicate n '=' ++ [']']))) := by
    have := Text.sliceFrom_append (List.replicate n '=') ('[' :: (body ++ ']' :: (List.replicate n '=' ++ [']'])))
    rwa [len_replicate_eq] at this
  rw [s2]
  simp only [List.head?_cons, if_true]
  have s3 : Text.sliceFrom 1 ('[' :: (body ++ ']' :: (List.replicate n '=' ++ [']']))) =
      some (body ++ ']' :: (List.replicate n '=' ++ [']'])) := Text.sliceFrom_append ['['] _
  rw [s3]
  have g1 : (body ++ ']' :: (List.replicate n '=' ++ [']'])).getLast? = some ']' := by
    rw [show body ++ ']' :: (List.replicate n '=' ++ [']']) = (body ++ ']' :: List.replicate n '=') ++ [']'] by simp]
    exact getLast_snoc _ _
  simp only [g1, if_true]
  have s4 : Text.sliceTo (Text.len (body ++ ']' :: (List.replicate n '=' ++ [']'])) - 1)
      (body ++ ']' :: (List.replicate n '=' ++ [']'])) = some (body ++ ']' :: List.replicate n '=') := by
    have := Text.sliceTo_append (body ++ ']' :: List.replicate n '=') [']']
    rw [show (body ++ ']' :: List.replicate n '=') ++ [']'] = body ++ ']' :: (List.replicate n '=' ++ [']']) by simp] at this
    rw [← this]
    congr 1
    simp [Text.len_cons, hc]
    omega
  rw [s4]
  simp only [Option.bind_some]
  have t2 : (body ++ ']' :: List.replicate n '=').reverse.takeWhile (· == '=') = List.replicate n '=' := by
    rw [List.reverse_append, List.reverse_cons, List.reverse_replicate, List.append_assoc,
      (dropWhile_append_of_head (by rfl)).2]
    simp [List.takeWhile_replicate]
  simp only [t2, List.length_replicate]
  have s5 : Text.sliceTo (Text.len (body ++ ']' :: List.replicate n '=') - n) (body ++ ']' :: List.replicate n '=') =
      some (body ++ [']']) := by
    have := Text.sliceTo_append (body ++ [']']) (List.replicate n '=')
    rw [show (body ++ [']']) ++ List.replicate n '=' = body ++ ']' :: List.replicate n '=' by simp] at this
    rw [← this]
    congr 1
    simp [Text.len_cons, hc, len_replicate_eq]
    omega
  rw [s5]
  have g2 : (body ++ [']']).getLast? = some ']' := getLast_snoc _ _
  simp only [Option.bind_some, g2, if_true]
  have s6 : Text.sliceTo (Text.len (body ++ [']']) - 1) (body ++ [']']) = some body := by
    have := Text.sliceTo_append body [']']
    rw [← this]
    congr 1
    simp [Text.len_cons, hc]
  rw [s6]

/-! ### the tokens of an error-free file -/

private theorem attach_err (pos : Nat) (ls : List Lexeme) (l : Lexeme) (hl : l ∈ ls) (m : String) (hm : l.err = some m) :
    (attach pos ls).filterMap (·.2) ≠ [] := by
  induction ls generalizing pos with
  | nil => simp at hl
  | cons x xs ih =>
    rcases List.mem_cons.1 hl with rfl | hl
    · simp [attach, hm]
    · simp only [attach, List.filterMap_cons]
      split
      · exact ih _ hl
      · simp

private theorem leaf_reads {text : Text} {tree : Green} (h : parseText text = .ok (tree, [])) :
    ∀ l ∈ tree.leaves, ∃ rest, Reads l.2 l.1 none rest := by
  obtain ⟨ls, ts, h1, h2, h3, h4, h5⟩ := parseText_main text
  obtain ⟨ls', tree', errors, h1', h', _, _, hl, _⟩ := parseText_tree text
  obtain rfl := h1.unique h1'
  rw [h] at h5 h'
  simp only [Except.ok.injEq, Prod.mk.injEq] at h5 h'
  obtain ⟨rfl, rfl⟩ := h'
  obtain ⟨_, h5⟩ := h5
  have h6 := (List.append_eq_nil_iff.1 h5.symm).2
  intro l hm
  rw [hl, List.mem_map] at hm
  obtain ⟨x, hx, rfl⟩ := hm
  obtain ⟨s, rest, hf⟩ := Lexemes.first_of_mem h1 hx
  refine ⟨rest, (C82_first_token _ _ _ _ hf.word_ne).1 ?_⟩
  have := firstToken_eq hf
  rw [hf.append] at this
  simp only [lxOf]
  rw [this]
  cases he : x.err with
  | none => rfl
  | some m => exact absurd h6 (attach_err 0 ls x hx m he)

private theorem str_reads {w rest : Text} (h : Reads w .str none rest) : ∃ left body right, Delimiters left right ∧
    w = left ++ body ++ right ∧ body.getLast? ≠ some '\\' ∧ unquote w = .ok (some (Text.len left, body)) := by
  cases h with
  | keyword h => exact absurd rfl ((show ∀ p ∈ keywords, p.2 ≠ .str by decide) _ h)
  | operator h => exact absurd rfl ((show ∀ p ∈ operators, p.2 ≠ .str by decide) _ h)
  | @quoted d body _ hd hb hl => exact ⟨[d], body, [d], .quotes d hd, by simp, hl, by simpa using unquote_quoted hd body⟩
  | @long n body _ hb hl => exact ⟨longOpen n, body, longClose n, .brackets n, rfl, hl, unquote_long n body⟩

/-- The two ways to take the delimiters off a string agree. -/
private theorem delimiters_unquote {left body right : Text} (h : Delimiters left right) :
    unquote (left ++ body ++ right) = .ok (some (Text.len left, body)) := by
  cases h with
  | quotes d hd => exact unquote_quoted hd body
  | brackets n => exact unquote_long n body

/-! ### C83 -/

theorem children_eq (r : Red) : r.children = (parts r).filter fun e => e.green.isNode := by
  simp only [Red.children, parts, List.filter_filter]
  congr 1
  funext e
  cases e.green.isNode <;> simp

private theorem parts_children {s m : Red} (h : m ∈ parts s) (hn : m.green.isNode = true) : m ∈ s.children := by
  rw [children_eq]; exact List.mem_filter.2 ⟨h, hn⟩

private theorem multival_part {text : Text} {m x : Red} (h : NodeOf text .multivalExpr m) (hx : x ∈ parts m)
    (hn : x.green.isNode = true) : x.kind ∈ exprKinds := by
  obtain ⟨ss, h1, h2⟩ := production h
  cases h2 with
  | multivalExpr _ h2 =>
    have key : ∀ (ss : List Sym), Separated .comma IsExpr ss → ∀ s ∈ ss, s = .tok .comma ∨ IsExpr s := by
      intro ss h
      induction h with
      | one s h => intro x hx; simp at hx; subst hx; exact .inr h
      | cons s ss h _ ih =>
        intro x hx
        simp at hx
        rcases hx with rfl | rfl | hx
        · exact .inr h
        · exact .inl rfl
        · exact ih x hx
    have := key ss h2 (sym x) (by rw [← h1]; exact List.mem_map_of_mem hx)
    rcases this with h | ⟨k, hk, h⟩
    · rw [sym_tok] at h; rw [h.1] at hn; simp at hn
    · rw [sym_node] at h; rw [h.2]; exact hk

private theorem exprs_red {text : Text} {m : Red} (h : NodeOf text .multivalExpr m) :
    Validation.exprs m.off m.green = ((parts m).filter fun e => e.green.isNode && e.kind != .parenExpr).map redPair := by
  simp only [Validation.exprs, childNodes_red, children_eq]
  rw [List.filter_map, List.filter_filter]
  congr 1
  refine List.filter_congr fun e he => ?_
  cases hn : e.green.isNode with
  | false => simp
  | true =>
    have h1 := multival_part h he hn
    have h2 : ∀ k ∈ exprKinds, isExprKind k = (k != .parenExpr) := by decide
    have := h2 _ h1
    simp only [Red.kind] at this
    simp [redPair, this, Red.kind]

private theorem child_nodeOf {text : Text} {k k' : SyntaxKind} {s m : Red} (h : NodeOf text k s) (hm : m ∈ parts s)
    (hs : sym m = .node k') : NodeOf text k' m := by
  obtain ⟨tree, h1, h2, h3⟩ := h
  obtain ⟨h4, h5⟩ := sym_node.1 hs
  exact ⟨tree, h1, .child h2 (parts_children hm h4), h5⟩

theorem multivals_red (s : Red) :
    multivals s.off s.green = ((parts s).filter fun e => e.green.isNode && e.kind == .multivalExpr).map redPair := by
  simp only [multivals, childNodes_red, children_eq]
  rw [List.filter_map, List.filter_filter]
  congr 1
  refine List.filter_congr fun e he => ?_
  simp [redPair, Red.kind, Bool.and_comm]

private theorem exprStmt_red {text : Text} {s : Red} (h : NodeOf text .exprStmt s) (e : SyntaxError) :
    e ∈ exprStmt s.off s.green ↔ ∃ m, parts s = [m] ∧ (
      (∃ x ∈ parts m, x.green.isNode = true ∧ isCallKind x.kind = false ∧ x.kind ≠ .parenExpr ∧
        e = ⟨"Expression statements can only be call expressions", x.range⟩) ∨
      ((∀ x ∈ parts m, isCallKind x.kind = false) ∧ e = ⟨"Expected a call expression", s.range⟩) ∨
      ∃ n, (parts m).countP (fun x => isCallKind x.kind) = n ∧ 2 ≤ n ∧
        e = ⟨"Expected only one call expression, got " ++ toString n, s.range⟩) := by
  obtain ⟨ss, h1, h2⟩ := production h
  cases h2
  obtain ⟨m, hp, hm⟩ := map1 h1
  have hmo : NodeOf text .multivalExpr m := child_nodeOf h (by rw [hp]; simp) hm
  have hmm := sym_node.1 hm
  have e1 : multivals s.off s.green = [redPair m] := by
    rw [multivals_red, hp]; simp [hmm.1, hmm.2]
  have e2 := exprs_red hmo
  have tok : ∀ x ∈ parts m, isCallKind x.kind = true → (x.green.isNode && x.kind != .parenExpr) = true := by
    intro x hx hc
    cases hn : x.green.isNode with
    | true =>
      have : ∀ k, isCallKind k = true → (k != .parenExpr) = true := by intro k; cases k <;> decide
      simp [this _ hc]
    | false =>
      obtain ⟨ss, h1, h2⟩ := production hmo
      cases h2 with
      | multivalExpr _ h2 =>
        have key : ∀ (ss : List Sym), Separated .comma IsExpr ss → ∀ k, Sym.tok k ∈ ss → k = .comma := by
          intro ss h
          induction h with
          | one s h => intro k hk; simp at hk; subst hk; obtain ⟨_, _, h⟩ := h; simp at h
          | cons s ss h _ ih =>
            intro k hk
            simp at hk
            rcases hk with rfl | rfl | hk
            · obtain ⟨_, _, h⟩ := h; simp at h
            · rfl
            · exact ih k hk
        have := key ss h2 x.kind (by rw [← h1]; exact List.mem_map.2 ⟨x, hx, sym_tok.2 ⟨hn, rfl⟩⟩)
        rw [this] at hc
        exact absurd hc (by decide)
  have e3 : ((Validation.exprs m.off m.green).filter fun e => isCall e.2.kind).length = (parts m).countP fun x => isCallKind x.kind := by
    rw [e2, List.filter_map, List.length_map, List.filter_filter, List.countP_eq_length_filter]
    congr 1
    refine List.filter_congr fun x hx => ?_
    show (isCallKind x.kind && _) = isCallKind x.kind
    cases hc : isCallKind x.kind with
    | false => rfl
    | true => rw [tok x hx hc]; rfl
  simp only [exprStmt, e1, redPair]
  have e3' : ((Validation.exprs (m.off, m.green).1 (m.off, m.green).2).filter fun e => isCall e.2.kind).length = _ := e3
  simp only at e3'
  rw [e3']
  simp only [List.mem_append, e2]
  have hcnt : (parts m).countP (fun x => isCallKind x.kind) = 0 ↔ ∀ x ∈ parts m, isCallKind x.kind = false := by
    rw [List.countP_eq_zero]; simp
  constructor
  · rintro ((hb | hz) | hg)
    · rw [List.mem_map] at hb
      obtain ⟨x, hx, rfl⟩ := hb
      rw [List.mem_filter, List.mem_map] at hx
      obtain ⟨⟨y, hy, rfl⟩, hx⟩ := hx
      rw [List.mem_filter] at hy
      simp only [Bool.and_eq_true, bne_iff_ne, ne_eq] at hy
      exact ⟨m, hp, .inl ⟨y, hy.1, hy.2.1, by simpa [isCallKind, isCall, redPair, Red.kind] using hx, hy.2.2, rfl⟩⟩
    · split at hz
      · rename_i h0
        exact ⟨m, hp, .inr (.inl ⟨hcnt.1 h0, by simpa [Red.range] using hz⟩)⟩
      · simp at hz
    · split at hg
      · rename_i h0
        exact ⟨m, hp, .inr (.inr ⟨_, rfl, h0, by simpa [Red.range] using hg⟩)⟩
      · simp at hg
  · rintro ⟨m', hp', hx⟩
    rw [hp] at hp'
    simp only [List.cons.injEq, and_true] at hp'
    subst hp'
    rcases hx with ⟨x, hx, hn, hc, hpar, rfl⟩ | ⟨h0, rfl⟩ | ⟨n, hn, h2, rfl⟩
    · refine .inl (.inl (List.mem_map.2 ⟨redPair x, List.mem_filter.2 ⟨List.mem_map.2 ⟨x, List.mem_filter.2 ⟨hx, ?_⟩, rfl⟩, ?_⟩, rfl⟩))
      · simp [hn, hpar]
      · simpa [isCallKind, isCall, redPair, Red.kind] using hc
    · refine .inl (.inr ?_)
      rw [if_pos (hcnt.2 h0)]; simp [Red.range]
    · refine .inr ?_
      rw [hn, if_pos (show n > 1 from h2)]; simp [Red.range]

private theorem assignStmt_red {text : Text} {s : Red} (h : NodeOf text .assignStmt s) (e : SyntaxError) :
    e ∈ assignStmt s.off s.green ↔ ∃ l q r, parts s = [l, q, r] ∧ ∃ x ∈ parts l, x.green.isNode = true ∧
      x.kind ∉ [SyntaxKind.nameRef, .dotExpr, .indexExpr, .parenExpr] ∧
      e = ⟨"Can only assign name reference or index expression", x.range⟩ := by
  obtain ⟨ss, h1, h2⟩ := production h
  cases h2
  obtain ⟨l, q, r, hp, hl, hq, hr⟩ := map3 h1
  have hlo : NodeOf text .multivalExpr l := child_nodeOf h (by rw [hp]; simp) hl
  have e1 : multivals s.off s.green = [redPair l, redPair r] := by
    rw [multivals_red, hp]
    simp [(sym_node.1 hl).1, (sym_node.1 hl).2, (sym_node.1 hr).1, (sym_node.1 hr).2, (sym_tok.1 hq).1]
  simp only [assignStmt, e1, redPair]
  simp only [exprs_red hlo]
  have hk : ∀ k : SyntaxKind, (!(k == .dotExpr || k == .indexExpr || k == .nameRef)) = true ∧ k ≠ .parenExpr ↔
      k ∉ [SyntaxKind.nameRef, .dotExpr, .indexExpr, .parenExpr] := by
    intro k
    simp only [Bool.not_eq_true', Bool.or_eq_false_iff, beq_eq_false_iff_ne, List.mem_cons, List.not_mem_nil, or_false,
      not_or]
    constructor
    · rintro ⟨⟨⟨a, b⟩, c⟩, d⟩; exact ⟨c, a, b, d⟩
    · rintro ⟨c, a, b, d⟩; exact ⟨⟨⟨a, b⟩, c⟩, d⟩
  constructor
  · intro hb
    rw [List.mem_map] at hb
    obtain ⟨x, hx, rfl⟩ := hb
    rw [List.mem_filter, List.mem_map] at hx
    obtain ⟨⟨y, hy, rfl⟩, hx⟩ := hx
    rw [List.mem_filter] at hy
    simp only [Bool.and_eq_true, bne_iff_ne, ne_eq] at hy
    exact ⟨l, q, r, hp, y, hy.1, hy.2.1, (hk y.kind).1 ⟨hx, hy.2.2⟩, rfl⟩
  · rintro ⟨l', q', r', hp', x, hx, hn, hkx, rfl⟩
    rw [hp] at hp'
    simp only [List.cons.injEq, and_true] at hp'
    obtain ⟨rfl, rfl, rfl⟩ := hp'
    have := (hk x.kind).2 hkx
    refine List.mem_map.2 ⟨redPair x, List.mem_filter.2 ⟨List.mem_map.2 ⟨x, List.mem_filter.2 ⟨hx, ?_⟩, rfl⟩, this.1⟩, rfl⟩
    simp [hn, this.2]

private theorem literal_red {text : Text} {tree : Green} (h : parseText text = .ok (tree, [])) {r : Red}
    (hr : Below (Red.root tree) r) (hk : r.kind = .literal) (hmem : (r.off, r.green) ∈ tree.nodes 0) (es : List SyntaxError)
    (hes : literal r.off r.green = .ok es) (e : SyntaxError) :
    e ∈ es ↔ ∃ t left p c q right, parts r = [t] ∧ t.kind = .str ∧ Delimiters left right ∧
      t.green.text = left ++ (p ++ '\\' :: c :: q) ++ right ∧ Whole p ∧ c ∉ escapeChars ∧
      e = ⟨"Invalid escape sequence",
        ⟨t.off + Text.len left + Text.len p, t.off + Text.len left + Text.len p + Text.len ['\\', c]⟩⟩ := by
  obtain ⟨ls, tree', errors, _, h', hlit, _⟩ := parseText_tree text
  rw [h] at h'
  simp only [Except.ok.injEq, Prod.mk.injEq] at h'
  obtain ⟨rfl, rfl⟩ := h'
  obtain ⟨⟨k, w⟩, hg, hlk, hlv⟩ := litOk_nodes hlit hmem hk
  obtain ⟨rest, hread⟩ := leaf_reads h _ hlv
  simp only at hlk hread
  obtain ⟨path, off, g⟩ := r
  simp only at hg hes
  subst hg
  have hnt : k.isTrivia = false := (show ∀ k ∈ Lua.literalKinds, k.isTrivia = false by decide) _ hlk
  have hparts : parts ⟨path, off, .node .literal [leaf (k, w)]⟩ = [⟨path ++ [0], off, .token k w⟩] := by
    simp [parts, Red.elems, Green.children, Red.elemsFrom, leaf, Green.isNode, Red.kind, Green.kind, hnt]
  rw [hparts]
  simp only [literal, Green.children, Green.withOffsets, leaf, List.find?, Green.kind, hnt, Bool.not_false] at hes
  by_cases hs : k = .str
  · subst hs
    obtain ⟨left, body, right, hd, hw, hl, hu⟩ := str_reads hread
    simp only [literalToken, if_true, hu, Except.ok.injEq] at hes
    subst hes
    have := unescape_bad (off + Text.len left) e body.length [] body rfl
    simp only [Text.len_nil, Nat.zero_add, Nat.add_zero] at this
    rw [this]
    constructor
    · rintro (⟨p, c, q, h1, h2, h3, h4⟩ | ⟨p, h1, -⟩)
      · exact ⟨_, left, p, c, q, right, rfl, rfl, hd, by rw [← h1]; exact hw, h2, h3, h4⟩
      · rw [h1] at hl; simp at hl
    · rintro ⟨t, left', p, c, q, right', ht, -, hd', htext, h2, h3, h4⟩
      simp only [List.cons.injEq, and_true] at ht
      subst ht
      have htext : w = left' ++ (p ++ '\\' :: c :: q) ++ right' := htext
      have hu' := delimiters_unquote (body := p ++ '\\' :: c :: q) hd'
      rw [← htext, hu] at hu'
      simp only [Except.ok.injEq, Option.some.injEq, Prod.mk.injEq] at hu'
      obtain ⟨e1, rfl⟩ := hu'
      rw [e1]
      exact .inl ⟨p, c, q, rfl, h2, h3, h4⟩
  · have he : es = [] := by
      simp only [literalToken, hs, if_false] at hes
      split at hes
      · simpa using hes.symm
      · simp at hes
    subst he
    constructor
    · intro h; simp at h
    · rintro ⟨t, left', p, c, q, right', ht, hk, -⟩
      simp only [List.cons.injEq, and_true] at ht
      subst ht
      exact absurd hk hs

/-- **C83**: for a file without lexical and syntax errors, `SourceFile::parse` reports a message at a range exactly if
there is reason to complain. -/
theorem C83_validation (text : Text) (tree : Green) (h : parseText text = .ok (tree, [])) :
    ∃ errors, sourceFileParse text = .ok (tree, errors) ∧ ∀ e, e ∈ errors ↔ Complaint text e.msg e.range := by
  obtain ⟨tree', errors', more, h7, h8, h9, h10⟩ := sourceFileParse_eq text
  rw [h] at h7
  simp only [Except.ok.injEq, Prod.mk.injEq] at h7
  obtain ⟨rfl, rfl⟩ := h7
  rw [List.nil_append] at h8
  have hroot : (Red.root tree).green.isNode = true := by
    obtain ⟨ls, ts, -, -, -, -, h5⟩ := parseText_main text
    rw [h5] at h
    simp only [Except.ok.injEq, Prod.mk.injEq] at h
    rw [← h.1]; rfl
  have hn := nodes_red (Red.root tree) hroot
  have tot : ∀ r, Below (Red.root tree) r → ∃ es, validateNode r.off r.green = .ok es := by
    intro r hr
    obtain ⟨ls, tree', errors', h1, h2, h3, -, h4, -⟩ := parseText_tree text
    rw [h] at h2
    simp only [Except.ok.injEq, Prod.mk.injEq] at h2
    obtain ⟨rfl, rfl⟩ := h2
    exact validateNode_total h1 h3 h4 _ ((hn _).2 ⟨r, hr, rfl⟩)
  refine ⟨more, h8, fun e => ⟨fun he => ?_, fun hc => ?_⟩⟩
  · obtain ⟨x, hx, es, hes, he⟩ := h9 e he
    obtain ⟨r, hr, rfl⟩ := (hn x).1 hx
    simp only [redPair] at hes hx
    have hne : NodeOf text r.kind r := ⟨tree, h, hr, rfl⟩
    unfold validateNode at hes
    by_cases k1 : r.green.kind = .exprStmt
    · rw [if_pos k1, Except.ok.injEq] at hes
      have hno : NodeOf text .exprStmt r := ⟨tree, h, hr, k1⟩
      obtain ⟨m, hp, hx⟩ := (exprStmt_red hno e).1 (hes ▸ he)
      rcases hx with ⟨x, a, b, c, d, rfl⟩ | ⟨a, rfl⟩ | ⟨n, a, b, rfl⟩
      · exact .notCall hno hp a b c d
      · exact .noCall hno hp a
      · exact .calls hno hp a b
    rw [if_neg k1] at hes
    by_cases k2 : r.green.kind = .literal
    · rw [if_pos k2] at hes
      obtain ⟨t, left, p, c, q, right, a1, a2, a3, a4, a5, a6, rfl⟩ := (literal_red h hr k2 hx es hes e).1 he
      exact .escape ⟨tree, h, hr, k2⟩ a1 a2 a3 a4 a5 a6
    rw [if_neg k2] at hes
    by_cases k3 : r.green.kind = .assignStmt
    · rw [if_pos k3, Except.ok.injEq] at hes
      have hno : NodeOf text .assignStmt r := ⟨tree, h, hr, k3⟩
      obtain ⟨l, q, r', hp, x, a, b, c, rfl⟩ := (assignStmt_red hno e).1 (hes ▸ he)
      exact .target hno hp a b c
    · rw [if_neg k3, Except.ok.injEq] at hes
      rw [← hes] at he; simp at he
  · have step : ∀ r, NodeOf text r.kind r → ∀ es, validateNode r.off r.green = .ok es → e ∈ es → e ∈ more := by
      rintro r ⟨tree', h', hr, -⟩ es hes he
      rw [h] at h'
      simp only [Except.ok.injEq, Prod.mk.injEq, and_true] at h'
      subst h'
      exact h10 _ ((hn _).2 ⟨r, hr, rfl⟩) es hes e he
    obtain ⟨msg, range⟩ := e
    simp only at hc
    cases hc with
    | @notCall s m x hs hp hx a b c =>
      have hk : s.green.kind = .exprStmt := hs.choose_spec.2.2
      refine step s (by rw [show s.kind = .exprStmt from hk]; exact hs) (exprStmt s.off s.green) (by unfold validateNode; rw [if_pos hk]) ?_
      exact (exprStmt_red hs _).2 ⟨_, hp, .inl ⟨_, hx, a, b, c, rfl⟩⟩
    | @noCall s m hs hp a =>
      have hk : s.green.kind = .exprStmt := hs.choose_spec.2.2
      refine step s (by rw [show s.kind = .exprStmt from hk]; exact hs) (exprStmt s.off s.green) (by unfold validateNode; rw [if_pos hk]) ?_
      exact (exprStmt_red hs _).2 ⟨_, hp, .inr (.inl ⟨a, rfl⟩)⟩
    | @calls s m n hs hp a b =>
      have hk : s.green.kind = .exprStmt := hs.choose_spec.2.2
      refine step s (by rw [show s.kind = .exprStmt from hk]; exact hs) (exprStmt s.off s.green) (by unfold validateNode; rw [if_pos hk]) ?_
      exact (exprStmt_red hs _).2 ⟨_, hp, .inr (.inr ⟨_, a, b, rfl⟩)⟩
    | @target s l q r x hs hp a b c =>
      have hk := hs.choose_spec.2.2
      refine step _ (hk ▸ hs) (assignStmt s.off s.green) ?_ ?_
      · have hk' : s.green.kind = .assignStmt := hk
        unfold validateNode; rw [if_neg (by rw [hk']; decide), if_neg (by rw [hk']; decide), if_pos hk']
      · exact (assignStmt_red hs _).2 ⟨_, _, _, hp, _, a, b, c, rfl⟩
    | @escape r t left p q right c hs a1 a2 a3 a4 a5 a6 =>
      obtain ⟨tree', h', hr, hk⟩ := hs
      rw [h] at h'
      simp only [Except.ok.injEq, Prod.mk.injEq, and_true] at h'
      subst h'
      have hk' : r.green.kind = .literal := hk
      have hmem := (hn (redPair r)).2 ⟨r, hr, rfl⟩
      obtain ⟨es, hes⟩ := tot r hr
      refine step r ⟨tree, h, hr, rfl⟩ es hes ?_
      unfold validateNode at hes
      rw [if_neg (by rw [hk']; decide), if_pos hk'] at hes
      exact (literal_red h hr hk hmem es hes _).2 ⟨t, left, p, c, q, right, a1, a2, a3, a4, a5, a6, rfl⟩

/-- **C83**: `SourceFile::parse` accepts a file without lexical and syntax errors exactly if there is no reason to
complain. -/
theorem C83_accepts (text : Text) (tree : Green) (h : parseText text = .ok (tree, [])) :
    sourceFileParse text = .ok (tree, []) ↔ ∀ msg range, ¬ Complaint text msg range := by
  obtain ⟨errors, h1, h2⟩ := C83_validation text tree h
  rw [h1]
  simp only [Except.ok.injEq, Prod.mk.injEq, true_and]
  constructor
  · rintro rfl msg range hc
    have := (h2 ⟨msg, range⟩).2 hc
    simp at this
  · intro hn
    cases errors with
    | nil => rfl
    | cons e es => exact absurd ((h2 e).1 (by simp)) (hn _ _)

/-! ### examples -/

/-- the tree of `a.b`, `f()=1`, `g(),h()` and `x='\q'` on four lines -/
private def wrongs : Green :=

  .node .sourceFile [.node .block [.node .exprStmt [.node .multivalExpr [.node .dotExpr [.node .nameRef [.token .ident "a".toList],
  .token .dot ".".toList, .token .ident "b".toList]]], .token .whitespace "\n".toList,
  .node .assignStmt [.node .multivalExpr [.node .callExpr [.node .nameRef [.token .ident "f".toList],
  .node .callArgs [.node .argList [.token .lParen "(".toList, .token .rParen ")".toList]]]], .token .eq "=".toList,
  .node .multivalExpr [.node .literal [.token .number "1".toList]]], .token .whitespace "\n".toList,
  .node .exprStmt [.node .multivalExpr [.node .callExpr [.node .nameRef [.token .ident "g".toList],
  .node .callArgs [.node .argList [.token .lParen "(".toList, .token .rParen ")".toList]]],
  .token .comma ",".toList, .node .callExpr [.node .nameRef [.token .ident "h".toList],
  .node .callArgs [.node .argList [.token .lParen "(".toList, .token .rParen ")".toList]]]]],
  .token .whitespace "\n".toList,
  .node .assignStmt [.node .multivalExpr [.node .nameRef [.token .ident "x".toList]], .token .eq "=".toList,
  .node .multivalExpr [.node .literal [.token .str "'\\q'".toList]]]]]

private def wrongsText : Text := "a.b\nf()=1\ng(),h()\nx='\\q'".toList

private theorem wrongs_parse : parseText wrongsText = .ok (wrongs, []) := by
  rw [parseText_eq_eval]; decide +kernel

private theorem wrongs_errors : sourceFileParse wrongsText = .ok (wrongs, [
    ⟨"Expression statements can only be call expressions", ⟨0, 3⟩⟩, ⟨"Expected a call expression", ⟨0, 3⟩⟩,
    ⟨"Can only assign name reference or index expression", ⟨4, 7⟩⟩,
    ⟨"Expected only one call expression, got 2", ⟨10, 17⟩⟩, ⟨"Invalid escape sequence", ⟨21, 23⟩⟩]) := by
  rw [sourceFileParse_eq_eval]; decide +kernel

/-- There are complaints of all five kinds. -/
example : Complaint wrongsText "Expression statements can only be call expressions" ⟨0, 3⟩ ∧
    Complaint wrongsText "Expected a call expression" ⟨0, 3⟩ ∧
    Complaint wrongsText "Can only assign name reference or index expression" ⟨4, 7⟩ ∧
    Complaint wrongsText "Expected only one call expression, got 2" ⟨10, 17⟩ ∧
    Complaint wrongsText "Invalid escape sequence" ⟨21, 23⟩ ∧
    ¬ Complaint wrongsText "Expected a call expression" ⟨10, 17⟩ := by
  obtain ⟨errors, h1, h2⟩ := C83_validation _ _ wrongs_parse
  rw [wrongs_errors] at h1
  simp only [Except.ok.injEq, Prod.mk.injEq, true_and] at h1
  subst h1
  refine ⟨(h2 ⟨_, _⟩).1 (by simp), (h2 ⟨_, _⟩).1 (by simp), (h2 ⟨_, _⟩).1 (by simp), (h2 ⟨_, _⟩).1 (by simp),
    (h2 ⟨_, _⟩).1 (by simp), fun hc => ?_⟩
  exact absurd ((h2 ⟨_, _⟩).2 hc) (by decide)

/-- the tree of `(a+b)=1 f((1))(2)` -/
private def rights : Green :=

  .node .sourceFile [.node .block [.node .assignStmt [.node .multivalExpr [.node .parenExpr [.token .lParen "(".toList,
  .node .infixExpr [.node .nameRef [.token .ident "a".toList], .token .plus "+".toList,
  .node .nameRef [.token .ident "b".toList]], .token .rParen ")".toList]], .token .eq "=".toList,
  .node .multivalExpr [.node .literal [.token .number "1".toList]]], .token .whitespace " ".toList,
  .node .exprStmt [.node .multivalExpr [.node .callExpr [.node .callExpr [.node .nameRef [.token .ident "f".toList],
  .node .callArgs [.node .argList [.token .lParen "(".toList,
  .node .multivalExpr [.node .parenExpr [.token .lParen "(".toList, .node .literal [.token .number "1".toList],
  .token .rParen ")".toList]], .token .rParen ")".toList]]],
  .node .callArgs [.node .argList [.token .lParen "(".toList,
  .node .multivalExpr [.node .literal [.token .number "2".toList]], .token .rParen ")".toList]]]]]]]

private def rightsText : Text := "(a+b)=1 f((1))(2)".toList

/-- Parentheses are overlooked: there is nothing to complain about the assignment `(a+b)=1`. -/
example : ∀ msg range, ¬ Complaint rightsText msg range := by
  refine (C83_accepts rightsText rights ?_).1 ?_
  · rw [parseText_eq_eval]; decide +kernel
  · rw [sourceFileParse_eq_eval]; decide +kernel

end Verif
