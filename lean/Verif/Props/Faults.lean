import Verif.Spec.Faults
import Verif.Props.Complaints

/-
C111: what validation reports, for every file.
-/
namespace Verif
open Lexer Lua Spec Validation

/-- the end of `unquote` (validation.rs:156-164) -/
private def backOf (t3 : Text) : Option Text :=
  if t3.getLast? = some ']' then
    (t3.sliceTo (t3.len - 1)).bind fun t4 =>
    let backEquals := (t4.reverse.takeWhile (· == '=')).length
    (t4.sliceTo (t4.len - backEquals)).bind fun t5 =>
    if t5.getLast? = some ']' then t5.sliceTo (t5.len - 1) else some t5
  else some t3

private theorem sliceTo_snoc (t : Text) (c : Char) (hc : c.utf8Size = 1) :
    Text.sliceTo (Text.len (t ++ [c]) - 1) (t ++ [c]) = some t := by
  have := Text.sliceTo_append t [c]
  rw [← this]
  congr 1
  simp [Text.len_cons, hc]

private theorem reverse_run {t : Text} (m : Nat) (h : t.getLast? ≠ some '=') :
    ((t ++ List.replicate m '=').reverse.takeWhile (· == '=')).length = m := by
  rw [List.reverse_append, List.reverse_replicate]
  rw [(dropWhile_append_of_head ?_).2]
  · simp [List.takeWhile_replicate]
  · cases hr : t.reverse with
    | nil => rfl
    | cons x xs =>
      have : t.getLast? = some x := by
        rw [← List.head?_reverse, hr]; rfl
      rw [this] at h
      simp only [ne_eq, Option.some.injEq] at h
      simpa using h

private theorem sliceTo_run (t : Text) (m : Nat) :
    Text.sliceTo (Text.len (t ++ List.replicate m '=') - m) (t ++ List.replicate m '=') = some t := by
  have := Text.sliceTo_append t (List.replicate m '=')
  rw [← this]
  congr 1
  simp [len_replicate_eq]

private theorem closing_back {t u : Text} (h : Closing t u) : backOf t = some u := by
  cases h with
  | none h => unfold backOf; rw [if_neg h]
  | @full _ m =>
    have e : u ++ longClose m = (u ++ [']'] ++ List.replicate m '=') ++ [']'] := by simp [longClose]
    rw [e]
    unfold backOf
    rw [if_pos (getLast_snoc _ _), sliceTo_snoc _ _ rfl]
    simp only [Option.bind_some]
    rw [reverse_run m (by rw [getLast_snoc]; decide), sliceTo_run]
    simp only [Option.bind_some]
    rw [if_pos (getLast_snoc _ _), sliceTo_snoc _ _ rfl]
  | @half _ m h1 h2 =>
    have e : u ++ (List.replicate m '=' ++ [']']) = (u ++ List.replicate m '=') ++ [']'] := by simp
    rw [e]
    unfold backOf
    rw [if_pos (getLast_snoc _ _), sliceTo_snoc _ _ rfl]
    simp only [Option.bind_some]
    rw [reverse_run m h1, sliceTo_run]
    simp only [Option.bind_some]
    rw [if_neg h2]

private theorem closing_exists (t : Text) : ∃ u, Closing t u := by
  by_cases h : t.getLast? = some ']'
  · obtain ⟨a, rfl⟩ := List.getLast?_eq_some_iff.1 h
    -- the equals signs at the end
    have key : ∀ n (a : Text), a.length = n → ∃ b m, a = b ++ List.replicate m '=' ∧ b.getLast? ≠ some '=' := by
      intro n
      induction n with
      | zero => intro a ha; exact ⟨[], 0, by simpa using ha, by simp⟩
      | succ n ih =>
        intro a ha
        by_cases hl : a.getLast? = some '='
        · obtain ⟨a', rfl⟩ := List.getLast?_eq_some_iff.1 hl
          obtain ⟨b, m, hb, h'⟩ := ih a' (by simpa using ha)
          refine ⟨b, m + 1, ?_, h'⟩
          rw [hb, List.replicate_succ', List.append_assoc]
        · exact ⟨a, 0, by simp, hl⟩
    obtain ⟨b, m, rfl, hb⟩ := key _ a rfl
    by_cases h2 : b.getLast? = some ']'
    · obtain ⟨c, rfl⟩ := List.getLast?_eq_some_iff.1 h2
      refine ⟨c, ?_⟩
      have e : (c ++ [']'] ++ List.replicate m '=') ++ [']'] = c ++ longClose m := by simp [longClose]
      rw [e]; exact .full
    · refine ⟨b, ?_⟩
      rw [List.append_assoc]
      exact .half hb h2
  · exact ⟨t, .none h⟩

private theorem unquote_open {n : Nat} {r t : Text} (he : r.head? ≠ some '=')
    (ht : (r = '[' :: t) ∨ (r = t ∧ r.head? ≠ some '[')) {u : Text} (hc : Closing t u) :
    unquote ('[' :: (List.replicate n '=' ++ r)) = .ok (some (2 + n, u)) := by
  unfold unquote
  have c1 : ¬ ('[' = '\'' ∨ '[' = '"') := by decide
  simp only [if_neg c1, if_true]
  have s1 : Text.sliceFrom 1 ('[' :: (List.replicate n '=' ++ r)) = some (List.replicate n '=' ++ r) :=
    Text.sliceFrom_append ['['] _
  rw [s1]
  have t1 : (List.replicate n '=' ++ r).takeWhile (· == '=') = List.replicate n '=' := by
    rw [(dropWhile_append_of_head ?_).2]
    · simp [List.takeWhile_replicate]
    · cases r with
      | nil => rfl
      | cons x xs => simpa using he
  simp only [t1, List.length_replicate]
  have s2 : Text.sliceFrom n (List.replicate n '=' ++ r) = some r := by
    have := Text.sliceFrom_append (List.replicate n '=') r
    rwa [len_replicate_eq] at this
  rw [s2]
  have s3 : (if r.head? = some '[' then Text.sliceFrom 1 r else some r) = some t := by
    rcases ht with rfl | ⟨rfl, h⟩
    · rw [if_pos (by simp)]; exact Text.sliceFrom_append ['['] _
    · rw [if_neg h]
  simp only
  rw [s3]
  have := closing_back hc
  unfold backOf at this
  simp only at this ⊢
  rw [this]

theorem contents_unquote {w u : Text} {n : Nat} (h : Contents w n u) : unquote w = .ok (some (n, u)) := by
  cases h with
  | @quoted d _ hd =>
    have := unquote_quoted hd u
    rwa [show Text.len [d] = 1 by simp [utf8Size_ascii d (by rcases hd with rfl | rfl <;> decide)]] at this
  | @long n t _ hc =>
    have : longOpen n ++ t = '[' :: (List.replicate n '=' ++ '[' :: t) := by simp [longOpen]
    rw [this]
    exact unquote_open (by simp) (.inl rfl) hc
  | @halfOpen n t _ h1 h2 hc => exact unquote_open h2 (.inr ⟨rfl, h1⟩) hc

theorem contents_iff {c : Char} {w : Text} (hc : c = '\'' ∨ c = '"' ∨ c = '[') (n : Nat) (u : Text) :
    unquote (c :: w) = .ok (some (n, u)) ↔ Contents (c :: w) n u := by
  refine ⟨fun h => ?_, contents_unquote⟩
  have key : ∃ n u, Contents (c :: w) n u := by
    by_cases hq : c = '\'' ∨ c = '"'
    · have h' := h
      unfold unquote at h'
      simp only [hq, if_true] at h'
      split at h'
      · simp at h'
      · rename_i hn
        have hl : (c :: w).getLast? = some c := Classical.byContradiction fun hl => hn (.inl hl)
        have h1 : Text.len (c :: w) ≠ 1 := fun h1 => hn (.inr h1)
        have hs : c.utf8Size = 1 := utf8Size_ascii c (by rcases hq with rfl | rfl <;> decide)
        cases w with
        | nil => simp [hs] at h1
        | cons x xs =>
          rw [List.getLast?_cons_cons] at hl
          obtain ⟨ys, e⟩ := List.getLast?_eq_some_iff.1 hl
          rw [e]
          exact ⟨_, _, Contents.quoted (u := ys) hq⟩
    · have hb : c = '[' := by rcases hc with h | h | h <;> simp_all
      subst hb
      have hrun : w = List.replicate ((w.takeWhile (· == '=')).length) '=' ++ w.dropWhile (· == '=') := by
        conv => lhs; rw [← List.takeWhile_append_dropWhile (p := (· == '=')) (l := w)]
        congr 1
        refine List.eq_replicate_iff.2 ⟨rfl, fun x hx => ?_⟩
        have := (List.all_eq_true.mp (List.all_takeWhile (p := (· == '=')) (l := w))) x hx
        simpa using this
      have hd : (w.dropWhile (· == '=')).head? ≠ some '=' := by
        intro h
        have := List.head?_dropWhile_not (· == '=') w
        rw [h] at this
        simp at this
      rw [hrun]
      generalize w.dropWhile (· == '=') = r at hd
      by_cases hr : r.head? = some '['
      · cases r with
        | nil => simp at hr
        | cons x xs =>
          simp only [List.head?_cons, Option.some.injEq] at hr
          subst hr
          obtain ⟨u, hu⟩ := closing_exists xs
          have := Contents.long (n := (w.takeWhile (· == '=')).length) hu
          exact ⟨_, u, by simpa [longOpen] using this⟩
      · obtain ⟨u, hu⟩ := closing_exists r
        exact ⟨_, u, .halfOpen hr hd hu⟩
  obtain ⟨n', u', hk⟩ := key
  have := contents_unquote hk
  rw [h] at this
  simp only [Except.ok.injEq, Option.some.injEq, Prod.mk.injEq] at this
  obtain ⟨rfl, rfl⟩ := this
  exact hk

/-! ### statements -/

theorem filter_first {s : Red} {k : SyntaxKind} :
    (s.children.filter fun e => e.kind == k) = [] ↔ ∀ m ∈ s.children, m.kind ≠ k := by
  simp [List.filter_eq_nil_iff]

theorem firstChild_filter {s m : Red} {k : SyntaxKind} :
    FirstChild k s m ↔ (s.children.filter fun e => e.kind == k).head? = some m := by
  rw [List.head?_filter, List.find?_eq_some_iff_append]
  constructor
  · rintro ⟨b, a, h1, h2, h3⟩
    exact ⟨by simpa using h2, b, a, h1, fun x hx => by simpa using h3 x hx⟩
  · rintro ⟨h2, b, a, h1, h3⟩
    exact ⟨b, a, h1, by simpa using h2, fun x hx => by simpa using h3 x hx⟩

theorem multivals_children (s : Red) :
    multivals s.off s.green = (s.children.filter fun e => e.kind == .multivalExpr).map redPair := by
  simp only [multivals, childNodes_red]
  rw [List.filter_map]
  rfl

theorem exprs_children (m : Red) :
    Validation.exprs m.off m.green = (m.children.filter fun e => isExprKind e.kind).map redPair := by
  simp only [Validation.exprs, childNodes_red]
  rw [List.filter_map]
  rfl

theorem exprKind_iff (k : SyntaxKind) : isExprKind k = true ↔ k ∈ exprKinds ∧ k ≠ .parenExpr := by
  cases k <;> decide

theorem call_expr (k : SyntaxKind) (h : isCallKind k = true) : isExprKind k = true := by
  revert h; cases k <;> decide

/-- What is wrong with an expression statement. -/
private theorem exprStmt_faults (s : Red) (e : SyntaxError) : e ∈ exprStmt s.off s.green ↔
    ((∀ m ∈ s.children, m.kind ≠ .multivalExpr) ∧ e = ⟨"Must have an expression", s.range⟩) ∨
    ∃ m, FirstChild .multivalExpr s m ∧ (
      (∃ x ∈ m.children, x.kind ∈ exprKinds ∧ isCallKind x.kind = false ∧ x.kind ≠ .parenExpr ∧
        e = ⟨"Expression statements can only be call expressions", x.range⟩) ∨
      ((∀ x ∈ m.children, isCallKind x.kind = false) ∧ e = ⟨"Expected a call expression", s.range⟩) ∨
      ∃ n, m.children.countP (fun x => isCallKind x.kind) = n ∧ 2 ≤ n ∧
        e = ⟨"Expected only one call expression, got " ++ toString n, s.range⟩) := by
  simp only [exprStmt, multivals_children, ← filter_first, firstChild_filter]
  cases hf : s.children.filter fun e => e.kind == .multivalExpr with
  | nil => simp [Red.range]
  | cons m ms =>
    have e2 := exprs_children m
    have e3 : ((Validation.exprs m.off m.green).filter fun e => isCall e.2.kind).length =
        m.children.countP fun x => isCallKind x.kind := by
      rw [e2, List.filter_map, List.length_map, List.filter_filter, List.countP_eq_length_filter]
      congr 1
      refine List.filter_congr fun x hx => ?_
      show (isCallKind x.kind && _) = isCallKind x.kind
      cases hc : isCallKind x.kind with
      | false => rfl
      | true => rw [call_expr _ hc]; rfl
    have hcnt : m.children.countP (fun x => isCallKind x.kind) = 0 ↔ ∀ x ∈ m.children, isCallKind x.kind = false := by
      rw [List.countP_eq_zero]; simp
    simp only [List.map_cons, redPair, e3, List.head?_cons, Option.some.injEq]
    simp only [e2, List.mem_append, reduceCtorEq, false_and, false_or]
    constructor
    · rintro ((hb | hz) | hg)
      · rw [List.mem_map] at hb
        obtain ⟨x, hx, rfl⟩ := hb
        rw [List.mem_filter, List.mem_map] at hx
        obtain ⟨⟨y, hy, rfl⟩, hx⟩ := hx
        rw [List.mem_filter] at hy
        have hk := (exprKind_iff _).1 hy.2
        exact ⟨m, rfl, .inl ⟨y, hy.1, hk.1, by simpa [isCallKind, isCall, redPair, Red.kind] using hx, hk.2, rfl⟩⟩
      · split at hz
        · rename_i h0
          exact ⟨m, rfl, .inr (.inl ⟨hcnt.1 h0, by simpa [Red.range] using hz⟩)⟩
        · simp at hz
      · split at hg
        · rename_i h0
          exact ⟨m, rfl, .inr (.inr ⟨_, rfl, h0, by simpa [Red.range] using hg⟩)⟩
        · simp at hg
    · rintro ⟨m', rfl, hx⟩
      rcases hx with ⟨x, hx, hk, hc, hpar, rfl⟩ | ⟨h0, rfl⟩ | ⟨n, hn, h2, rfl⟩
      · refine .inl (.inl (List.mem_map.2 ⟨redPair x,
          List.mem_filter.2 ⟨List.mem_map.2 ⟨x, List.mem_filter.2 ⟨hx, (exprKind_iff _).2 ⟨hk, hpar⟩⟩, rfl⟩, ?_⟩, rfl⟩))
        simpa [isCallKind, isCall, redPair, Red.kind] using hc
      · refine .inl (.inr ?_)
        rw [if_pos (hcnt.2 h0)]; simp [Red.range]
      · refine .inr ?_
        rw [hn, if_pos (show n > 1 from h2)]; simp [Red.range]

/-- What is wrong with an assignment. -/
private theorem assignStmt_faults (s : Red) (e : SyntaxError) : e ∈ assignStmt s.off s.green ↔
    ((∀ m ∈ s.children, m.kind ≠ .multivalExpr) ∧
      e = ⟨"Must have at least one expression for the left hand side", s.range⟩) ∨
    (s.children.countP (fun m => m.kind == .multivalExpr) = 1 ∧
      e = ⟨"Must have a least one expression for the right hand side", s.range⟩) ∨
    ∃ l, FirstChild .multivalExpr s l ∧ 2 ≤ s.children.countP (fun m => m.kind == .multivalExpr) ∧
      ∃ x ∈ l.children, x.kind ∈ exprKinds ∧ x.kind ∉ [SyntaxKind.nameRef, .dotExpr, .indexExpr, .parenExpr] ∧
        e = ⟨"Can only assign name reference or index expression", x.range⟩ := by
  simp only [assignStmt, multivals_children, ← filter_first, firstChild_filter, List.countP_eq_length_filter]
  cases hf : s.children.filter fun e => e.kind == .multivalExpr with
  | nil => simp [Red.range]
  | cons l ms =>
    cases ms with
    | nil => simp [Red.range, redPair]
    | cons r ms =>
      have hk : ∀ k : SyntaxKind, isExprKind k = true →
          ((!(k == .dotExpr || k == .indexExpr || k == .nameRef)) = true ↔
            k ∉ [SyntaxKind.nameRef, .dotExpr, .indexExpr, .parenExpr]) := by
        intro k; cases k <;> decide
      simp only [List.map_cons, redPair, List.head?_cons, Option.some.injEq, exprs_children l, reduceCtorEq, false_and, false_or,
        List.length_cons]
      constructor
      · intro hb
        right
        rw [List.mem_map] at hb
        obtain ⟨x, hx, rfl⟩ := hb
        rw [List.mem_filter, List.mem_map] at hx
        obtain ⟨⟨y, hy, rfl⟩, hx⟩ := hx
        rw [List.mem_filter] at hy
        exact ⟨l, rfl, by omega, y, hy.1, ((exprKind_iff _).1 hy.2).1, (hk _ hy.2).1 hx, rfl⟩
      · rintro (⟨h, -⟩ | ⟨l', rfl, -, x, hx, hx1, hx2, rfl⟩)
        · omega
        · have hx3 : isExprKind x.kind = true := (exprKind_iff _).2 ⟨hx1, fun h => hx2 (by rw [h]; simp)⟩
          exact List.mem_map.2 ⟨redPair x, List.mem_filter.2 ⟨List.mem_map.2 ⟨x, List.mem_filter.2 ⟨hx, hx3⟩, rfl⟩,
            (hk _ hx3).2 hx2⟩, rfl⟩

/-- What is wrong with a literal. -/
private theorem literal_faults {text : Text} {ls : List Lexeme} {tree : Green} (hl : Lexemes text ls) (hlit : LitOk tree)
    (hlv : tree.leaves = ls.map lxOf) {r : Red} (hk : r.kind = .literal) (hmem : (r.off, r.green) ∈ tree.nodes 0)
    (es : List SyntaxError) (hes : literal r.off r.green = .ok es) (e : SyntaxError) :
    e ∈ es ↔ ∃ t off u, parts r = [t] ∧ t.kind = .str ∧ Contents t.green.text off u ∧ BadEscape (t.off + off) u e := by
  obtain ⟨⟨k, w⟩, hg, hlk, hlf⟩ := litOk_nodes hlit hmem hk
  simp only at hlk
  obtain ⟨path, off, g⟩ := r
  simp only at hg hes
  subst hg
  have hnt : k.isTrivia = false := (show ∀ k ∈ Lua.literalKinds, k.isTrivia = false by decide) _ hlk
  have hparts : parts ⟨path, off, .node .literal [leaf (k, w)]⟩ = [⟨path ++ [0], off, .token k w⟩] := by
    simp [parts, Red.elems, Green.children, Red.elemsFrom, leaf, Green.isNode, Red.kind, Green.kind, hnt]
  rw [hparts]
  simp only [literal, Green.children, Green.withOffsets, leaf, List.find?, Green.kind, hnt, Bool.not_false] at hes
  by_cases hs : k = .str
  · subst hs
    rw [hlv, List.mem_map] at hlf
    obtain ⟨lx, h5, h6⟩ := hlf
    simp only [lxOf, Prod.mk.injEq] at h6
    obtain ⟨c, w', h7, h8⟩ := Lexemes.str_head hl lx h5 h6.1
    rw [h6.2] at h7
    subst h7
    simp only [literalToken, if_true] at hes
    cases hu : unquote (c :: w') with
    | error x => rw [hu] at hes; simp at hes
    | ok o =>
      cases o with
      | none =>
        rw [hu] at hes
        simp only [Except.ok.injEq] at hes
        subst hes
        constructor
        · intro h; simp at h
        · rintro ⟨t, off', u, ht, -, hc, -⟩
          simp only [List.cons.injEq, and_true] at ht
          subst ht
          have hc : Contents (c :: w') off' u := hc
          rw [(contents_iff h8 _ _).2 hc] at hu
          simp at hu
      | some x =>
        obtain ⟨n, u⟩ := x
        rw [hu] at hes
        simp only [Except.ok.injEq] at hes
        subst hes
        have := unescape_bad (off + n) e u.length [] u rfl
        simp only [Text.len_nil, Nat.zero_add, Nat.add_zero] at this
        rw [this]
        constructor
        · intro h
          exact ⟨_, n, u, rfl, rfl, (contents_iff h8 _ _).1 hu, h⟩
        · rintro ⟨t, off', u', ht, -, hc, hb⟩
          simp only [List.cons.injEq, and_true] at ht
          subst ht
          have hc : Contents (c :: w') off' u' := hc
          rw [(contents_iff h8 _ _).2 hc] at hu
          simp only [Except.ok.injEq, Option.some.injEq, Prod.mk.injEq] at hu
          obtain ⟨rfl, rfl⟩ := hu
          exact hb
  · have he : es = [] := by
      simp only [literalToken, hs, if_false] at hes
      split at hes
      · simpa using hes.symm
      · simp at hes
    subst he
    constructor
    · intro h; simp at h
    · rintro ⟨t, off', u, ht, hk, -⟩
      simp only [List.cons.injEq, and_true] at ht
      subst ht
      exact absurd hk hs

/-- **C111**: for every text, the errors that `SourceFile::parse` reports after those of lexing and parsing are exactly the
faults of the tree. -/
theorem C111_validation (text : Text) : ∃ tree errors more, parseText text = .ok (tree, errors) ∧
    sourceFileParse text = .ok (tree, errors ++ more) ∧ ∀ e, e ∈ more ↔ Fault tree e.msg e.range := by
  obtain ⟨tree, errors, more, h7, h8, h9, h10⟩ := sourceFileParse_eq text
  obtain ⟨ls, tree', errors', h1, h2, h3, -, h4, h5, h6, -⟩ := parseText_tree text
  rw [h7] at h2
  simp only [Except.ok.injEq, Prod.mk.injEq] at h2
  obtain ⟨rfl, rfl⟩ := h2
  refine ⟨tree, errors, more, h7, h8, fun e => ?_⟩
  have hroot : (Red.root tree).green.isNode = true := by
    obtain ⟨ls, ts, -, -, -, -, h5⟩ := parseText_main text
    rw [h5] at h7
    simp only [Except.ok.injEq, Prod.mk.injEq] at h7
    rw [← h7.1]; rfl
  have hn := nodes_red (Red.root tree) hroot
  have tot : ∀ r, Below (Red.root tree) r → ∃ es, validateNode r.off r.green = .ok es := by
    intro r hr
    exact validateNode_total h1 h3 h4 _ ((hn _).2 ⟨r, hr, rfl⟩)
  have mem : e ∈ more ↔ ∃ r, Below (Red.root tree) r ∧ ∃ es, validateNode r.off r.green = .ok es ∧ e ∈ es := by
    constructor
    · intro he
      obtain ⟨x, hx, es, hes, he⟩ := h9 e he
      obtain ⟨r, hr, rfl⟩ := (hn x).1 hx
      exact ⟨r, hr, es, hes, he⟩
    · rintro ⟨r, hr, es, hes, he⟩
      exact h10 _ ((hn _).2 ⟨r, hr, rfl⟩) es hes e he
  rw [mem]
  obtain ⟨msg, range⟩ := e
  constructor
  · rintro ⟨r, hr, es, hes, he⟩
    unfold validateNode at hes
    by_cases k1 : r.green.kind = .exprStmt
    · rw [if_pos k1] at hes
      simp only [Except.ok.injEq] at hes
      subst hes
      rcases (exprStmt_faults r _).1 he with ⟨a, b⟩ | ⟨m, hm, ⟨x, hx, x1, x2, x3, b⟩ | ⟨a, b⟩ | ⟨n, a, a', b⟩⟩ <;>
        simp only [SyntaxError.mk.injEq] at b <;> rw [b.1, b.2]
      · exact .empty hr k1 a
      · exact .notCall hr k1 hm hx x1 x2 x3
      · exact .noCall hr k1 hm a
      · exact .calls hr k1 hm a a'
    rw [if_neg k1] at hes
    by_cases k2 : r.green.kind = .literal
    · rw [if_pos k2] at hes
      obtain ⟨t, off, u, p1, p2, p3, p4⟩ := (literal_faults h1 h3 h4 k2 ((hn _).2 ⟨r, hr, rfl⟩) es hes _).1 he
      rcases p4 with ⟨p, c, q, rfl, a, a', b⟩ | ⟨p, rfl, a, b⟩ <;>
        simp only [SyntaxError.mk.injEq] at b <;> rw [b.1, b.2]
      · exact .escape hr k2 p1 p2 p3 a a'
      · exact .backslash hr k2 p1 p2 p3 a
    rw [if_neg k2] at hes
    by_cases k3 : r.green.kind = .assignStmt
    · rw [if_pos k3] at hes
      simp only [Except.ok.injEq] at hes
      subst hes
      rcases (assignStmt_faults r _).1 he with ⟨a, b⟩ | ⟨a, b⟩ | ⟨l, hl, a, x, hx, x1, x2, b⟩ <;>
        simp only [SyntaxError.mk.injEq] at b <;> rw [b.1, b.2]
      · exact .noLeft hr k3 a
      · exact .noRight hr k3 a
      · exact .target hr k3 hl a hx x1 x2
    rw [if_neg k3] at hes
    simp only [Except.ok.injEq] at hes
    subst hes
    simp at he
  · have st : ∀ s : Red, s.kind = .exprStmt → validateNode s.off s.green = .ok (exprStmt s.off s.green) := by
      intro s h
      have h : s.green.kind = .exprStmt := h
      unfold validateNode; rw [if_pos h]
    have as : ∀ s : Red, s.kind = .assignStmt → validateNode s.off s.green = .ok (assignStmt s.off s.green) := by
      intro s h
      have h : s.green.kind = .assignStmt := h
      unfold validateNode; rw [if_neg (by rw [h]; decide), if_neg (by rw [h]; decide), if_pos h]
    have li : ∀ r : Red, Below (Red.root tree) r → r.kind = .literal → ∀ t off u, parts r = [t] → t.kind = .str →
        Contents t.green.text off u → ∀ e, BadEscape (t.off + off) u e →
        ∃ r, Below (Red.root tree) r ∧ ∃ es, validateNode r.off r.green = .ok es ∧ e ∈ es := by
      intro r hr hk t off u p1 p2 p3 e hb
      obtain ⟨es, hes⟩ := tot r hr
      refine ⟨r, hr, es, hes, ?_⟩
      have hk' : r.green.kind = .literal := hk
      unfold validateNode at hes
      rw [if_neg (by rw [hk']; decide), if_pos hk'] at hes
      exact (literal_faults h1 h3 h4 hk ((hn _).2 ⟨r, hr, rfl⟩) es hes _).2 ⟨t, off, u, p1, p2, p3, hb⟩
    intro hf
    cases hf with
    | @empty s hr hk a => exact ⟨s, hr, _, st s hk, (exprStmt_faults s _).2 (.inl ⟨a, rfl⟩)⟩
    | @notCall s m x hr hk hm hx x1 x2 x3 =>
      exact ⟨s, hr, _, st s hk, (exprStmt_faults s _).2 (.inr ⟨m, hm, .inl ⟨x, hx, x1, x2, x3, rfl⟩⟩)⟩
    | @noCall s m hr hk hm a =>
      exact ⟨s, hr, _, st s hk, (exprStmt_faults s _).2 (.inr ⟨m, hm, .inr (.inl ⟨a, rfl⟩)⟩)⟩
    | @calls s m n hr hk hm a a' =>
      exact ⟨s, hr, _, st s hk, (exprStmt_faults s _).2 (.inr ⟨m, hm, .inr (.inr ⟨n, a, a', rfl⟩)⟩)⟩
    | @noLeft s hr hk a => exact ⟨s, hr, _, as s hk, (assignStmt_faults s _).2 (.inl ⟨a, rfl⟩)⟩
    | @noRight s hr hk a => exact ⟨s, hr, _, as s hk, (assignStmt_faults s _).2 (.inr (.inl ⟨a, rfl⟩))⟩
    | @target s l x hr hk hl a hx x1 x2 =>
      exact ⟨s, hr, _, as s hk, (assignStmt_faults s _).2 (.inr (.inr ⟨l, hl, a, x, hx, x1, x2, rfl⟩))⟩
    | @escape r t off p q c hr hk p1 p2 p3 a a' =>
      exact li r hr hk t off _ p1 p2 p3 _ (.inl ⟨p, c, q, rfl, a, a', rfl⟩)
    | @backslash r t off p hr hk p1 p2 p3 a =>
      exact li r hr hk t off _ p1 p2 p3 _ (.inr ⟨p, rfl, a, rfl⟩)

/-- **C111**: every error of `SourceFile::parse` is a range of the text, except that escape errors in a string token that
starts with `[`, equals signs and no second `[` are reported exactly one byte too far to the right. -/
theorem C111_ranges (text : Text) (tree : Green) (errors : List SyntaxError) (h : sourceFileParse text = .ok (tree, errors)) :
    ∀ e ∈ errors, RangeOf text e.range ∨
      ∃ before after n rest p u q, text = before ++ '[' :: (List.replicate n '=' ++ rest) ++ after ∧
        (.str, '[' :: (List.replicate n '=' ++ rest)) ∈ tree.leaves ∧ rest.head? ≠ some '[' ∧ rest.head? ≠ some '=' ∧
        rest = p ++ u ++ q ∧ (u = ['\\'] ∨ ∃ c, c ∉ escapeChars ∧ u = ['\\', c]) ∧ e.msg = "Invalid escape sequence" ∧
        e.range.start = Text.len before + (1 + n) + Text.len p + 1 ∧ e.range.stop = e.range.start + Text.len u := by
  obtain ⟨tree', errors', more, h7, h8, h9⟩ := C111_validation text
  rw [h] at h8
  simp only [Except.ok.injEq, Prod.mk.injEq] at h8
  obtain ⟨rfl, rfl⟩ := h8
  obtain ⟨ls, tree', errors'', h1, h2, h3, -, h4, h5, h6, -⟩ := parseText_tree text
  rw [h7] at h2
  simp only [Except.ok.injEq, Prod.mk.injEq] at h2
  obtain ⟨rfl, rfl⟩ := h2
  have hroot : (Red.root tree).green.isNode = true := by
    obtain ⟨ls, ts, -, -, -, -, h5⟩ := parseText_main text
    rw [h5] at h7
    simp only [Except.ok.injEq, Prod.mk.injEq] at h7
    rw [← h7.1]; rfl
  have hn := nodes_red (Red.root tree) hroot
  have at_below : ∀ r, Below (Red.root tree) r → r.green.At text r.off := by
    intro r hr
    have := at_nodes (r := tree) ((hn _).2 ⟨r, hr, rfl⟩)
    rwa [h5] at this
  have range_below : ∀ r, Below (Red.root tree) r → RangeOf text r.range := fun r hr => (at_below r hr).rangeOf
  have inside : ∀ {k : SyntaxKind} {s m : Red}, FirstChild k s m → m ∈ s.children := by
    rintro k s m ⟨b, a, e, -⟩; rw [e]; simp
  -- the two kinds of escape errors
  have esc : ∀ (r t : Red) (off : Nat) (p u q : Text), Below (Red.root tree) r → r.kind = .literal → parts r = [t] →
      t.kind = .str → Contents t.green.text off (p ++ u ++ q) → (u = ['\\'] ∨ ∃ c, c ∉ escapeChars ∧ u = ['\\', c]) →
      RangeOf text ⟨t.off + off + Text.len p, t.off + off + Text.len p + Text.len u⟩ ∨
      ∃ before after n rest p' u' q', text = before ++ '[' :: (List.replicate n '=' ++ rest) ++ after ∧
        (.str, '[' :: (List.replicate n '=' ++ rest)) ∈ tree.leaves ∧ rest.head? ≠ some '[' ∧ rest.head? ≠ some '=' ∧
        rest = p' ++ u' ++ q' ∧ (u' = ['\\'] ∨ ∃ c, c ∉ escapeChars ∧ u' = ['\\', c]) ∧
        t.off + off + Text.len p = Text.len before + (1 + n) + Text.len p' + 1 ∧ Text.len u = Text.len u' := by
    intro r t off p u q hr hk hp ht hc hu
    have hat := at_below r hr
    obtain ⟨⟨k, w⟩, hg, hlk, hlf⟩ := litOk_nodes h3 ((hn _).2 ⟨r, hr, rfl⟩) hk
    obtain ⟨path, o, g⟩ := r
    simp only at hg hlk hat
    subst hg
    have hnt : k.isTrivia = false := (show ∀ k ∈ Lua.literalKinds, k.isTrivia = false by decide) _ hlk
    have hparts : parts ⟨path, o, .node .literal [leaf (k, w)]⟩ = [⟨path ++ [0], o, .token k w⟩] := by
      simp [parts, Red.elems, Green.children, Red.elemsFrom, leaf, Green.isNode, Red.kind, Green.kind, hnt]
    rw [hparts] at hp
    simp only [List.cons.injEq, and_true] at hp
    subst hp
    have ht : k = .str := ht
    subst ht
    obtain ⟨a, b, htx, ho⟩ := hat
    simp only [Green.text, Green.textL, leaf, List.append_nil] at htx
    have hc : Contents w off (p ++ u ++ q) := hc
    simp only
    have cl : ∀ {t u : Text}, Closing t u → ∃ back, t = u ++ back := by
      intro t u h
      cases h with
      | none => exact ⟨[], by simp⟩
      | full => exact ⟨_, rfl⟩
      | half => exact ⟨_, rfl⟩
    have good : ∀ front back : Text, w = front ++ (p ++ u ++ q) ++ back → off = Text.len front →
        RangeOf text ⟨o + off + Text.len p, o + off + Text.len p + Text.len u⟩ := by
      rintro front back rfl rfl
      subst htx ho
      refine ⟨by simp, by simp; omega, ⟨a ++ front ++ p, u ++ q ++ back ++ b, by simp, by simp [Nat.add_assoc]⟩,
        ⟨a ++ front ++ p ++ u, q ++ back ++ b, by simp, by simp [Nat.add_assoc]⟩⟩
    generalize hx : p ++ u ++ q = x at hc good
    cases hc with
    | @quoted d _ hd =>
      exact .inl (good [d] [d] rfl (by simp [utf8Size_ascii d (by rcases hd with rfl | rfl <;> decide)]))
    | @long n t _ hc =>
      obtain ⟨back, rfl⟩ := cl hc
      exact .inl (good (longOpen n) back (by simp) (len_longOpen n).symm)
    | @halfOpen n t _ e1 e2 hc =>
      right
      obtain ⟨back, rfl⟩ := cl hc
      refine ⟨a, b, n, x ++ back, p, u, q ++ back, by rw [htx], ?_, e1, e2, by rw [← hx]; simp, hu, by omega, rfl⟩
      exact hlf
  rintro ⟨msg, range⟩ he
  rw [List.mem_append] at he
  rcases he with he | he
  · exact .inl (C06_error_ranges text _ _ h7 _ he)
  · have hf := (h9 _).1 he
    simp only at hf ⊢
    cases hf with
    | @empty s hr hk a => exact .inl (range_below _ hr)
    | @notCall s m x hr hk hm hx x1 x2 x3 => exact .inl (range_below _ (.child (.child hr (inside hm)) hx))
    | @noCall s m hr hk hm a => exact .inl (range_below _ hr)
    | @calls s m n hr hk hm a a' => exact .inl (range_below _ hr)
    | @noLeft s hr hk a => exact .inl (range_below _ hr)
    | @noRight s hr hk a => exact .inl (range_below _ hr)
    | @target s l x hr hk hl a hx x1 x2 => exact .inl (range_below _ (.child (.child hr (inside hl)) hx))
    | @escape r t off p q c hr hk p1 p2 p3 a a' =>
      rcases esc r t off p ['\\', c] q hr hk p1 p2 (by simpa using p3) (.inr ⟨c, a', rfl⟩) with hg | hg
      · exact .inl hg
      · obtain ⟨before, after, n, rest, p', u', q', g1, g2, g3, g4, g5, g6, g7, g8⟩ := hg
        exact .inr ⟨before, after, n, rest, p', u', q', g1, g2, g3, g4, g5, g6, rfl, g7, by rw [g8]⟩
    | @backslash r t off p hr hk p1 p2 p3 a =>
      rcases esc r t off p ['\\'] [] hr hk p1 p2 (by simpa using p3) (.inl rfl) with hg | hg
      · exact .inl hg
      · obtain ⟨before, after, n, rest, p', u', q', g1, g2, g3, g4, g5, g6, g7, g8⟩ := hg
        exact .inr ⟨before, after, n, rest, p', u', q', g1, g2, g3, g4, g5, g6, rfl, g7,
          by rw [← g8]; simp [utf8Size_ascii '\\' (by decide)]⟩

/-- A file with lexical errors: the backslash of the unfinished string `[=a\q` is at 5, and is reported at 6. -/
example : sourceFileParse "x=[=a\\q".toList = .ok (assignTree .str "[=a\\q".toList,
    [⟨"Could not find bracket string close", ⟨2, 7⟩⟩, ⟨"Invalid escape sequence", ⟨6, 8⟩⟩]) := by
  rw [sourceFileParse_eq_eval]; decide +kernel

/-- The fault of that file, derived from its tree. -/
example : Contents "[=a\\q".toList 3 ("a".toList ++ '\\' :: 'q' :: []) :=
  Contents.halfOpen (n := 1) (t := ['a', '\\', 'q']) (by decide) (by decide) (.none (by decide))

/-- A file with a syntax error: after it come the faults of the expression statement `f,1`. -/
example : (sourceFileParse "f,1 )".toList).toOption.map (·.2) = some
    [⟨"Expected a statement", ⟨4, 5⟩⟩, ⟨"Expression statements can only be call expressions", ⟨0, 1⟩⟩,
     ⟨"Expression statements can only be call expressions", ⟨2, 3⟩⟩, ⟨"Expected a call expression", ⟨0, 3⟩⟩] := by
  rw [sourceFileParse_eq_eval]; decide +kernel

end Verif
