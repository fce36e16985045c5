import Verif.Spec.Reports
import Verif.Props.Faults

/-
C120: validation reports its errors node by node, in document order.
-/
namespace Verif
open Lexer Lua Spec Validation

/-! ### the nodes of a tree, in the order in which validation visits them -/

mutual
/-- `SyntaxNode::descendants` -/
private def redNodes (path : List Nat) (off : Nat) : Green → List Red
  | .token _ _ => []
  | .node k cs => ⟨path, off, .node k cs⟩ :: redNodesL path 0 off cs
private def redNodesL (path : List Nat) (i : Nat) (off : Nat) : List Green → List Red
  | [] => []
  | g :: gs => redNodes (path ++ [i]) off g ++ redNodesL path (i + 1) (off + g.len) gs
end

mutual
private theorem redNodes_pairs (path : List Nat) (off : Nat) (g : Green) :
    (redNodes path off g).map redPair = g.nodes off := by
  cases g with
  | token k t => simp [redNodes, Green.nodes]
  | node k cs => simp [redNodes, Green.nodes, redNodesL_pairs path 0 off cs, redPair]
private theorem redNodesL_pairs (path : List Nat) (i off : Nat) (gs : List Green) :
    (redNodesL path i off gs).map redPair = Green.nodesL off gs := by
  cases gs with
  | nil => simp [redNodesL, Green.nodesL]
  | cons g gs =>
    simp [redNodesL, Green.nodesL, redNodes_pairs (path ++ [i]) off g, redNodesL_pairs path (i + 1) (off + g.len) gs]
end

private theorem redNodesL_mem (path : List Nat) : ∀ (cs : List Green) (i off : Nat) (x : Red),
    x ∈ redNodesL path i off cs ↔ ∃ e ∈ Red.elemsFrom path i off cs, x ∈ redNodes e.path e.off e.green := by
  intro cs
  induction cs with
  | nil => intro i off x; simp [redNodesL, Red.elemsFrom]
  | cons g gs ih =>
    intro i off x
    simp only [redNodesL, Red.elemsFrom, List.mem_append, ih (i + 1) (off + g.len) x, List.mem_cons]
    constructor
    · rintro (h | ⟨e, he, h⟩)
      · exact ⟨_, .inl rfl, h⟩
      · exact ⟨e, .inr he, h⟩
    · rintro ⟨e, rfl | he, h⟩
      · exact .inl h
      · exact .inr ⟨e, he, h⟩

private theorem redNodes_below (r : Red) : r.green.isNode = true →
    ∀ x, x ∈ redNodes r.path r.off r.green ↔ Below r x := by
  refine red_ind (P := fun r => r.green.isNode = true →
    ∀ x, x ∈ redNodes r.path r.off r.green ↔ Below r x) ?_ r
  intro r ih hn x
  obtain ⟨path, off, g⟩ := r
  cases g with
  | token k t => simp [Green.isNode] at hn
  | node k cs =>
    simp only [redNodes, List.mem_cons, redNodesL_mem path cs 0 off x]
    constructor
    · rintro (rfl | ⟨e, he, h⟩)
      · exact .self
      · have hen : e.green.isNode = true := by
          cases hg : e.green with
          | token k t => rw [hg] at h; simp [redNodes] at h
          | node => rfl
        have hc : e ∈ Red.children ⟨path, off, .node k cs⟩ := List.mem_filter.2 ⟨he, hen⟩
        exact below_of_child hc ((ih e hc hen x).1 h)
    · intro h1
      rcases below_cases h1 with h | ⟨c, hc, h⟩
      · exact .inl h
      · exact .inr ⟨c, (List.mem_filter.1 hc).1, (ih c hc (child_node hc) _).2 h⟩

mutual
private theorem redNodes_paths (path : List Nat) (off : Nat) (g : Green) :
    ∀ x ∈ redNodes path off g, ∃ s, x.path = path ++ s := by
  cases g with
  | token k t => simp [redNodes]
  | node k cs =>
    intro x hx
    simp only [redNodes, List.mem_cons] at hx
    rcases hx with rfl | hx
    · exact ⟨[], by simp⟩
    · obtain ⟨j, s, -, h⟩ := redNodesL_paths path 0 off cs x hx
      exact ⟨_, h⟩
private theorem redNodesL_paths (path : List Nat) (i off : Nat) (gs : List Green) :
    ∀ x ∈ redNodesL path i off gs, ∃ j s, i ≤ j ∧ x.path = path ++ j :: s := by
  cases gs with
  | nil => simp [redNodesL]
  | cons g gs =>
    intro x hx
    simp only [redNodesL, List.mem_append] at hx
    rcases hx with hx | hx
    · obtain ⟨s, h⟩ := redNodes_paths (path ++ [i]) off g x hx
      exact ⟨i, s, Nat.le_refl _, by simpa using h⟩
    · obtain ⟨j, s, h, h'⟩ := redNodesL_paths path (i + 1) (off + g.len) gs x hx
      exact ⟨j, s, by omega, h'⟩
end

mutual
private theorem redNodes_order (path : List Nat) (off : Nat) (g : Green) :
    (redNodes path off g).Pairwise DocumentOrder := by
  cases g with
  | token k t => simp [redNodes]
  | node k cs =>
    simp only [redNodes, List.pairwise_cons]
    refine ⟨fun x hx => ?_, redNodesL_order path 0 off cs⟩
    obtain ⟨j, s, -, h⟩ := redNodesL_paths path 0 off cs x hx
    exact .inr ⟨j, s, h⟩
private theorem redNodesL_order (path : List Nat) (i off : Nat) (gs : List Green) :
    (redNodesL path i off gs).Pairwise DocumentOrder := by
  cases gs with
  | nil => simp [redNodesL]
  | cons g gs =>
    simp only [redNodesL, List.pairwise_append]
    refine ⟨redNodes_order _ _ _, redNodesL_order _ _ _ _, fun a ha b hb => ?_⟩
    obtain ⟨s, h1⟩ := redNodes_paths (path ++ [i]) off g a ha
    obtain ⟨j, t, h2, h3⟩ := redNodesL_paths path (i + 1) (off + g.len) gs b hb
    exact .inl ⟨path, i, j, s, t, by simpa using h1, h3, h2⟩
end

/-! ### what is reported about a node -/

private theorem unescape_escapes (start : Nat) : ∀ (n : Nat) (p u : Text), u.length = n →
    Escapes (start + Text.len p) u (unescape (Text.len (p ++ u)) start u) := by
  intro n
  induction n using Nat.strongRecOn with
  | _ n ih =>
    intro p u hn
    match u, hn with
    | [], _ => exact .nil
    | c :: cs, hn =>
      have hpos : Text.len (p ++ c :: cs) - Text.len cs - c.utf8Size = Text.len p := by
        simp [Text.len_cons]; omega
      unfold unescape
      simp only [hpos]
      by_cases hc : c = '\\'
      · subst hc
        simp only [if_true]
        match cs, hn with
        | [], _ =>
          have := Escapes.last (start := start + Text.len p)
          simpa [Range.ofLen, Range.shift, escapeMsg, Nat.add_comm, Nat.add_left_comm, Nat.add_assoc] using this
        | d :: ds, hn =>
          have := ih ds.length (by simp at hn; omega) (p ++ ['\\', d]) ds rfl
          have e1 : p ++ ['\\', d] ++ ds = p ++ '\\' :: d :: ds := by simp
          have e2 : start + Text.len (p ++ ['\\', d]) = start + Text.len p + 1 + d.utf8Size := by
            simp [Text.len_cons, show ('\\' : Char).utf8Size = 1 from rfl]; omega
          rw [e1, e2] at this
          by_cases hd : d ∈ escapeChars
          · have hd' : escapes.contains d = true := by simpa [escapes, escapeChars] using hd
            simp only [hd', if_true, List.nil_append]
            exact .known hd this
          · have hd' : escapes.contains d = false := by simpa [escapes, escapeChars] using hd
            simp only [hd', Bool.false_eq_true, if_false]
            have h := Escapes.unknown hd this
            simpa [Range.ofLen, Range.shift, escapeMsg, Nat.add_comm, Nat.add_left_comm, Nat.add_assoc] using h
      · simp only [if_neg hc]
        have := ih cs.length (by simp at hn; omega) (p ++ [c]) cs rfl
        have e1 : p ++ [c] ++ cs = p ++ c :: cs := by simp
        have e2 : start + Text.len (p ++ [c]) = start + Text.len p + c.utf8Size := by
          simp [Text.len_cons]; omega
        rw [e1, e2] at this
        exact .plain hc this

private theorem exprStmt_report {s : Red} (hk : s.kind = .exprStmt) : Report s (exprStmt s.off s.green) := by
  simp only [exprStmt, multivals_children]
  cases hf : s.children.filter fun e => e.kind == .multivalExpr with
  | nil => exact .empty hk (filter_first.1 hf)
  | cons m ms =>
    have hm : FirstChild .multivalExpr s m := firstChild_filter.2 (by rw [hf]; rfl)
    have h := Report.stmt hk hm
    have e2 := exprs_children m
    have e3 : ((Validation.exprs m.off m.green).filter fun e => isCall e.2.kind).length =
        m.children.countP fun x => isCallKind x.kind := by
      rw [e2, List.filter_map, List.length_map, List.filter_filter, List.countP_eq_length_filter]
      congr 1
      refine List.filter_congr fun x hx => ?_
      show (isCallKind x.kind && _) = isCallKind x.kind
      cases hc : isCallKind x.kind with
      | false => rfl
      | true => rw [call_expr _ hc]; rfl
    have e4 : ((Validation.exprs m.off m.green).filter fun e => !isCall e.2.kind) =
        (m.children.filter notACall).map redPair := by
      rw [e2, List.filter_map, List.filter_filter]
      congr 1
      refine List.filter_congr fun x hx => ?_
      have : ∀ k : SyntaxKind, (!isCall k && isExprKind k) =
        (exprKinds.contains k && !isCallKind k && k != .parenExpr) := by intro k; cases k <;> decide
      exact this x.kind
    simp only [List.map_cons, redPair, e3, e4, List.map_map]
    generalize m.children.countP (fun x => isCallKind x.kind) = n at h
    have e5 : callCount s.range n = (if n = 0 then [⟨"Expected a call expression", s.green.range s.off⟩] else []) ++
        (if n > 1 then [⟨"Expected only one call expression, got " ++ toString n, s.green.range s.off⟩] else []) := by
      match n with
      | 0 => rfl
      | 1 => rfl
      | n + 2 => simp [callCount, Red.range]
    rw [e5, ← List.append_assoc] at h
    exact h

private theorem assignStmt_report {s : Red} (hk : s.kind = .assignStmt) : Report s (assignStmt s.off s.green) := by
  simp only [assignStmt, multivals_children]
  cases hf : s.children.filter fun e => e.kind == .multivalExpr with
  | nil => exact .noLeft hk (filter_first.1 hf)
  | cons l ms =>
    cases ms with
    | nil => exact .noRight hk (by rw [List.countP_eq_length_filter, hf]; rfl)
    | cons r ms =>
      have hm : FirstChild .multivalExpr s l := firstChild_filter.2 (by rw [hf]; rfl)
      have h := Report.assign hk hm (by rw [List.countP_eq_length_filter, hf]; simp)
      have e4 : ((Validation.exprs l.off l.green).filter fun e =>
          !(e.2.kind == .dotExpr || e.2.kind == .indexExpr || e.2.kind == .nameRef)) =
          (l.children.filter notATarget).map redPair := by
        rw [exprs_children l, List.filter_map, List.filter_filter]
        congr 1
        refine List.filter_congr fun x hx => ?_
        have : ∀ k : SyntaxKind, (!(k == .dotExpr || k == .indexExpr || k == .nameRef) && isExprKind k) =
          (exprKinds.contains k && !([SyntaxKind.nameRef, .dotExpr, .indexExpr, .parenExpr].contains k)) := by
          intro k; cases k <;> decide
        exact this x.kind
      simp only [List.map_cons, redPair, e4, List.map_map]
      exact h

private theorem literal_report {text : Text} {ls : List Lexeme} {tree : Green} (hl : Lexemes text ls) (hlit : LitOk tree)
    (hlv : tree.leaves = ls.map lxOf) {r : Red} (hk : r.kind = .literal) (hmem : (r.off, r.green) ∈ tree.nodes 0)
    (es : List SyntaxError) (hes : literal r.off r.green = .ok es) : Report r es := by
  obtain ⟨⟨k, w⟩, hg, hlk, hlf⟩ := litOk_nodes hlit hmem hk
  simp only at hlk
  obtain ⟨path, off, g⟩ := r
  simp only at hg hes
  subst hg
  have hnt : k.isTrivia = false := (show ∀ k ∈ Lua.literalKinds, k.isTrivia = false by decide) _ hlk
  have hparts : parts ⟨path, off, .node .literal [leaf (k, w)]⟩ = [⟨path ++ [0], off, .token k w⟩] := by
    simp [parts, Red.elems, Green.children, Red.elemsFrom, leaf, Green.isNode, Red.kind, Green.kind, hnt]
  simp only [literal, Green.children, Green.withOffsets, leaf, List.find?, Green.kind, hnt, Bool.not_false] at hes
  by_cases hs : k = .str
  · subst hs
    rw [hlv, List.mem_map] at hlf
    obtain ⟨lx, h5, h6⟩ := hlf
    simp only [lxOf, Prod.mk.injEq] at h6
    obtain ⟨c, w', h7, h8⟩ := Lexemes.str_head hl lx h5 h6.1
    rw [h6.2] at h7
    subst h7
    simp only [literalToken, if_true] at hes
    cases hu : unquote (c :: w') with
    | error x => rw [hu] at hes; simp at hes
    | ok o =>
      cases o with
      | none =>
        rw [hu] at hes
        simp only [Except.ok.injEq] at hes
        subst hes
        refine .openString hk hparts rfl fun off' u hc => ?_
        have hc : Contents (c :: w') off' u := hc
        rw [(contents_iff h8 _ _).2 hc] at hu
        simp at hu
      | some x =>
        obtain ⟨n, u⟩ := x
        rw [hu] at hes
        simp only [Except.ok.injEq] at hes
        subst hes
        exact .string hk hparts rfl ((contents_iff h8 _ _).1 hu) (unescape_escapes (off + n) _ [] u rfl)
  · have he : es = [] := by
      simp only [literalToken, hs, if_false] at hes
      split at hes
      · simpa using hes.symm
      · simp at hes
    subst he
    exact .literal hk hparts hs

/-- **C120**: for every text, the errors that `SourceFile::parse` reports after those of lexing and parsing are reported
node by node, in document order, and in a fixed order for each node. -/
theorem C120_order (text : Text) : ∃ tree errors more, parseText text = .ok (tree, errors) ∧
    sourceFileParse text = .ok (tree, errors ++ more) ∧ ∃ rows : List (Red × List SyntaxError),
      (∀ r, r ∈ rows.map (·.1) ↔ Below (Red.root tree) r) ∧ (rows.map (·.1)).Pairwise DocumentOrder ∧
      (∀ p ∈ rows, Report p.1 p.2) ∧ more = (rows.map (·.2)).flatten := by
  obtain ⟨ls, tree, errors, h1, h2, h3, -, h4, -, h6, -⟩ := parseText_tree text
  have htot := validateNode_total h1 h3 h4
  let f : Nat × Green → List SyntaxError := fun p => match validateNode p.1 p.2 with | .ok es => es | .error _ => []
  have hf : ∀ p ∈ tree.nodes 0, validateNode p.1 p.2 = .ok (f p) := by
    intro p hp; obtain ⟨es, he⟩ := htot p hp; simp only [f, he]
  have hv := validate_eq tree f hf
  have hroot : (Red.root tree).green.isNode = true := by
    obtain ⟨ls, ts, -, -, -, -, h5⟩ := parseText_main text
    rw [h5] at h2
    simp only [Except.ok.injEq, Prod.mk.injEq] at h2
    rw [← h2.1]; rfl
  have hpairs := redNodes_pairs [] 0 tree
  refine ⟨tree, errors, (tree.nodes 0).flatMap f, h2, ?_, (redNodes [] 0 tree).map fun r => (r, f (redPair r)), ?_, ?_, ?_, ?_⟩
  · unfold sourceFileParse
    rw [h2]
    simp only [hv, h6, if_true]
  · intro r
    have : r ∈ redNodes [] 0 tree ↔ Below (Red.root tree) r := redNodes_below (Red.root tree) hroot r
    simpa [List.map_map, Function.comp_def] using this
  · have := redNodes_order [] 0 tree
    simpa [List.map_map, Function.comp_def] using this
  · intro p hp
    obtain ⟨r, hr, rfl⟩ := List.mem_map.1 hp
    have hmem : redPair r ∈ tree.nodes 0 := by rw [← hpairs]; exact List.mem_map.2 ⟨r, hr, rfl⟩
    have hes := hf _ hmem
    simp only
    generalize f (redPair r) = es at hes
    simp only [redPair] at hes hmem
    unfold validateNode at hes
    by_cases k1 : r.green.kind = .exprStmt
    · rw [if_pos k1] at hes
      simp only [Except.ok.injEq] at hes
      subst hes
      exact exprStmt_report k1
    rw [if_neg k1] at hes
    by_cases k2 : r.green.kind = .literal
    · rw [if_pos k2] at hes
      exact literal_report h1 h3 h4 k2 hmem es hes
    rw [if_neg k2] at hes
    by_cases k3 : r.green.kind = .assignStmt
    · rw [if_pos k3] at hes
      simp only [Except.ok.injEq] at hes
      subst hes
      exact assignStmt_report k3
    rw [if_neg k3] at hes
    simp only [Except.ok.injEq] at hes
    subst hes
    have k1 : ¬ r.kind = .exprStmt := k1
    have k2 : ¬ r.kind = .literal := k2
    have k3 : ¬ r.kind = .assignStmt := k3
    exact .other (by simp [k1, k2, k3])
  · rw [← hpairs]
    simp [List.flatMap_def, List.map_map, Function.comp_def]

private theorem Spec.Escapes.unique {start : Nat} {u : Text} {a b : List SyntaxError} (h : Escapes start u a)
    (h' : Escapes start u b) : a = b := by
  induction h generalizing b with
  | nil => cases h'; rfl
  | plain hc _ ih =>
    cases h' with
    | plain _ h' => exact ih h'
    | known => exact absurd rfl hc
    | unknown => exact absurd rfl hc
    | last => exact absurd rfl hc
  | known hc _ ih =>
    cases h' with
    | plain h _ => exact absurd rfl h
    | known _ h' => exact ih h'
    | unknown h _ => exact absurd hc h
  | unknown hc _ ih =>
    cases h' with
    | plain h _ => exact absurd rfl h
    | known h _ => exact absurd h hc
    | unknown _ h' => rw [ih h']
  | last =>
    cases h' with
    | plain h _ => exact absurd rfl h
    | last => rfl

/-- **C120**: what is reported about a node is determined by the node: `Report` is a function. -/
theorem C120_report_unique {r : Red} {a b : List SyntaxError} (h : Report r a) (h' : Report r b) : a = b := by
  have first : ∀ {m m' : Red}, FirstChild .multivalExpr r m → FirstChild .multivalExpr r m' → m = m' := by
    intro m m' h1 h2
    have := (firstChild_filter.1 h1).symm.trans (firstChild_filter.1 h2)
    simpa using this
  have none : ∀ {m : Red}, FirstChild .multivalExpr r m → ¬ ∀ m ∈ r.children, m.kind ≠ .multivalExpr := by
    rintro m ⟨b, a, e, h1, -⟩ h2
    exact h2 m (by rw [e]; simp) h1
  have none' : ∀ {n : Nat}, r.children.countP (fun m => m.kind == .multivalExpr) = n → 1 ≤ n →
      ¬ ∀ m ∈ r.children, m.kind ≠ .multivalExpr := by
    intro n h1 h2 h3
    have : r.children.countP (fun m => m.kind == .multivalExpr) = 0 := by
      rw [List.countP_eq_zero]; simpa using h3
    omega
  cases h <;> cases h' <;> simp_all <;> try omega
  · rename_i h1 _ h2; rw [first h1 h2]
  · rename_i h1 _ h2 _; rw [first h1 h2]
  · rename_i hc1 he1 _ _ hc2 he2
    have := (contents_unquote hc1).symm.trans (contents_unquote hc2)
    simp only [Except.ok.injEq, Option.some.injEq, Prod.mk.injEq] at this
    obtain ⟨rfl, rfl⟩ := this
    exact he1.unique he2

/-- **C120**, what the order is not: the errors are not sorted by where they start.  In this file the errors about the
second statement come after those of the members of its list, and the escape sequences come after the statements that
contain them. -/
theorem C120_sorted_fails : (sourceFileParse "a.b, f() = \"\\q\\w\", 1\nx, (y), '\\z'\n".toList).toOption.map (·.2) = some [
    ⟨"Can only assign name reference or index expression", ⟨5, 8⟩⟩, ⟨"Invalid escape sequence", ⟨12, 14⟩⟩,
    ⟨"Invalid escape sequence", ⟨14, 16⟩⟩, ⟨"Expression statements can only be call expressions", ⟨21, 22⟩⟩,
    ⟨"Expression statements can only be call expressions", ⟨29, 33⟩⟩, ⟨"Expected a call expression", ⟨21, 33⟩⟩,
    ⟨"Invalid escape sequence", ⟨30, 32⟩⟩] := by
  rw [sourceFileParse_eq_eval]; decide +kernel

end Verif
