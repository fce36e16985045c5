import Verif.Props.AstExpr
import Verif.Props.Walk
import Verif.Props.AstExamples

/-
C51 and C53 for files without errors: pointers find the very node they were made from, ids are unique.
-/
namespace Verif
open Spec Lua

variable {text : Text} {r : Red}

/-! ### what can be empty -/

private theorem spelled_ne {k : SyntaxKind} {w : Text} (h : Spelled k w) : w ≠ [] := by
  cases h with
  | fixed h =>
    have hd : ∀ p ∈ keywords ++ operators, p.1.toList ≠ [] := by decide
    exact hd _ h
  | space h => exact h
  | long => simp [longOpen]
  | _ => simp

private theorem nodeOf_child {k : SyntaxKind} (h : NodeOf text k r) {c : Red} (hc : c ∈ r.children) :
    NodeOf text c.kind c := by
  obtain ⟨tree, h1, h2, _⟩ := h
  exact ⟨tree, h1, .child h2 hc, rfl⟩

private theorem part_child {x : Red} {k : SyntaxKind} (hx : x ∈ parts r) (hs : sym x = .node k) : x ∈ r.children := by
  rw [sym_node] at hs
  exact List.mem_filter.2 ⟨(List.mem_filter.1 hx).1, hs.1⟩

private theorem child_part {c : Red} (hc : c ∈ r.children) : c ∈ parts r ∧ sym c = .node c.kind := by
  have h := List.mem_filter.1 hc
  exact ⟨List.mem_filter.2 ⟨h.1, by simp [h.2]⟩, sym_node.2 ⟨h.2, rfl⟩⟩

/-- Nodes that can be empty. -/
private def thin (k : SyntaxKind) : Bool := k == .block || k == .multiName || k == .sourceFile

private def solid : Sym → Bool
  | .tok _ => true
  | .node k => !thin k

private theorem expr_solid {s : Sym} (h : IsExpr s) : solid s = true := by
  obtain ⟨k, hk, rfl⟩ := h
  revert k; decide

private theorem some_solid {k : SyntaxKind} {ss : List Sym} (P : Production k ss) (hk : thin k = false) :
    ∃ s ∈ ss, solid s = true := by
  cases P with
  | multivalExpr ss h => cases h with
    | one s h => exact ⟨s, by simp, expr_solid h⟩
    | cons s ss h => exact ⟨s, by simp, expr_solid h⟩
  | tableContent k h => refine ⟨.node k, by simp, ?_⟩; revert k; decide
  | tableKey k h => refine ⟨.node k, by simp, ?_⟩; revert k; decide
  | callArgs s h => refine ⟨s, by simp, ?_⟩; revert s; decide
  | functionDefContent k h => refine ⟨.node k, by simp, ?_⟩; revert k; decide
  | forContent k h => refine ⟨.node k, by simp, ?_⟩; revert k; decide
  | indexPath ss h => cases h with
    | one s h => exact ⟨s, by simp, by subst h; rfl⟩
    | cons s ss h => exact ⟨s, by simp, by subst h; rfl⟩
  | positionalValue e h => exact ⟨e, by simp, expr_solid h⟩
  | indexPathDot ss h => exact ⟨.tok .dot, by simp, rfl⟩
  | _ => first
    | simp [thin] at hk; done
    | simp [solid, thin]

private theorem parts_ranges (r : Red) : (parts r).Pairwise (fun a b => a.range.stop ≤ b.range.start) ∧
    ∀ c ∈ parts r, r.range.start ≤ c.range.start ∧ c.range.start ≤ c.range.stop ∧ c.range.stop ≤ r.range.stop := by
  constructor
  · exact (elemsFrom_ranges _ _ _ _).1.sublist List.filter_sublist
  · intro c hc
    have hc := (List.mem_filter.1 hc).1
    have := child_range hc
    have h2 := (elemsFrom_ranges _ _ _ _).2 c hc
    simp only [Range.containsRange, Bool.and_eq_true, decide_eq_true_eq] at this
    exact ⟨this.1, h2.2.1, this.2⟩

private theorem solid_ne (r : Red) : ∀ k, NodeOf text k r → thin k = false → r.green.len ≠ 0 := by
  refine red_ind (P := fun r => ∀ k, NodeOf text k r → thin k = false → r.green.len ≠ 0) ?_ r
  intro r ih k h hk
  obtain ⟨ss, e, P⟩ := production h
  obtain ⟨s, hs, hsol⟩ := some_solid P hk
  rw [← e, List.mem_map] at hs
  obtain ⟨x, hx, rfl⟩ := hs
  have hr := (parts_ranges r).2 x hx
  have hlen : x.green.len ≠ 0 := by
    cases hsx : sym x with
    | tok k' => have := Text.len_pos (spelled_ne (part_spelled h hx hsx)); simp only [Green.len]; omega
    | node k' =>
      have hc := part_child hx hsx
      refine ih x hc _ (nodeOf_child h hc) ?_
      rw [hsx] at hsol
      rw [sym_node] at hsx
      rw [hsx.2]; simpa [solid] using hsol
  have e1 : r.range.stop = r.range.start + r.green.len := rfl
  have e2 : x.range.stop = x.range.start + x.green.len := rfl
  omega

/-- Only blocks, lists of names and whole files can be empty. -/
theorem node_ne {k : SyntaxKind} (h : NodeOf text k r) (h1 : k ≠ .block) (h2 : k ≠ .multiName) (h3 : k ≠ .sourceFile) :
    r.green.text ≠ [] := by
  intro e
  exact solid_ne r k h (by simp [thin, h1, h2, h3]) (by simp [Green.len, e, Text.len])

private theorem part_ne {k : SyntaxKind} (h : NodeOf text k r) {x : Red} (hx : x ∈ parts r) (hs : solid (sym x) = true) :
    x.range.start < x.range.stop := by
  have : x.green.len ≠ 0 := by
    cases hsx : sym x with
    | tok k' => have := Text.len_pos (spelled_ne (part_spelled h hx hsx)); simp only [Green.len]; omega
    | node k' =>
      have hc := part_child hx hsx
      refine solid_ne x _ (nodeOf_child h hc) ?_
      rw [hsx] at hs
      rw [sym_node] at hsx
      rw [hsx.2]; simpa [solid] using hs
  simp only [Red.range, Green.range, Range.ofLen]
  omega

/-! ### nodes with the same range -/

/-- Kinds by how far up a chain of nodes with the same range they stand. -/
private def rank : SyntaxKind → Nat
  | .sourceFile => 5
  | .block => 4
  | .exprStmt | .functionDefContent | .tableContent | .tableKey | .forContent | .callArgs => 3
  | .multivalExpr | .positionalValue | .multiName | .indexPath => 2
  | .assignStmt | .localAssignStmt | .localFunctionDefStmt | .functionDefStmt | .forStmt | .ifStmt | .returnStmt
  | .whileStmt | .breakStmt | .repeatUntilStmt | .labelStmt | .gotoStmt | .doStmt => 1
  | _ => 0

private theorem expr_rank {s : Sym} (h : IsExpr s) : ∀ c, s = .node c → rank c = 0 := by
  obtain ⟨k, hk, rfl⟩ := h
  intro c hc
  cases hc
  revert k; decide

private theorem stmts_rank {ss : List Sym} (h : Stmts ss) : ∀ c, .node c ∈ ss → rank c < 4 := by
  have hd : ∀ k ∈ stmtKinds, rank k < 4 := by decide
  induction h with
  | nil => simp
  | plain k ss hk _ ih =>
    intro c hc
    simp only [List.mem_cons, Sym.node.injEq] at hc
    rcases hc with rfl | hc
    · exact hd _ hk
    · exact ih c hc
  | semi k ss hk _ ih =>
    intro c hc
    simp only [List.mem_cons, Sym.node.injEq, reduceCtorEq, false_or] at hc
    rcases hc with rfl | hc
    · exact hd _ hk
    · exact ih c hc

private theorem sep_mem {sep : SyntaxKind} {item : Sym → Prop} {ss : List Sym} (h : Separated sep item ss) {c : SyntaxKind}
    (hc : .node c ∈ ss) : item (.node c) := by
  induction h with
  | one s h => simp at hc; subst hc; exact h
  | cons s ss h _ ih =>
    simp only [List.mem_cons, reduceCtorEq, false_or] at hc
    rcases hc with hc | hc
    · subst hc; exact h
    · exact ih hc

private theorem names_rank {ss : List Sym} (h : names ss) : ∀ c, .node c ∈ ss → rank c = 0 := by
  intro c hc
  have := sep_mem h hc
  simp at this; subst this; rfl

private theorem unit_rank {k c : SyntaxKind} {ss : List Sym} (P : Production k ss) (hc : .node c ∈ ss)
    (H : ∀ s ∈ ss, solid s = true → s = .node c) : rank c < rank k := by
  cases P with
  | sourceFile => simp at hc; subst hc; decide
  | block ss h => exact stmts_rank h c hc
  | multivalExpr ss h =>
    have := expr_rank (sep_mem h hc) c rfl
    rw [this]; decide
  | multiName ss h => rw [names_rank h c hc]; decide
  | multiNameEmpty => simp at hc
  | tableContent k h => simp at hc; subst hc; revert c; decide
  | tableKey k h => simp at hc; subst hc; revert c; decide
  | functionDefContent k h => simp at hc; subst hc; revert c; decide
  | forContent k h => simp at hc; subst hc; revert c; decide
  | callArgs s h =>
    simp at hc; subst hc
    simp only [List.mem_cons, Sym.node.injEq, reduceCtorEq, List.not_mem_nil, or_false] at h
    rcases h with rfl | rfl <;> decide
  | positionalValue e h => simp at hc; subst hc; rw [expr_rank h c rfl]; decide
  | indexPath ss h =>
    have := sep_mem h hc
    simp at this; subst this; decide
  | exprStmt => simp at hc; subst hc; decide
  | callExpr f h =>
    have h1 := H _ (by simp) (expr_solid h)
    have h2 := H (.node .callArgs) (by simp) rfl
    rw [h1, ← h2] at h
    obtain ⟨k, hk, e⟩ := h
    cases e; exact absurd hk (by decide)
  | indexExpr f h =>
    have h1 := H _ (by simp) (expr_solid h)
    have h2 := H (.node .index) (by simp) rfl
    rw [h1, ← h2] at h
    obtain ⟨k, hk, e⟩ := h
    cases e; exact absurd hk (by decide)
  | functionStatic => exact absurd ((H (.node .indexPath) (by simp) rfl).trans (H (.node .name) (by simp) rfl).symm) (by simp)
  | labelStmt => exact absurd ((H (.node .labelDelim) (by simp) rfl).trans (H (.node .name) (by simp) rfl).symm) (by simp)
  | multiNameComma ss h => exact absurd (H (.tok .comma) (by simp) rfl) (by simp)
  | indexPathDot ss h => exact absurd (H (.tok .dot) (by simp) rfl) (by simp)
  | tableExpr ss h => exact absurd (H (.tok .lBrace) (by simp) rfl) (by simp)
  | _ => first
    | (exfalso; simp [solid] at H; done)
    | (exfalso; simp at hc; done)

private theorem child_rank {k : SyntaxKind} (h : NodeOf text k r) {c : Red} (hc : c ∈ r.children)
   (he : c.range = r.range) : rank c.kind < rank k := by
  obtain ⟨ss, e, P⟩ := production h
  obtain ⟨hp, hs⟩ := child_part hc
  refine unit_rank P (by rw [← e, List.mem_map]; exact ⟨c, hp, hs⟩) ?_
  intro s hmem hsol
  rw [← e, List.mem_map] at hmem
  obtain ⟨x, hx, rfl⟩ := hmem
  have hx' := part_ne h hx hsol
  by_cases hxc : x = c
  · rw [hxc, hs]
  · exfalso
    obtain ⟨h1, h2⟩ := parts_ranges r
    obtain ⟨l1, l2, hl⟩ := List.append_of_mem hp
    have hb := h2 x hx
    rw [hl] at h1 hx
    rw [List.pairwise_append] at h1
    rcases List.mem_append.1 hx with hx | hx
    · have := h1.2.2 x hx c (by simp)
      rw [he] at this; omega
    · rcases List.mem_cons.1 hx with hx | hx
      · exact hxc hx
      · have := (List.pairwise_cons.1 h1.2.1).1 x hx
        rw [he] at this; omega

private theorem below_rank {b : Red} (a : Red) (k : SyntaxKind) : NodeOf text k a → Below a b → a ≠ b → a.range = b.range →
    b.range.start < b.range.stop → rank b.kind < rank k := by
  refine red_ind (P := fun a => ∀ k, NodeOf text k a → Below a b → a ≠ b → a.range = b.range →
    b.range.start < b.range.stop → rank b.kind < rank k) ?_ a k
  intro a ih k h hb hne he hlt
  rcases below_cases hb with e | ⟨c, hc, hcb⟩
  · exact absurd e.symm hne
  · have h1 := child_range (List.mem_filter.1 hc).1
    have h2 := below_range hcb
    simp only [Range.containsRange, Bool.and_eq_true, decide_eq_true_eq] at h1 h2
    have hcr : c.range = a.range := by
      rw [he] at h1 ⊢
      cases hc' : c.range; cases hb' : b.range
      rw [hc', hb'] at h1 h2
      simp only at h1 h2
      simp only [Range.mk.injEq]; omega
    have h3 := child_rank h hc hcr
    by_cases hcb' : c = b
    · rw [← hcb']; exact h3
    · have := ih c hc _ (nodeOf_child h hc) hcb hcb' (hcr.trans he) hlt
      omega

/-! ### C51 -/

/-- **C51** for files without errors: the pointer to a node that is not empty resolves to that very node. -/
theorem C51_error_free_partial (text : Text) (tree : Green) (h : parseText text = .ok (tree, [])) (r : Red)
    (hr : Below (Red.root tree) r) (hne : r.green.text ≠ []) : (NodePtr.new r).toNode tree = some r := by
  have hnode : tree.isNode = true := by
    obtain ⟨_, _, _, _, _, _, h'⟩ := parseText_main text
    rw [h] at h'
    simp only [Except.ok.injEq, Prod.mk.injEq] at h'
    rw [h'.1]; rfl
  have hlen := Text.len_pos hne
  obtain ⟨r', h1, h2, h3, h4, h5⟩ := C51_resolves_partial tree hnode r hr hne
  rw [h1]
  by_cases e : r' = r
  · rw [e]
  · have := below_rank (text := text) r' r'.kind ⟨tree, h, h4, rfl⟩ h5 e h3
      (by simp only [Red.range, Green.range, Range.ofLen, Green.len]; omega)
    rw [h2] at this
    omega

/-! ### C53 -/

private def okBefore : Option Sym → Prop
  | none => False
  | some (.tok _) => True
  | some (.node k) => k = .paramList

/-- Every block comes after a token or a parameter list. -/
private def okBlocks : Option Sym → List Sym → Prop
  | _, [] => True
  | p, s :: ss => (s = .node .block → okBefore p) ∧ okBlocks (some s) ss

private theorem okBlocks_none {ss : List Sym} (h : .node .block ∉ ss) (p : Option Sym) : okBlocks p ss := by
  induction ss generalizing p with
  | nil => trivial
  | cons s ss ih =>
    simp only [List.mem_cons, not_or] at h
    exact ⟨fun e => absurd e.symm h.1, ih h.2 _⟩

private theorem okBlocks_append {ss ts : List Sym} (h : .node .block ∉ ts) (p : Option Sym) (hs : okBlocks p ss) :
    okBlocks p (ss ++ ts) := by
  induction ss generalizing p with
  | nil => exact okBlocks_none h p
  | cons s ss ih => exact ⟨hs.1, ih _ hs.2⟩

private theorem okBlocks_split {pre post : List Sym} (p : Option Sym) (h : okBlocks p (pre ++ .node .block :: post)) :
    (pre = [] ∧ okBefore p) ∨ ∃ xs y, pre = xs ++ [y] ∧ okBefore (some y) := by
  induction pre generalizing p with
  | nil => exact .inl ⟨rfl, h.1 rfl⟩
  | cons s pre ih =>
    rcases ih _ h.2 with ⟨rfl, h'⟩ | ⟨xs, y, rfl, h'⟩
    · exact .inr ⟨[], s, rfl, h'⟩
    · exact .inr ⟨s :: xs, y, rfl, h'⟩

private theorem expr_not_block {s : Sym} (h : IsExpr s) : s ≠ .node .block := by
  obtain ⟨k, hk, rfl⟩ := h
  intro e; cases e; revert hk; decide

private theorem sep_not_block {sep : SyntaxKind} {item : Sym → Prop} (hi : ∀ s, item s → s ≠ .node .block) {ss : List Sym}
    (h : Separated sep item ss) : .node .block ∉ ss := fun hm => hi _ (sep_mem h hm) rfl

private theorem stmts_not_block {ss : List Sym} (h : Stmts ss) : .node .block ∉ ss := fun hm => by
  have := stmts_rank h _ hm
  exact absurd this (by decide)

private theorem entries_not_block {ss : List Sym} (h : Entries ss) : .node .block ∉ ss := by
  induction h <;> simp_all

private theorem elseOpt_not_block {ss : List Sym} (h : ElseOpt ss) : .node .block ∉ ss := by
  cases h <;> simp

private theorem blocks_ok {k : SyntaxKind} {ss : List Sym} (P : Production k ss) (hk : k ≠ .sourceFile) : okBlocks none ss := by
  cases P with
  | sourceFile => exact absurd rfl hk
  | block ss h => exact okBlocks_none (stmts_not_block h) _
  | multivalExpr ss h => exact okBlocks_none (sep_not_block (fun _ => expr_not_block) h) _
  | multiName ss h => exact okBlocks_none (sep_not_block (by rintro _ rfl; simp) h) _
  | multiNameComma ss h => exact okBlocks_append (by simp) _ (okBlocks_none (sep_not_block (by rintro _ rfl; simp) h) _)
  | indexPath ss h => exact okBlocks_none (sep_not_block (by rintro _ rfl; simp) h) _
  | indexPathDot ss h => exact okBlocks_append (by simp) _ (okBlocks_none (sep_not_block (by rintro _ rfl; simp) h) _)
  | tableExpr ss h => exact okBlocks_none (by simp [entries_not_block h]) _
  | callArgs s h => refine okBlocks_none ?_ _; revert s; decide
  | tableContent k h => refine okBlocks_none ?_ _; revert k; decide
  | tableKey k h => refine okBlocks_none ?_ _; revert k; decide
  | functionDefContent k h => refine okBlocks_none ?_ _; revert k; decide
  | forContent k h => refine okBlocks_none ?_ _; revert k; decide
  | infixExpr l op r hl _ hr => exact okBlocks_none (by simp [(expr_not_block hl).symm, (expr_not_block hr).symm]) _
  | prefixExpr op e _ he => exact okBlocks_none (by simp [(expr_not_block he).symm]) _
  | ifStmt e ss he hs =>
    refine okBlocks_append (ss := [.tok .ifKw, e, .tok .thenKw, .node .block]) (ts := ss ++ [.tok .endKw])
      (by simp [elseOpt_not_block hs]) _ ?_
    simp [okBlocks, okBefore, expr_not_block he]
  | elseIfBranch e ss he hs =>
    refine okBlocks_append (ss := [.tok .elseifKw, e, .tok .thenKw, .node .block]) (ts := ss)
      (by simp [elseOpt_not_block hs]) _ ?_
    simp [okBlocks, okBefore, expr_not_block he]
  | parenExpr e he | callExpr e he | methodCallExpr e he | indexExpr e he | dotExpr e he | keyValue e he
  | positionalValue e he | index e he | whileStmt e he | repeatUntilStmt e he | genericFor e he =>
    simp [okBlocks, okBefore, expr_not_block he]
  | _ => simp [okBlocks, okBefore]

/-- The part before a block. -/
private theorem before_block {k : SyntaxKind} (h : NodeOf text k r) (hk : k ≠ .sourceFile) {pre post : List Red} {b : Red}
    (hp : parts r = pre ++ b :: post) (hb : sym b = .node .block) :
    ∃ xs y, pre = xs ++ [y] ∧ ((∃ t, sym y = .tok t) ∨ sym y = .node .paramList) := by
  obtain ⟨ss, e, P⟩ := production h
  have hok := blocks_ok P hk
  rw [← e, hp, List.map_append, List.map_cons, hb] at hok
  rcases okBlocks_split _ hok with ⟨_, h⟩ | ⟨xs, y, h1, h2⟩
  · exact h.elim
  · rcases List.eq_nil_or_concat pre with rfl | ⟨l, x, rfl⟩
    · simp at h1
    · refine ⟨l, x, by simp, ?_⟩
      simp only [List.map_append, List.map_cons, List.map_nil, List.concat_eq_append] at h1
      obtain ⟨_, h1⟩ := List.append_inj' h1 rfl
      simp only [List.cons.injEq, and_true] at h1
      rw [h1]
      cases y with
      | tok t => exact .inl ⟨t, rfl⟩
      | node k => exact .inr (by simp only [okBefore] at h2; rw [h2])

private theorem ok_solid {y : Red} (h : (∃ t, sym y = .tok t) ∨ sym y = .node .paramList) : solid (sym y) = true := by
  rcases h with ⟨t, h⟩ | h <;> rw [h] <;> rfl

private theorem expr_not_file {s : Sym} (h : IsExpr s) : s ≠ .node .sourceFile := by
  obtain ⟨k, hk, rfl⟩ := h
  intro e; cases e; revert hk; decide

private theorem no_file {k : SyntaxKind} {ss : List Sym} (P : Production k ss) : .node .sourceFile ∉ ss := by
  intro hm
  cases P with
  | block ss h => have := stmts_rank h _ hm; exact absurd this (by decide)
  | multivalExpr ss h => exact expr_not_file (sep_mem h hm) rfl
  | multiName ss h => simpa using sep_mem h hm
  | multiNameComma ss h => simp at hm; simpa using sep_mem h hm
  | indexPath ss h => simpa using sep_mem h hm
  | indexPathDot ss h => simp at hm; simpa using sep_mem h hm
  | tableExpr ss h =>
    simp only [List.mem_cons, List.mem_append, reduceCtorEq, List.not_mem_nil, or_false, false_or] at hm
    have : ∀ {ss}, Entries ss → .node .sourceFile ∉ ss := by intro ss h; induction h <;> simp_all
    exact this h hm
  | callArgs s h => simp at hm; subst hm; simp at h
  | tableContent k h | tableKey k h | functionDefContent k h | forContent k h => simp at hm; subst hm; simp at h
  | infixExpr l op r hl _ hr =>
    simp [(expr_not_file hl).symm, (expr_not_file hr).symm] at hm
  | prefixExpr op e _ he => simp [(expr_not_file he).symm] at hm
  | ifStmt e ss he hs => cases hs <;> simp [(expr_not_file he).symm] at hm
  | elseIfBranch e ss he hs => cases hs <;> simp [(expr_not_file he).symm] at hm
  | parenExpr e he | callExpr e he | methodCallExpr e he | indexExpr e he | dotExpr e he | keyValue e he
  | positionalValue e he | index e he | whileStmt e he | repeatUntilStmt e he | genericFor e he =>
    simp [(expr_not_file he).symm] at hm
  | _ => simp at hm

private theorem child_not_file {k : SyntaxKind} (h : NodeOf text k r) {c : Red} (hc : c ∈ r.children) :
    c.kind ≠ .sourceFile := by
  obtain ⟨ss, e, P⟩ := production h
  obtain ⟨hp, hs⟩ := child_part hc
  intro hk
  refine no_file P ?_
  rw [← e, List.mem_map]
  exact ⟨c, hp, by rw [hs, hk]⟩

/-- A block does not start where the node starts it is in. -/
private theorem block_start {b : Red} (a : Red) (k : SyntaxKind) : NodeOf text k a → k ≠ .sourceFile → Below a b →
    b.kind = .block → b.range.start = a.range.start → b = a := by
  refine red_ind (P := fun a => ∀ k, NodeOf text k a → k ≠ .sourceFile → Below a b →
    b.kind = .block → b.range.start = a.range.start → b = a) ?_ a k
  intro a ih k h hk hb hbk he
  rcases below_cases hb with e | ⟨c, hc, hcb⟩
  · exact e
  · exfalso
    have h1 := child_range (List.mem_filter.1 hc).1
    have h2 := below_range hcb
    simp only [Range.containsRange, Bool.and_eq_true, decide_eq_true_eq] at h1 h2
    have hbc := ih c hc _ (nodeOf_child h hc) (child_not_file h hc) hcb hbk (by omega)
    subst hbc
    obtain ⟨hp, hs⟩ := child_part hc
    obtain ⟨pre, post, hpp⟩ := List.append_of_mem hp
    obtain ⟨xs, y, rfl, hy⟩ := before_block h hk hpp (by rw [hs, hbk])
    have hym : y ∈ parts a := by rw [hpp]; simp
    have h3 := part_ne h hym (ok_solid hy)
    obtain ⟨h4, h5⟩ := parts_ranges a
    have h6 := h5 y hym
    rw [hpp, List.pairwise_append] at h4
    have := h4.2.2 y (by simp) b (by simp)
    omega

private theorem child_sym {k : SyntaxKind} (h : NodeOf text k r) {c : Red} (hc : c ∈ r.children) :
    ∃ ss, Production k ss ∧ .node c.kind ∈ ss := by
  obtain ⟨ss, e, P⟩ := production h
  obtain ⟨hp, hs⟩ := child_part hc
  exact ⟨ss, P, by rw [← e, List.mem_map]; exact ⟨c, hp, hs⟩⟩

private theorem params_no_block {a : Red} (h : NodeOf text .paramList a) {b : Red} (hb : Below a b) : b.kind ≠ .block := by
  have kind_of : ∀ {k : SyntaxKind} {r : Red}, NodeOf text k r → r.kind = k := by
    rintro k r ⟨_, _, _, e⟩; exact e
  rcases below_cases hb with rfl | ⟨c, hc, hb⟩
  · rw [kind_of h]; simp
  · obtain ⟨ss, P, hm⟩ := child_sym h hc
    have hck : c.kind = .multiName := by cases P <;> simp at hm <;> exact hm
    have h1 := nodeOf_child h hc
    rcases below_cases hb with rfl | ⟨d, hd, hb⟩
    · rw [hck]; simp
    · obtain ⟨ss, P, hm⟩ := child_sym h1 hd
      rw [hck] at P
      have hdk : d.kind = .name := by
        cases P with
        | multiName ss h => simpa using sep_mem h hm
        | multiNameEmpty => simp at hm
        | multiNameComma ss h => simp at hm; simpa using sep_mem h hm
      have h2 := nodeOf_child h1 hd
      rcases below_cases hb with rfl | ⟨e, he, hb⟩
      · rw [hdk]; simp
      · obtain ⟨ss, P, hm⟩ := child_sym h2 he
        rw [hdk] at P
        cases P; simp at hm

private theorem two_blocks {k : SyntaxKind} (h : NodeOf text k r) {a b c d : Red} (hc : c ∈ r.children) (hd : d ∈ r.children)
    (ha : Below c a) (hb : Below d b) (hak : a.kind = .block) (hbk : b.kind = .block) (e : b.range = a.range)
    {pre post : List Red} (hp : parts r = pre ++ d :: post) (hcp : c ∈ pre) : False := by
  obtain ⟨h1, h2⟩ := parts_ranges r
  rw [hp, List.pairwise_append] at h1
  have h3 := h1.2.2 c hcp d (by simp)
  have ra := below_range ha
  have rb := below_range hb
  simp only [Range.containsRange, Bool.and_eq_true, decide_eq_true_eq] at ra rb
  have h4 := h2 c (child_part hc).1
  have h5 := h2 d (child_part hd).1
  have h6 : a.range.stop = a.range.start + a.green.len := rfl
  rw [e] at rb
  have hbd := block_start d d.kind (nodeOf_child h hd) (child_not_file h hd) hb hbk (by rw [e]; omega)
  subst hbd
  have hk : k ≠ .sourceFile := by
    rintro rfl
    obtain ⟨ss, es, P⟩ := production h
    cases P
    obtain ⟨x, hx, _⟩ := map1 es
    rw [hx] at hp
    have : (pre ++ b :: post).length = 1 := by rw [← hp]; rfl
    have hl : 0 < pre.length := List.length_pos_of_mem hcp
    simp at this; omega
  obtain ⟨xs, y, rfl, hy⟩ := before_block h hk hp (by rw [(child_part hd).2, hbk])
  have hym : y ∈ parts r := by rw [hp]; simp
  have h7 := part_ne h hym (ok_solid hy)
  rcases List.mem_append.1 hcp with hcx | hcy
  · have h8 := (List.pairwise_append.1 h1.1).2.2 c hcx y (by simp)
    have h9 := h1.2.2 y (by simp) b (by simp)
    omega
  · simp only [List.mem_cons, List.not_mem_nil, or_false] at hcy
    subst hcy
    have hs := (child_part hc).2
    rw [hs] at hy
    simp only [reduceCtorEq, exists_false, Sym.node.injEq, false_or] at hy
    have := nodeOf_child h hc
    rw [hy] at this
    exact params_no_block this ha hak

private theorem empty_block_inj (r : Red) (k : SyntaxKind) : NodeOf text k r → ∀ a b, Below r a → Below r b →
    a.kind = .block → b.kind = .block → a.green.len = 0 → b.range = a.range → a = b := by
  refine red_ind (P := fun r => ∀ k, NodeOf text k r → ∀ a b, Below r a → Below r b →
    a.kind = .block → b.kind = .block → a.green.len = 0 → b.range = a.range → a = b) ?_ r k
  intro r ih k h a b ha hb hak hbk hlen e
  have nochild : ∀ {x y : Red}, NodeOf text x.kind x → x.kind = .block → x.green.len = 0 → y ∈ x.children → False := by
    intro x y hx hxk hxl hy
    rw [hxk] at hx
    obtain ⟨ss, P, hm⟩ := child_sym hx hy
    have : thin y.kind = false := by
      have hd : ∀ k ∈ stmtKinds, thin k = false := by decide
      cases P with
      | block ss hS =>
        refine hd _ ?_
        clear hx
        induction hS with
        | nil => simp at hm
        | plain k ss hk _ ih =>
          simp only [List.mem_cons, Sym.node.injEq] at hm
          rcases hm with hm | hm
          · rw [hm]; exact hk
          · exact ih hm
        | semi k ss hk _ ih =>
          simp only [List.mem_cons, Sym.node.injEq, reduceCtorEq, false_or] at hm
          rcases hm with hm | hm
          · rw [hm]; exact hk
          · exact ih hm
    have h1 := solid_ne y _ (nodeOf_child hx hy) this
    have h2 := (parts_ranges x).2 y (child_part hy).1
    have e1 : x.range.stop = x.range.start + x.green.len := rfl
    have e2 : y.range.stop = y.range.start + y.green.len := rfl
    omega
  have hblen : b.green.len = 0 := by
    have e1 : a.range.stop = a.range.start + a.green.len := rfl
    have e2 : b.range.stop = b.range.start + b.green.len := rfl
    rw [e] at e2; omega
  have hrk : NodeOf text r.kind r := by obtain ⟨t, h1, h2, h3⟩ := h; exact ⟨t, h1, h2, rfl⟩
  rcases below_cases ha with ea | ⟨c, hc, hca⟩
  · rcases below_cases hb with eb | ⟨d, hd, hdb⟩
    · rw [ea, eb]
    · subst ea; exact (nochild hrk hak hlen hd).elim
  · rcases below_cases hb with eb | ⟨d, hd, hdb⟩
    · subst eb; exact (nochild hrk hbk hblen hc).elim
    · by_cases hcd : c = d
      · subst hcd
        exact ih c hc _ (nodeOf_child h hc) a b hca hdb hak hbk hlen e
      · exfalso
        obtain ⟨pre, post, hp⟩ := List.append_of_mem (child_part hd).1
        have hcm := (child_part hc).1
        rw [hp] at hcm
        rcases List.mem_append.1 hcm with hx | hx
        · exact two_blocks h hc hd hca hdb hak hbk e hp hx
        · rcases List.mem_cons.1 hx with hx | hx
          · exact hcd hx
          · obtain ⟨p1, p2, rfl⟩ := List.append_of_mem hx
            exact two_blocks h hd hc hdb hca hbk hak e.symm (pre := pre ++ d :: p1) (post := p2) (by rw [hp]; simp) (by simp)

/-- **C53** for files without errors: two items of a file (local declarations, local functions, functions and blocks)
with the same kind and range are the same item. -/
theorem C53_pointers_unique (text : Text) (tree : Green) (h : parseText text = .ok (tree, [])) (a b : Red)
    (ha : Below (Red.root tree) a) (hb : Below (Red.root tree) b) (hi : a.kind ∈ itemKinds)
    (hk : a.kind = b.kind) (hr : a.range = b.range) : a = b := by
  by_cases hne : a.green.text = []
  · have hkb : a.kind = .block := by
      simp only [itemKinds, List.mem_cons, List.not_mem_nil, or_false] at hi
      have hl : a.green.len = 0 := by simp [Green.len, hne, Text.len]
      rcases hi with hi | hi | hi | hi
      · exact absurd hl (solid_ne a _ ⟨tree, h, ha, hi⟩ rfl)
      · exact absurd hl (solid_ne a _ ⟨tree, h, ha, hi⟩ rfl)
      · exact absurd hl (solid_ne a _ ⟨tree, h, ha, hi⟩ rfl)
      · exact hi
    exact empty_block_inj (Red.root tree) _ ⟨tree, h, .self, rfl⟩ a b ha hb hkb (hk ▸ hkb)
      (by simp [Green.len, hne, Text.len]) hr.symm
  · have hneb : b.green.text ≠ [] := by
      have e1 : a.range.stop = a.range.start + a.green.len := rfl
      have e2 : b.range.stop = b.range.start + b.green.len := rfl
      have := Text.len_pos hne
      intro hb
      have : b.green.len = 0 := by simp [Green.len, hb, Text.len]
      have e3 : a.green.len = Text.len a.green.text := rfl
      rw [hr] at e1; omega
    have h1 := C51_error_free_partial text tree h a ha hne
    have h2 := C51_error_free_partial text tree h b hb hneb
    have : NodePtr.new a = NodePtr.new b := by simp [NodePtr.new, hk, hr]
    rw [this, h2] at h1
    exact (Option.some.inj h1).symm

/-- **C53** for files without errors, without the assertion on the root: the map made from a node of the tree gives every
item below it an id, different items different ids, and the id of an item that is not empty leads back to that
very item.  (Missing: the assertion, which every caller violates; empty blocks, whose pointers do not resolve.) -/
theorem C53_error_free_partial (text : Text) (tree : Green) (h : parseText text = .ok (tree, [])) (node : Red)
    (hn : Below (Red.root tree) node) (hp : node.path ≠ []) :
    ∃ arena, AstIdMap.fromSource node = some arena ∧
      (∀ item, Below node item → item.kind ∈ itemKinds → ∃ id, AstIdMap.astId arena item = some id ∧
        (∀ other, Below node other → AstIdMap.astId arena other = some id → other = item) ∧
        ∀ canCast : SyntaxKind → Bool, canCast item.kind = true → item.green.text ≠ [] →
          (AstIdMap.get arena canCast id).bind (NodePtr.toNode · tree) = some item) := by
  have trans : ∀ {x}, Below node x → Below (Red.root tree) x := by
    intro x hx
    induction hx with
    | self => exact hn
    | child _ hc ih => exact .child ih hc
  have hnode : node.green.isNode = true := by
    cases hn with
    | self => exact absurd rfl hp
    | child _ hc => exact child_node hc
  obtain ⟨arena, h1, h2, h3⟩ := C53_ids_partial node hnode hp
  refine ⟨arena, h1, ?_⟩
  intro item hb hi
  obtain ⟨id, h4, h5⟩ := h2 item hb hi
  refine ⟨id, h4, ?_, ?_⟩
  · intro other ho hid
    obtain ⟨h6, h7⟩ := h3 item other id h4 hid
    exact (C53_pointers_unique text tree h item other (trans hb) (trans ho) hi h6 h7).symm
  · intro canCast hc hne
    rw [h5 canCast hc]
    exact C51_error_free_partial text tree h item (trans hb) hne

/-- The hypotheses are met: in `x=function(a)end` the body of the file has a parent and is an item that is not empty, and
the empty body of the function is an item below it. -/
example : parseText "x=function(a)end".toList = .ok (program6, []) ∧
    ∃ node item : Red, Below (Red.root program6) node ∧ node.path ≠ [] ∧ Below node item ∧
      node.kind ∈ itemKinds ∧ node.green.text ≠ [] ∧ item.kind ∈ itemKinds ∧ node ≠ item := by
  refine ⟨program6_parses, ⟨[0], 0, program6.children.headD default⟩,
    ⟨[0, 0, 2, 0, 2], 13, .node .block []⟩, .child .self (by simp [program6, Red.children, Red.elems, Red.elemsFrom, Red.root, Green.children, Green.isNode]),
    by simp, ?_, (show SyntaxKind.block ∈ itemKinds by decide), by simp [program6, Green.children, Green.text, Green.textL],
    (show SyntaxKind.block ∈ itemKinds by decide), by simp⟩
  refine .child (.child (.child (.child (p := ⟨[0], 0, program6.children.headD default⟩) .self
    (c := ⟨[0, 0], 0, ((program6.children.headD default).children).headD default⟩) ?_)
    (c := ⟨[0, 0, 2], 2, (((program6.children.headD default).children).headD default).children.getD 2 default⟩) ?_)
    (c := ⟨[0, 0, 2, 0], 2, ((((program6.children.headD default).children).headD default).children.getD 2 default).children.headD default⟩) ?_) ?_ <;>
  simp [program6, Red.children, Red.elems, Red.elemsFrom, Green.children, Green.isNode, Green.len, Green.text, Green.textL, Text.len, List.filter_cons]
  all_goals decide

end Verif
