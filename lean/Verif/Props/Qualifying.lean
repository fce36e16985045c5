import Verif.Proof.NodePrim
import Verif.Proof.PutChecks
import Verif.Props.Placing
import Verif.Props.Exchange

/-
C129: names, indices, calls and parentheses may stand wherever an expression may.
-/
namespace Verif
open Lexer Accept PTree Lua Nest Put
open Spec hiding callable

private theorem first_child {q : Red} {k : SyntaxKind} {pre post : List Green} {v : Red} (hq : q.green = .node k (pre ++ v.green :: post))
    (hv : v.path = q.path ++ [pre.length]) (ho : v.off = q.off + wlen (Green.leavesL pre)) (hn : v.green.isNode = true)
    (h : pre.any (·.isNode) = false) : q.children.head? = some v := by
  have key : ∀ (pre : List Green) (i off : Nat), v.path = q.path ++ [i + pre.length] → v.off = off + wlen (Green.leavesL pre) →
      pre.any (·.isNode) = false →
      ((Red.elemsFrom q.path i off (pre ++ v.green :: post)).filter (·.green.isNode)).head? = some v := by
    intro pre
    induction pre with
    | nil =>
      intro i off h1 h2 _
      simp only [List.nil_append, Red.elemsFrom, List.filter_cons, hn]
      simp only [List.length_nil, Nat.add_zero] at h1
      simp only [Green.leavesL, wlen_nil, Nat.add_zero] at h2
      obtain ⟨vp, vo, vg⟩ := v
      simp_all
    | cons g pre ih =>
      intro i off h1 h2 h3
      simp only [List.any_cons, Bool.or_eq_false_iff] at h3
      have hl : g.len = wlen g.leaves := by rw [Green.len, text_leaves]; rfl
      have := ih (i + 1) (off + g.len) (by rw [h1]; simp; omega) (by rw [h2, hl]; simp [Green.leavesL]; omega) h3.2
      simpa [Red.elemsFrom, List.filter_cons, h3.1] using this
  have := key pre 0 q.off (by simpa using hv) ho h
  rw [Red.children, Red.elems, hq]
  simpa [Green.children] using this

private theorem sig_eq (ls : List Lx) : significant ls = realKinds ls := by
  have h : ∀ k : SyntaxKind, decide (k ≠ .whitespace ∧ k ≠ .comment) = !k.isTrivia := by intro k; cases k <;> rfl
  induction ls with
  | nil => rfl
  | cons l ls ih =>
    simp only [significant, realKinds, List.map_cons, List.filter_cons, h, isTriv] at ih ⊢
    cases l.1.isTrivia <;> simp [ih]

private theorem split_at {F X F' X' : List Lx} (h : F ++ X = F' ++ X') (hw : wlen F = wlen F')
    (hne : ∀ l ∈ F ++ X, l.2 ≠ []) : F = F' ∧ X = X' := by
  have pos : ∀ l : Lx, l.2 ≠ [] → 0 < Text.len l.2 := by
    intro l hl
    obtain ⟨c, cs, e⟩ := List.exists_cons_of_ne_nil hl
    rw [e]
    have := Char.utf8Size_pos c
    simp [Text.len]
    omega
  rcases List.append_eq_append_iff.1 h with ⟨q, e1, e2⟩ | ⟨q, e1, e2⟩
  · cases q with
    | nil => exact ⟨by simpa using e1.symm, by simpa using e2⟩
    | cons l q =>
      rw [e1] at hw
      have := pos l (hne l (by rw [e2]; simp))
      simp at hw; omega
  · cases q with
    | nil => exact ⟨by simpa using e1, by simpa using e2.symm⟩
    | cons l q =>
      rw [e1] at hw
      have := pos l (hne l (by rw [e1]; simp))
      simp at hw; omega

private theorem spot {V : List SyntaxKind} {tree y : Green} {p r1 : Red} (hroot : tree.kind = .sourceFile) (hV : SyntaxKind.sourceFile ∉ V)
    (hp : Below (Red.root tree) p) (hr : r1 ∈ p.children)
    (hplace : p.kind ∈ V ∨ p.kind = .multivalExpr ∧ ∀ q, Below (Red.root tree) q → p ∈ q.children →
      q.kind ≠ .exprStmt ∧ (q.kind = .assignStmt → q.children.head? ≠ some p)) :
    ∃ a b g', Put.GP V r1.green y false false r1.path a b tree g' ∧ r1.off = wlen a := by
  have split : ∀ {u v : Red}, v ∈ u.children → ∃ pre post, u.green = .node u.kind (pre ++ v.green :: post) ∧
      v.path = u.path ++ [pre.length] ∧ v.off = u.off + wlen (Green.leavesL pre) := by
    intro u v hv
    obtain ⟨pre, post, a1, a2, a3⟩ := elemsFrom_split (List.mem_filter.1 hv).1
    refine ⟨pre, post, ?_, by simpa using a2, a3⟩
    cases hu : u.green with
    | token k w => rw [hu] at a1; simp [Green.children] at a1
    | node k cs =>
      rw [hu] at a1
      simp only [Green.children] at a1
      rw [a1]
      show _ = Green.node u.green.kind _
      rw [hu]; rfl
  obtain ⟨pre1, post1, sp, pp, po⟩ := split hr
  cases hp with
  | self =>
    exfalso
    have : (Red.root tree).kind = .sourceFile := by show tree.kind = _; exact hroot
    rw [this] at hplace
    rcases hplace with h | h
    · exact hV h
    · exact absurd h.1 (by decide)
  | @child q _ hq hpq =>
  obtain ⟨pre2, post2, sq, pq, oq⟩ := split hpq
  obtain ⟨a0, b0, ctx, ho⟩ := (inTree_root tree).below hq
  have gw : ∀ j k, Put.GP V r1.green y j k ([pre2.length, pre1.length]) (Green.leavesL pre2 ++ (Green.leavesL pre1 ++ []))
      (([] ++ Green.leavesL post1) ++ Green.leavesL post2) q.green
      (.node q.kind (pre2 ++ .node p.kind (pre1 ++ y :: post1) :: post2)) := by
    intro j k
    have hflag : (decide (p.kind ∈ V) || (decide (p.kind = .multivalExpr) &&
        (decide (q.kind ≠ .exprStmt ∧ q.kind ≠ .assignStmt) || pre2.any (·.isNode)))) = true := by
      rcases hplace with h | ⟨h3, h4⟩
      · simp only [h, decide_true, Bool.true_or]
      · obtain ⟨h5, h6⟩ := h4 q hq hpq
        have : (decide (q.kind ≠ .exprStmt ∧ q.kind ≠ .assignStmt) || pre2.any (·.isNode)) = true := by
          by_cases ha : q.kind = .assignStmt
          · cases hn : pre2.any (·.isNode) with
            | true => simp
            | false => exact absurd (first_child sq pq oq (child_node hpq) hn) (h6 ha)
          · simp [h5, ha]
        rw [this, h3]; simp
    have hin : Put.GP V r1.green y
        (decide (p.kind ∈ V) || (decide (p.kind = .multivalExpr) &&
          (decide (q.kind ≠ .exprStmt ∧ q.kind ≠ .assignStmt) || pre2.any (·.isNode))))
        (decide (p.kind ≠ .exprStmt ∧ p.kind ≠ .assignStmt) || pre1.any (·.isNode)) [] [] [] r1.green y := by
      rw [hflag]; exact .here
    rw [sq, sp]
    exact .down (.down hin)
  obtain ⟨g', gwt⟩ := Put.GP.of ctx gw
  have gwF := gwt false false
  have hpath : q.path ++ [pre2.length, pre1.length] = r1.path := by rw [pp, pq]; simp
  have hoffT : r1.off = wlen (a0 ++ (Green.leavesL pre2 ++ (Green.leavesL pre1 ++ []))) := by
    rw [po, oq, ho]; simp; omega
  rw [hpath] at gwF
  exact ⟨_, _, g', gwF, hoffT⟩

private theorem facts {text1 text2 : Text} {tree1 tree2 : Green} {r2 : Red} (h1 : sourceFileParse text1 = .ok (tree1, []))
    (h2 : sourceFileParse text2 = .ok (tree2, [])) (hr2 : Below (Red.root tree2) r2) (hk2 : r2.kind ∈ primaryKinds) :
    tree1.kind = .sourceFile ∧ (∀ n ∈ inner tree1, stmtFine n) ∧
      (∀ n ∈ inner tree1, n.kind = .literal → ∃ l : Lx, n = .node .literal [leaf l]) ∧
      r2.green.isNode = true ∧ ∀ n ∈ inner r2.green, stmtFine n := by
  obtain ⟨us, gs2, m, hg2, hder2, hnb, hpl2, fine2⟩ := Put.expr_facts h2 hr2 ((by decide : ∀ k ∈ primaryKinds, k ∈ expressionKinds) _ hk2)
  obtain ⟨p1, v1⟩ := (C78_accepted text1 tree1).1 h1
  obtain ⟨ls, ts, l1, -, y1, ⟨-, d1⟩, e1⟩ := parseText_main text1
  obtain ⟨ls', tree', errs', l1', q1, lit1, -, lv1, -⟩ := parseText_tree text1
  rw [p1] at q1 e1
  simp only [Except.ok.injEq, Prod.mk.injEq] at q1 e1
  obtain ⟨rfl, rfl⟩ := q1
  obtain ⟨e1, f1⟩ := e1
  have fine : ∀ n ∈ inner tree1, Fine n := by simp only [inner, List.forall_mem_map]; exact v1
  have lg : ∀ n ∈ inner tree1, n.kind = .literal → ∃ l : Lx, n = .node .literal [leaf l] := by
    intro n hn hk
    simp only [inner, List.mem_map] at hn
    obtain ⟨p, hp, rfl⟩ := hn
    obtain ⟨l, h1, -⟩ := litOk_nodes lit1 hp hk
    exact ⟨l, h1⟩
  exact ⟨by rw [e1]; rfl, fun n hn => ((fine_iff n).1 (fine n hn)).1, lg, by rw [hg2]; rfl,
    fun n hn => ((fine_iff n).1 (fine2 n hn)).1⟩

private theorem core (text1 text2 : Text) (tree1 tree2 : Green) (p r1 r2 : Red) (F E : List (SyntaxKind × Text))
    (h1 : sourceFileParse text1 = .ok (tree1, [])) (hp : Below (Red.root tree1) p) (hr : r1 ∈ p.children)
    (hk : r1.kind ∈ expressionKinds)
    (hplace : p.kind ∈ openPlaces)
    (hl : tree1.leaves = F ++ r1.green.leaves ++ E) (hoff : r1.off = (spelled F).len)
    (hbehind : r1.kind ∈ Spec.callable ∨ (significant E).head? ≠ some .lParen)
    (h2 : sourceFileParse text2 = .ok (tree2, [])) (hr2 : Below (Red.root tree2) r2) (hk2 : r2.kind ∈ primaryKinds)
    (hfirst : (significant r2.green.leaves).head? = some .ident ∨ (significant r2.green.leaves).head? = some .lParen)
    (hbefore : ∀ k, (significant F).getLast? = some k → k ≠ .colon ∧
      ((significant r2.green.leaves).head? = some .lParen → k ∉ callEnds))
    (hlex : tokenize (spelled F ++ (r2.green.text ++ spelled E)) =
      .ok ((F ++ r2.green.leaves ++ E).map fun l => ⟨l.1, Text.len l.2⟩, []))
    (hfine : ∀ n ∈ inner (Green.replaceAt r2.green r1.path tree1),
      stmtFine n ∧ (n.kind = .literal → n ∈ inner tree1 ∨ n ∈ inner r2.green)) :
    sourceFileParse (spelled F ++ (r2.green.text ++ spelled E)) = .ok (Green.replaceAt r2.green r1.path tree1, []) := by
  obtain ⟨us, gs2, m, hg2, hder2, hnb, hpl2, fine2⟩ := Put.expr_facts h2 hr2 ((by decide : ∀ k ∈ primaryKinds, k ∈ expressionKinds) _ hk2)
  obtain ⟨p1, v1⟩ := (C78_accepted text1 tree1).1 h1
  obtain ⟨ls, ts, l1, -, y1, ⟨-, d1⟩, e1⟩ := parseText_main text1
  obtain ⟨ls', tree', errs', l1', q1, lit1, -, lv1, -⟩ := parseText_tree text1
  obtain rfl := l1.unique l1'
  rw [p1] at q1 e1
  simp only [Except.ok.injEq, Prod.mk.injEq] at q1 e1
  obtain ⟨rfl, rfl⟩ := q1
  obtain ⟨e1, f1⟩ := e1
  obtain ⟨f1, x1⟩ := List.append_eq_nil_iff.1 f1.symm
  have x1 := (errs_none 0).1 x1
  have he := placeL_errs_nil _ _ _ f1
  obtain ⟨b0, hb0, hd⟩ := d1 he
  simp only [PTree.node.injEq, List.cons.injEq, and_true, true_and] at hb0
  subst hb0
  have fine : ∀ n ∈ inner tree1, Fine n := by simp only [inner, List.forall_mem_map]; exact v1
  have hrn := child_node hr
  obtain ⟨K, gs, hgs⟩ : ∃ K gs, r1.green = .node K gs := by
    cases hg : r1.green with
    | token => rw [hg] at hrn; simp [Green.isNode] at hrn
    | node k gs => exact ⟨k, gs, rfl⟩
  have hKr : r1.kind = K := by show r1.green.kind = K; rw [hgs]; rfl
  rw [hKr] at hk
  obtain ⟨a, b, g', gwF, hoffT⟩ := spot (V := openPlaces) (y := r2.green) (by rw [e1]; rfl) (by decide) hp hr (.inl hplace)
  rw [hgs] at gwF
  have hrep := gwF.replace
  rw [e1] at gwF
  generalize hpt : r1.path = path at gwF
  generalize hsrc : (Green.node .sourceFile _) = src at gwF
  cases gwF with
  | @down _ _ k1 prea c1 c1' posta q1 a1 b1 gwF =>
  simp only [Green.node.injEq] at hsrc
  obtain ⟨rfl, hsrc⟩ := hsrc
  obtain ⟨rfl, rfl, rfl⟩ : prea = [] ∧ _ ∧ posta = [] := by
    cases prea with
    | nil => simp only [List.nil_append, List.cons.injEq] at hsrc; exact ⟨rfl, hsrc.1, hsrc.2.symm⟩
    | cons z zs => simp at hsrc
  generalize hblk : (Green.node .block _) = blk at gwF
  replace gwF : Put.GP openPlaces (.node K gs) r2.green false true q1 a1 b1 blk c1' := gwF
  cases gwF with
  | @down _ _ k2 pre c c' post0 q2 a2 b2 gwF =>
  simp only [Green.node.injEq] at hblk
  obtain ⟨rfl, hblk⟩ := hblk
  replace gwF : Put.GP openPlaces (.node K gs) r2.green false (true || pre.any (·.isNode)) q2 a2 b2 c c' := gwF
  have hr2n : r2.green.isNode = true := by rw [hg2]; rfl
  have hc := (gwF.node rfl hr2n).1
  have : ∃ post, (placeL text1.len ts (ls.map lxOf)).greens = pre ++ c :: post ∧
      post0 = post ++ (placeL text1.len ts (ls.map lxOf)).rest.map leaf := by
    rcases List.append_eq_append_iff.1 hblk with ⟨q, e2, e3⟩ | ⟨q, e2, e3⟩
    · exfalso
      have : c ∈ (placeL text1.len ts (ls.map lxOf)).rest.map leaf := by rw [e3]; simp
      rw [List.mem_map] at this
      obtain ⟨l, -, rfl⟩ := this
      simp [leaf, Green.isNode] at hc
    · cases q with
      | nil =>
        exfalso
        have : c ∈ (placeL text1.len ts (ls.map lxOf)).rest.map leaf := by
          simp only [List.nil_append] at e3; rw [← e3]; simp
        rw [List.mem_map] at this
        obtain ⟨l, -, rfl⟩ := this
        simp [leaf, Green.isNode] at hc
      | cons z q =>
        simp only [List.cons_append, List.cons.injEq] at e3
        exact ⟨q, by rw [e2, e3.1], e3.2⟩
  obtain ⟨post, pl1, rfl⟩ := this
  have hlv1 : ls.map lxOf = (Green.leavesL pre ++ a2) ++ (Green.leavesL gs ++ (b2 ++ (Green.leavesL post ++
      (placeL text1.len ts (ls.map lxOf)).rest))) := by
    have h3 := placeL_leaves text1.len ts (ls.map lxOf)
    rw [pl1, leavesL_append, Green.leavesL, gwF.leaves.1] at h3
    conv => lhs; rw [← h3]
    simp [Green.leaves]
  have hlx : tree1.leaves = ls.map lxOf := by rw [lv1]
  have hne : ∀ l ∈ ls.map lxOf, l.2 ≠ [] := by
    intro l hl
    rw [List.mem_map] at hl
    obtain ⟨x, hx, rfl⟩ := hl
    exact l1.words_ne x hx
  obtain ⟨rfl, hrest⟩ := split_at (F := F) (X := r1.green.leaves ++ E) (F' := Green.leavesL pre ++ a2)
    (by rw [← hlv1, ← hlx, hl, List.append_assoc]) (by
      rw [hoffT] at hoff
      show (spelled F).len = _
      rw [← hoff]; simp [Green.leavesL]) (by rw [← List.append_assoc, ← hl, hlx]; exact hne)
  rw [hgs] at hrest
  simp only [Green.leaves] at hrest
  have hE := List.append_cancel_left hrest
  -- the new tree
  have gwF' : Put.GP openPlaces (.node K gs) (.node r2.kind (placeL m us (Green.leavesL gs2)).greens) false (true || pre.any (·.isNode)) q2 a2 b2 c c' := by
    rw [hpl2, ← hg2]; exact gwF
  obtain ⟨ts', wr, g1, g2, g3, st⟩ := placeL_put (A := [K]) (s := true) hnb (List.mem_singleton.2 rfl) text1.len 0 ts (r := []) (by rw [y1]; simp) he pl1 gwF'
  have hrestk : realKinds (placeL text1.len ts (ls.map lxOf)).rest = [] := Pst.realKindsL_suffix _ ts (by rw [y1]; simp)
  have hd' : Deriv .accepted .block [.node .block ts'] := by
    have hsg : significant r2.green.leaves = yieldL us := by
      rw [sig_eq, hg2, Green.leaves, hnb.kinds]
    rw [hsg] at hfirst hbefore
    obtain ⟨f, y, hy, hf⟩ : ∃ f y, yieldL us = f :: y ∧ (f = .ident ∨ f = .lParen) := by
      cases hu : yieldL us with
      | nil => rw [hu] at hfirst; simp at hfirst
      | cons f y => rw [hu] at hfirst; exact ⟨f, y, rfl, by simpa using hfirst⟩
    have hE' : Prm.Prime (.node r2.kind us) f := ⟨⟨r2.kind, hk2, rfl⟩, ⟨y, by simpa [PTree.yield] using hy⟩, hf⟩
    refine Prm.deriv_prim (K := K) hE' hder2 hd (p := false) nofun ⟨false, _, _, .down (ts := []) wr, hk, fun k hk => ?_, ?_⟩
    · have := hbefore k (by rw [sig_eq]; exact hk)
      rw [hy] at this
      exact ⟨this.1, fun e => this.2 (by rw [e]; rfl)⟩
    · rcases hbehind with h | h
      · rw [hKr] at h
        exact .inl (by simpa [Spec.callable, callableKinds] using h)
      · right
        rw [sig_eq, hE, realKinds_append, realKinds_append, hrestk] at h
        simpa [realKinds_append, yieldL] using h
  -- the new tokens
  have hr2l : r2.green.leaves = Green.leavesL gs2 := by rw [hg2]; simp [Green.leaves]
  obtain ⟨ls2, l2, hls2, hnoerr⟩ := C128_tokens_lexemes (L := (Green.leavesL pre ++ a2) ++ r2.green.leaves ++ E) hlex (by
    rw [text_leaves]; simp [wordsOf, spelled])
  have htoks : ls2.map lxOf = Green.leavesL pre ++ a2 ++ Green.leavesL gs2 ++ b2 ++ Green.leavesL post ++
        (placeL text1.len ts (List.map lxOf ls)).rest := by
    rw [hls2, hE, hr2l]; simp
  rw [← htoks] at g1 g2 g3
  have hparse := parse_of_deriv l2 hd' (by simpa [errorsL, errors] using deriv_errors hd') (by rw [g3]; simp) 0
  rw [(errs_none 0).2 hnoerr, g1, g2] at hparse
  have htree : Green.replaceAt r2.green r1.path tree1 = .node .sourceFile [.node .block
      ((pre ++ c' :: post) ++ (placeL text1.len ts (List.map lxOf ls)).rest.map leaf)] := by
    rw [← hrep]
    simp
  rw [← hpt]
  refine (C78_accepted _ _).2 ⟨by rw [hparse, htree], ?_⟩
  intro p hp
  have hmem : p.2 ∈ inner (Green.replaceAt r2.green r1.path tree1) := List.mem_map.2 ⟨p, hp, rfl⟩
  obtain ⟨k1, k2⟩ := hfine _ hmem
  refine (fine_iff p.2).2 ⟨k1, fun w hw => ?_⟩
  rcases k2 (by rw [hw]; rfl) with h | h
  · exact (fine _ h).literal w hw
  · exact (fine2 _ h).literal w hw

/-- **C129** In a file without errors, an expression at any place where expressions may stand, other than one that is a statement,
a target of an assignment or behind `:`, may be replaced by any expression of any file without errors that is written as a name or
something in parentheses, followed by indices and calls, if the tokens stay what they are. If the other expression starts with
`(`, no expression that can be called may end directly before; if `(` follows, the old expression must be one that can be called.
The result is a file without errors, and its tree is the old one with the one node replaced by the other. -/
theorem C129_replace (text1 text2 : Text) (tree1 tree2 : Green) (p r1 r2 : Red) (F E : List (SyntaxKind × Text))
    (h1 : sourceFileParse text1 = .ok (tree1, [])) (hp : Below (Red.root tree1) p) (hr : r1 ∈ p.children)
    (hk : r1.kind ∈ expressionKinds)
    (hplace : p.kind ∈ operandPlaces ∨ p.kind = .multivalExpr ∧ ∀ q, Below (Red.root tree1) q → p ∈ q.children →
      q.kind ≠ .exprStmt ∧ (q.kind = .assignStmt → q.children.head? ≠ some p))
    (hl : tree1.leaves = F ++ r1.green.leaves ++ E) (hoff : r1.off = (spelled F).len)
    (hbehind : r1.kind ∈ Spec.callable ∨ (significant E).head? ≠ some .lParen)
    (h2 : sourceFileParse text2 = .ok (tree2, [])) (hr2 : Below (Red.root tree2) r2) (hk2 : r2.kind ∈ primaryKinds)
    (hfirst : (significant r2.green.leaves).head? = some .ident ∨ (significant r2.green.leaves).head? = some .lParen)
    (hbefore : ∀ k, (significant F).getLast? = some k → k ≠ .colon ∧
      ((significant r2.green.leaves).head? = some .lParen → k ∉ callEnds))
    (hlex : tokenize (spelled F ++ (r2.green.text ++ spelled E)) =
      .ok ((F ++ r2.green.leaves ++ E).map fun l => ⟨l.1, Text.len l.2⟩, [])) :
    sourceFileParse (spelled F ++ (r2.green.text ++ spelled E)) = .ok (Green.replaceAt r2.green r1.path tree1, []) := by
  obtain ⟨f1, f2, f3, f4, f5⟩ := facts h1 h2 hr2 hk2
  have hop : p.kind ∈ openPlaces := by
    rcases hplace with h | h
    · exact (List.mem_filter.1 h).1
    · rw [h.1]; decide
  obtain ⟨a, b, g', gw, -⟩ := spot (V := operandPlaces) (y := r2.green) f1 (by decide) hp hr hplace
  obtain ⟨k1, -, -, k2⟩ := put_fine (V := operandPlaces) (by decide) hk (child_node hr) f4 f5 gw f2 f3
  rw [gw.replace] at k1 k2
  exact core text1 text2 tree1 tree2 p r1 r2 F E h1 hp hr hk hop hl hoff hbehind h2 hr2 hk2 hfirst hbefore hlex
    fun n hn => ⟨k1 n hn, k2 n hn⟩

private theorem last_alone : ∀ s ∈ operators, s.2 ∈ Wrp.callLast → ∀ p ∈ operators, s.1.toList <+: p.1.toList →
    p.1.toList.length ≤ s.1.toList.length := by decide +kernel

/-- Behind the last token of what can be called, everything may stand that may stand behind a name. -/
private theorem reads_last {w : Text} {k : SyntaxKind} {rest B : Text} (h : Reads w k none rest) (hk : k ∈ Wrp.callLast)
    (hB : ∀ c, B.head? = some c → nameChar c = false) : Reads w k none B := by
  generalize he : (none : Option String) = err at h
  cases h with
  | keyword h1 h2 => exact .keyword h1 hB
  | name h1 h2 h3 h4 => exact .name h1 h2 h3 hB
  | @operator s k rest h1 h2 h3 h4 =>
    have hne : ∀ p ∈ operators, p.2 ∈ Wrp.callLast → p.1 ≠ "-" ∧ p.1 ≠ "[" := by decide
    refine .operator h1 (fun p hp hpre => ?_) (fun e => absurd e (hne _ h1 hk).1) (fun e => absurd e (hne _ h1 hk).2)
    refine Nat.le_of_not_lt fun hlt => ?_
    have hsp : s.toList <+: p.1.toList := List.prefix_of_prefix_length_le (List.prefix_append _ _) hpre (Nat.le_of_lt hlt)
    have := last_alone (s, k) h1 hk p hp hsp
    simp only at this
    omega
  | quoted h1 h2 h3 => exact .quoted h1 h2 h3
  | long h1 h2 => exact .long h1 h2
  | quotedEnd | quotedLine | longBad | longEnd | other => cases he
  | space | tilde | number | lineComment | blockComment | blockCommentEnd => exact absurd hk (by decide)

private theorem start_char {c : Char} (h : nameStart c = true) : nameChar c = true ∧
    c ∉ spaces ++ ['=', ':', '.', '-', '[', ']', '\n', '\x00'] ∧ c ≠ '\n' ∧ c ≠ '\x00' := by
  have h1 : ∀ x ∈ spaces ++ ['=', ':', '.', '-', '[', ']', '\n', '\x00'], nameStart x = false := by decide
  refine ⟨?_, fun hm => ?_, ?_, ?_⟩
  · unfold nameStart at h
    unfold nameChar
    simp only [Bool.or_eq_true] at h ⊢
    rcases h with h | h
    · exact .inl (by simp [Char.isAlphanum, h])
    · exact .inr h
  · rw [h1 c hm] at h; cases h
  · rintro rfl; revert h; decide
  · rintro rfl; revert h; decide

/-- a name is read by the rule for names -/
private theorem name_rule {w rest : Text} {k : SyntaxKind} (h : Reads w k none rest) (hk : k = .ident) :
    (∃ c v, w = c :: v ∧ nameStart c = true) ∧ ∀ c, rest.head? = some c → nameChar c = false := by
  cases h with
  | keyword hm =>
    have : ∀ p ∈ keywords, p.2 ≠ .ident := by decide
    exact absurd hk (this _ hm)
  | operator hm =>
    have : ∀ p ∈ operators, p.2 ≠ .ident := by decide
    exact absurd hk (this _ hm)
  | name h1 _ _ h4 => exact ⟨⟨_, _, rfl, h1⟩, h4⟩
  | _ => cases hk

private theorem paren_rule {w rest : Text} {k : SyntaxKind} (h : Reads w k none rest) (hk : k = .lParen) : w = ['('] := by
  cases h with
  | keyword hm =>
    have : ∀ p ∈ keywords, p.2 ≠ .lParen := by decide
    exact absurd hk (this _ hm)
  | operator hm =>
    have : ∀ p ∈ operators, p.2 = .lParen → p.1.toList = ['('] := by decide
    exact this _ hm hk
  | _ => cases hk

private theorem name_leaves {text : Text} {tree : Green} {r : Red} (h : sourceFileParse text = .ok (tree, []))
    (hr : Below (Red.root tree) r) (hk : r.kind = .nameRef) : ∃ w, r.green.leaves = [(.ident, w)] := by
  obtain ⟨cs, gs, m, hg, hder, hnb, -, -⟩ := Put.expr_facts h hr (by rw [hk]; decide)
  rw [hk] at hder hg
  have hcs : cs = [.tok .ident] := by
    generalize ht : [PTree.node .nameRef cs] = ts at hder
    cases hder <;> simp [nameRefT] at ht
    exact ht
  obtain ⟨A1, z, ez, hz⟩ := Wrp.placeL_end m cs (A := Green.leavesL gs) (r := []) (by rw [hnb.kinds]; simp) hnb.solid
  rw [hnb.rest] at ez
  have hkinds := hnb.kinds
  have hst := hnb.start
  rw [ez, hcs] at hkinds
  rw [ez] at hst
  have : A1 = [] := by
    cases A1 with
    | nil => rfl
    | cons a A1 =>
      have ha := hst a rfl
      simp [realKinds, yieldL, PTree.yield, ha, hz] at hkinds
  subst this
  rw [hg, Green.leaves, ez]
  simp [realKinds, yieldL, PTree.yield, hz] at hkinds
  exact ⟨z.2, by rw [← hkinds]; rfl⟩

/-- **C129** The tokens stay what they are if it is a name that is replaced, unless the other expression starts with a name and a
number stands directly before. -/
theorem C129_fits (text1 text2 : Text) (tree1 tree2 : Green) (r1 r2 : Red) (F E : List (SyntaxKind × Text))
    (h1 : sourceFileParse text1 = .ok (tree1, [])) (hr1 : Below (Red.root tree1) r1) (hk1 : r1.kind = .nameRef)
    (hl : tree1.leaves = F ++ r1.green.leaves ++ E)
    (h2 : sourceFileParse text2 = .ok (tree2, [])) (hr2 : Below (Red.root tree2) r2) (hk2 : r2.kind ∈ primaryKinds)
    (hfirst : (significant r2.green.leaves).head? = some .ident ∨ (significant r2.green.leaves).head? = some .lParen)
    (hnum : ∀ l, F.getLast? = some l → l.1 = .number → (significant r2.green.leaves).head? = some .lParen) :
    tokenize (spelled F ++ (r2.green.text ++ spelled E)) =
      .ok ((F ++ r2.green.leaves ++ E).map fun l => ⟨l.1, Text.len l.2⟩, []) := by
  obtain ⟨w0, hw0⟩ := name_leaves h1 hr1 hk1
  obtain ⟨cs, gs, m, hg, hder, hnb, -, -⟩ := Put.expr_facts h2 hr2 ((by decide : ∀ k ∈ primaryKinds, k ∈ expressionKinds) _ hk2)
  obtain ⟨hsolid, -⟩ := Wrp.exp_of hder
  obtain ⟨ls1, l1, e1, x1⟩ := lexemes_of_ok h1
  obtain ⟨ls2, l2, e2, x2⟩ := lexemes_of_ok h2
  obtain ⟨a, b, ctx, -⟩ := (inTree_root tree2).below hr2
  rw [hl, hw0] at e1
  rw [ctx.leaves] at e2
  obtain ⟨lfo, le, rfl, hfo, hle⟩ := List.map_eq_append_iff.1 e1
  obtain ⟨lf, lo, rfl, hlf, hlo⟩ := List.map_eq_append_iff.1 hfo
  obtain ⟨n, rfl, hn⟩ := List.map_eq_singleton_iff.1 hlo
  obtain ⟨-, B, -, -, hB, -⟩ := lexemes_split l1 fun l hl => x1 l (List.mem_append_left _ hl)
  rw [List.append_assoc] at l1
  obtain ⟨-, N, -, -, hN, -⟩ := lexemes_split l1 fun l hl => x1 l (by simp [hl])
  obtain ⟨kn, en⟩ : n.kind = .ident ∧ n.err = none := ⟨congrArg Prod.fst hn, x1 n (by simp)⟩
  have hname : (∃ c v, n.word = c :: v ∧ nameStart c = true) ∧ ∀ c, B.head? = some c → nameChar c = false := by
    cases hN with
    | @cons s l' rest ls3 h3 h4 =>
    have e := h3.append
    obtain ⟨w, k, err⟩ := n
    simp only at kn en e
    subst kn en e
    have : rest = B := by rw [← h4.flatten, ← hB.flatten]; rfl
    subst this
    exact name_rule (firstLexeme_reads.1 h3).2 rfl
  have hpost : ∃ la lo2 lb, ls2 = la ++ (lo2 ++ lb) ∧ lo2.map lxOf = r2.green.leaves := by
    have e2' : ls2.map lxOf = a ++ (r2.green.leaves ++ b) := by rw [e2]; simp
    obtain ⟨la, lx, rfl, -, hx⟩ := List.map_eq_append_iff.1 e2'
    obtain ⟨lo2, lb, rfl, h, -⟩ := List.map_eq_append_iff.1 hx
    exact ⟨la, lo2, lb, rfl, h⟩
  obtain ⟨la, lo2, lb, rfl, hlo2⟩ := hpost
  obtain ⟨-, R, -, -, hR, -⟩ := lexemes_split l2 fun l hl => x2 l (by simp [hl])
  have xo : ∀ l ∈ lo2, l.err = none := fun l hl => x2 l (by simp [hl])
  obtain ⟨O, -, -, hO, -, wO⟩ := lexemes_split hR xo
  have hr2l : r2.green.leaves = Green.leavesL gs := by rw [hg]; simp [Green.leaves]
  have words : ∀ l : List Lexeme, spelled (l.map lxOf) = (l.map (·.word)).flatten := by
    intro l; simp [spelled, lxOf, Function.comp_def]
  have tE : spelled E = B := by rw [← hle, words, hB.flatten]
  have tO : r2.green.text = (lo2.map (·.word)).flatten := by
    rw [text_leaves, ← hlo2]; exact words lo2
  have tF : spelled F = (lf.map (·.word)).flatten := by rw [← hlf, words]
  rw [sig_eq] at hfirst hnum
  rw [hr2l] at hlo2 hfirst hnum
  -- behind the expression
  have hback : Lexemes ((lo2.map (·.word)).flatten ++ B) (lo2 ++ le) := by
    refine lexemes_follow hB hR xo fun l rest hll hrd => reads_last hrd ?_ hname.2
    obtain ⟨A1, z, ez, hz⟩ := Wrp.placeL_end m cs (A := Green.leavesL gs) (r := []) (by rw [hnb.kinds]; simp) hsolid
    rw [hnb.rest] at ez
    have hkz : (yieldL cs).getLast? = some z.1 := by
      rw [← hnb.kinds, ez, realKinds_append]
      simp [realKinds, hz]
    have hlz : lxOf l = z := by
      have : (lo2.map lxOf).getLast? = some (lxOf l) := by rw [List.getLast?_map, hll]; rfl
      rw [hlo2, ez, List.getLast?_concat] at this
      exact (Option.some.inj this).symm
    obtain ⟨k, hk, e⟩ := Wrp.ends_token hder (by
      have : ∀ k ∈ primaryKinds, k ∉ endsInExpr ∧ k ∈ callableKinds := by decide
      simp [endsCallableL, endsCallable, this _ hk2])
    have : (yieldL cs).getLast? = some k := by simpa [yieldL, PTree.yield] using e
    rw [hkz] at this
    have hlk : l.kind = z.1 := congrArg Prod.fst hlz
    rw [hlk, Option.some.inj this]
    exact hk
  -- before the expression
  have hstart : (∃ c t, (lo2.map (·.word)).flatten = c :: t ∧ nameStart c = true ∧ (realKinds (Green.leavesL gs)).head? = some .ident) ∨
      ∃ t, (lo2.map (·.word)).flatten = '(' :: t := by
    cases lo2 with
    | nil => rw [← hlo2] at hfirst; simp [realKinds] at hfirst
    | cons l lo3 =>
      have hz : isTriv (lxOf l) = false := hnb.start _ (by rw [← hlo2]; rfl)
      have hkind : (realKinds (Green.leavesL gs)).head? = some l.kind := by
        rw [← hlo2]
        simp [realKinds, hz]
        rfl
      cases hO with
      | @cons s l' rest ls3 h3 h4 =>
      have her := xo l (by simp)
      have e := h3.append
      obtain ⟨w, k, err⟩ := l
      simp only at her hkind e
      subst her e
      obtain ⟨hw, hrd⟩ := firstLexeme_reads.1 h3
      rw [hkind] at hfirst
      rcases hfirst with h | h
      · obtain ⟨⟨c, v, rfl, hc⟩, -⟩ := name_rule hrd (Option.some.inj h)
        exact .inl ⟨c, v ++ (lo3.map (·.word)).flatten, by simp, hc, by rw [hkind, h]⟩
      · have := paren_rule hrd (Option.some.inj h)
        exact .inr ⟨(lo3.map (·.word)).flatten, by simp [this]⟩
  have hnew : Lexemes ((lf.map (·.word)).flatten ++ ((lo2.map (·.word)).flatten ++ B)) (lf ++ (lo2 ++ le)) := by
    obtain ⟨c, v, hcv, hc⟩ := hname.1
    by_cases hlf0 : lf = []
    · subst hlf0
      simpa using hback
    obtain ⟨lf1, l, rfl⟩ : ∃ lf1 l, lf = lf1 ++ [l] := ⟨_, _, (List.dropLast_concat_getLast hlf0).symm⟩
    have hrl : Reads l.word l.kind none (c :: (v ++ B)) := by
      rw [List.append_assoc] at l1
      obtain ⟨-, R2, -, -, hR2, -⟩ := lexemes_split l1 fun x hx => x1 x (by simp [hx])
      cases hR2 with
      | @cons s l' rest lls h3 h4 =>
      have e := h3.append
      have her := x1 l (by simp)
      obtain ⟨w, k, err⟩ := l
      simp only at her e
      subst her e
      have : rest = c :: (v ++ B) := by
        rw [← h4.flatten]
        simp [hcv, hB.flatten]
      rw [← this]
      exact (firstLexeme_reads.1 h3).2
    refine lexemes_follow hback l1 (fun l hl => x1 l (by simp only [List.mem_append] at hl ⊢; exact .inl (.inl hl))) fun l' rest hl' hrd => ?_
    rw [List.getLast?_concat] at hl'
    simp only [Option.some.injEq] at hl'
    subst hl'
    obtain ⟨b1, -, b2, b3⟩ := start_char hc
    rcases hstart with ⟨c', t, e, hc', hid⟩ | ⟨t, e⟩
    · rw [e, List.cons_append]
      obtain ⟨a1, a2, -⟩ := start_char hc'
      refine Exch.reads_change hrl ⟨b2, b3⟩ a2 (fun _ => b1) fun hk => ?_
      have := hnum (lxOf l) (by rw [← hlf]; simp) hk
      rw [hid] at this
      simp at this
    · rw [e, List.cons_append]
      refine Wrp.reads_paren _ hrl (fun hk => ?_) (.inl rfl)
      rw [hk] at hrl
      rcases comment_next hrl with h | h
      · cases h
      · simp at h; exact b2 h
  have xn : ∀ l ∈ lf ++ (lo2 ++ le), l.err = none := by
    intro l hl
    simp only [List.mem_append] at hl
    rcases hl with hl | hl | hl
    · exact x1 l (by simp [hl])
    · exact xo l hl
    · exact x1 l (by simp [hl])
  rw [tF, tO, tE, tokenize_eq hnew, attach_tokens, (errs_none 0).2 xn, hr2l, ← hlf, ← hlo2, ← hle]
  simp [lxOf, Function.comp_def]

/-- **C129** So a name that is used, other than a target of an assignment, may be replaced by any field, call or anything else
of that form, as it is written elsewhere. -/
theorem C129_name (text1 text2 : Text) (tree1 tree2 : Green) (p r1 r2 : Red) (F E : List (SyntaxKind × Text))
    (h1 : sourceFileParse text1 = .ok (tree1, [])) (hp : Below (Red.root tree1) p) (hr : r1 ∈ p.children)
    (hk1 : r1.kind = .nameRef)
    (hplace : p.kind ∈ operandPlaces ∨ p.kind = .multivalExpr ∧ ∀ q, Below (Red.root tree1) q → p ∈ q.children →
      q.kind ≠ .exprStmt ∧ (q.kind = .assignStmt → q.children.head? ≠ some p))
    (hl : tree1.leaves = F ++ r1.green.leaves ++ E) (hoff : r1.off = (spelled F).len)
    (h2 : sourceFileParse text2 = .ok (tree2, [])) (hr2 : Below (Red.root tree2) r2) (hk2 : r2.kind ∈ primaryKinds)
    (hfirst : (significant r2.green.leaves).head? = some .ident ∨ (significant r2.green.leaves).head? = some .lParen)
    (hbefore : ∀ k, (significant F).getLast? = some k → k ≠ .colon ∧
      ((significant r2.green.leaves).head? = some .lParen → k ∉ callEnds))
    (hnum : ∀ l, F.getLast? = some l → l.1 = .number → (significant r2.green.leaves).head? = some .lParen) :
    sourceFileParse (spelled F ++ (r2.green.text ++ spelled E)) = .ok (Green.replaceAt r2.green r1.path tree1, []) :=
  C129_replace text1 text2 tree1 tree2 p r1 r2 F E h1 hp hr (by rw [hk1]; decide) hplace hl hoff (.inl (by rw [hk1]; decide))
    h2 hr2 hk2 hfirst hbefore (C129_fits text1 text2 tree1 tree2 r1 r2 F E h1 (.child hp hr) hk1 hl h2 hr2 hk2 hfirst hnum)

private def usable (F E : List (SyntaxKind × Text)) (w : Text) (paren : Bool) (tree : Green) (p r : Red) : Bool :=
  decide (r.kind = .nameRef ∧ tree.leaves = F ++ r.green.leaves ++ E ∧ r.off = (spelled F).len ∧ r.green.text = w ∧
    p.kind ∈ operandPlaces) && (significant F).getLast?.all (fun k => decide (k ≠ .colon ∧ (paren = true → k ∉ callEnds))) &&
  F.getLast?.all (fun l => decide (l.1 = .number → paren = true))

private def primary (w : Text) (paren : Bool) (_ : Green) (_ r : Red) : Bool :=
  decide (r.kind ∈ primaryKinds ∧ r.green.text = w ∧
    (significant r.green.leaves).head? = some (if paren then .lParen else .ident))

private theorem named_of {text text2 new : Text} {is js : List Nat} {i j : Nat} {F E : List (SyntaxKind × Text)} {w w2 : Text}
    {paren : Bool} (h : Wrp.finds text is i (usable F E w paren) = true) (h' : Wrp.finds text2 js j (primary w2 paren) = true)
    (hn : spelled F ++ (w2 ++ spelled E) = new) :
    ∃ tree tree2 r r2, sourceFileParse text = .ok (tree, []) ∧ Below (Red.root tree) r ∧ r.green.text = w ∧
      sourceFileParse text2 = .ok (tree2, []) ∧ Below (Red.root tree2) r2 ∧ r2.green.text = w2 ∧
      sourceFileParse new = .ok (Green.replaceAt r2.green r.path tree, []) := by
  obtain ⟨tree, p, r, h1, h2, h3, h4⟩ := Wrp.found h
  obtain ⟨tree2, p2, r2, k1, k2, k3, k4⟩ := Wrp.found h'
  simp only [usable, Bool.and_eq_true, decide_eq_true_eq, Option.all_eq_true] at h4
  obtain ⟨⟨⟨a1, a2, a3, a4, a5⟩, a6⟩, a7⟩ := h4
  simp only [primary, decide_eq_true_eq] at k4
  obtain ⟨b1, b2, b3⟩ := k4
  have hb2 : Below (Red.root tree2) r2 := .child k2 k3
  refine ⟨tree, tree2, r, r2, h1, .child h2 h3, a4, k1, hb2, b2, ?_⟩
  have hpar : (significant r2.green.leaves).head? = some .lParen → paren = true := by
    rw [b3]; cases paren <;> simp
  have := C129_name text text2 tree tree2 p r r2 F E h1 h2 h3 a1 (.inl a5) a2 a3 k1 hb2 b1
    (by rw [b3]; cases paren <;> simp)
    (fun k hk => ⟨(a6 k hk).1, fun e => (a6 k hk).2 (hpar e)⟩)
    (fun l hl hn => by rw [b3, a7 l hl hn]; rfl)
  rw [b2, hn] at this
  exact this

/-- An operand, a function that is called, and what a field is taken of. -/
theorem C129_example :
    (∃ tree tree2 r r2, sourceFileParse "x=-a^2".toList = .ok (tree, []) ∧ Below (Red.root tree) r ∧ r.green.text = ['a'] ∧
      sourceFileParse "y=t.f(1)[2]".toList = .ok (tree2, []) ∧ Below (Red.root tree2) r2 ∧ r2.green.text = "t.f(1)[2]".toList ∧
      sourceFileParse "x=-t.f(1)[2]^2".toList = .ok (Green.replaceAt r2.green r.path tree, [])) ∧
    (∃ tree tree2 r r2, sourceFileParse "a()".toList = .ok (tree, []) ∧ Below (Red.root tree) r ∧ r.green.text = ['a'] ∧
      sourceFileParse "y=t.f(1)[2]".toList = .ok (tree2, []) ∧ Below (Red.root tree2) r2 ∧ r2.green.text = "t.f(1)[2]".toList ∧
      sourceFileParse "t.f(1)[2]()".toList = .ok (Green.replaceAt r2.green r.path tree, [])) ∧
    (∃ tree tree2 r r2, sourceFileParse "x=1+a.b".toList = .ok (tree, []) ∧ Below (Red.root tree) r ∧ r.green.text = ['a'] ∧
      sourceFileParse "y=(c or d)".toList = .ok (tree2, []) ∧ Below (Red.root tree2) r2 ∧ r2.green.text = "(c or d)".toList ∧
      sourceFileParse "x=1+(c or d).b".toList = .ok (Green.replaceAt r2.green r.path tree, [])) := by
  refine ⟨named_of (is := [0, 0, 1, 0, 0]) (i := 0) (js := [0, 0, 1]) (j := 0) (paren := false)
      (F := [(.ident, ['x']), (.eq, ['=']), (.minus, ['-'])]) (E := [(.caret, ['^']), (.number, ['2'])])
      (by decide +kernel) (by decide +kernel) (by decide +kernel),
    named_of (is := [0, 0, 0, 0]) (i := 0) (js := [0, 0, 1]) (j := 0) (paren := false)
      (F := []) (E := [(.lParen, ['(']), (.rParen, [')'])])
      (by decide +kernel) (by decide +kernel) (by decide +kernel),
    named_of (is := [0, 0, 1, 0, 1]) (i := 0) (js := [0, 0, 1]) (j := 0) (paren := true)
      (F := [(.ident, ['x']), (.eq, ['=']), (.number, ['1']), (.plus, ['+'])]) (E := [(.dot, ['.']), (.ident, ['b'])])
      (by decide +kernel) (by decide +kernel) (by decide +kernel)⟩

private def bare (w new : Text) (g2 : Green) (tree : Green) (p r : Red) : Bool :=
  decide (r.kind = .nameRef ∧ p.kind ∈ operandPlaces ∧ r.green.text = w ∧
    sourceFileParseEval new ≠ .ok (Green.replaceAt g2 r.path tree, []))

private def bare2 (text new w w2 : Text) (is : List Nat) (i : Nat) (_ : Green) (_ r : Red) : Bool :=
  decide (r.kind ∈ primaryKinds ∧ r.green.text = w2) && Wrp.finds text is i (bare w new r.green)

private theorem bare_of {text text2 new w w2 : Text} {is js : List Nat} {i j : Nat}
    (h : Wrp.finds text2 js j (bare2 text new w w2 is i) = true) :
    ∃ tree tree2 p r r2, sourceFileParse text = .ok (tree, []) ∧ Below (Red.root tree) p ∧ r ∈ p.children ∧
      r.kind = .nameRef ∧ p.kind ∈ operandPlaces ∧ r.green.text = w ∧
      sourceFileParse text2 = .ok (tree2, []) ∧ Below (Red.root tree2) r2 ∧ r2.kind ∈ primaryKinds ∧ r2.green.text = w2 ∧
      sourceFileParse new ≠ .ok (Green.replaceAt r2.green r.path tree, []) := by
  obtain ⟨tree2, p2, r2, k1, k2, k3, k4⟩ := Wrp.found h
  simp only [bare2, Bool.and_eq_true, decide_eq_true_eq] at k4
  obtain ⟨tree, p, r, h1, h2, h3, h4⟩ := Wrp.found k4.2
  simp only [bare, decide_eq_true_eq] at h4
  exact ⟨tree, tree2, p, r, r2, h1, h2, h3, h4.1, h4.2.1, h4.2.2.1, k1, .child k2 k3, k4.1.1, k4.1.2, by
    rw [sourceFileParse_eq_eval]; exact h4.2.2.2⟩

/-- **C129 fails** without each of its conditions: directly behind a number; with `(` behind what can be called; with a table at the
start of a statement; and for the name of a method. -/
theorem C129_fails :
    (∃ tree tree2 p r r2, sourceFileParse "x=3f()".toList = .ok (tree, []) ∧ Below (Red.root tree) p ∧ r ∈ p.children ∧
      r.kind = .nameRef ∧ p.kind ∈ operandPlaces ∧ r.green.text = "f".toList ∧
      sourceFileParse "y=e1".toList = .ok (tree2, []) ∧ Below (Red.root tree2) r2 ∧ r2.kind ∈ primaryKinds ∧
      r2.green.text = "e1".toList ∧ sourceFileParse "x=3e1()".toList ≠ .ok (Green.replaceAt r2.green r.path tree, [])) ∧
    (∃ tree tree2 p r r2, sourceFileParse "x=a f()".toList = .ok (tree, []) ∧ Below (Red.root tree) p ∧ r ∈ p.children ∧
      r.kind = .nameRef ∧ p.kind ∈ operandPlaces ∧ r.green.text = "f".toList ∧
      sourceFileParse "y=(g)".toList = .ok (tree2, []) ∧ Below (Red.root tree2) r2 ∧ r2.kind ∈ primaryKinds ∧
      r2.green.text = "(g)".toList ∧ sourceFileParse "x=a (g)()".toList ≠ .ok (Green.replaceAt r2.green r.path tree, [])) ∧
    (∃ tree tree2 p r r2, sourceFileParse "f()".toList = .ok (tree, []) ∧ Below (Red.root tree) p ∧ r ∈ p.children ∧
      r.kind = .nameRef ∧ p.kind ∈ operandPlaces ∧ r.green.text = "f".toList ∧
      sourceFileParse "y={}.g".toList = .ok (tree2, []) ∧ Below (Red.root tree2) r2 ∧ r2.kind ∈ primaryKinds ∧
      r2.green.text = "{}.g".toList ∧ sourceFileParse "{}.g()".toList ≠ .ok (Green.replaceAt r2.green r.path tree, [])) ∧
    (∃ tree tree2 p r r2, sourceFileParse "x=o:m()".toList = .ok (tree, []) ∧ Below (Red.root tree) p ∧ r ∈ p.children ∧
      r.kind = .nameRef ∧ p.kind ∈ operandPlaces ∧ r.green.text = "m".toList ∧
      sourceFileParse "y=t.f".toList = .ok (tree2, []) ∧ Below (Red.root tree2) r2 ∧ r2.kind ∈ primaryKinds ∧
      r2.green.text = "t.f".toList ∧ sourceFileParse "x=o:t.f()".toList ≠ .ok (Green.replaceAt r2.green r.path tree, [])) := by
  refine ⟨bare_of (is := [0, 1, 0, 0]) (i := 0) (js := [0, 0, 1]) (j := 0) (by decide +kernel),
    bare_of (is := [0, 1, 0, 0]) (i := 0) (js := [0, 0, 1]) (j := 0) (by decide +kernel),
    bare_of (is := [0, 0, 0, 0]) (i := 0) (js := [0, 0, 1]) (j := 0) (by decide +kernel),
    bare_of (is := [0, 0, 1, 0]) (i := 1) (js := [0, 0, 1]) (j := 0) (by decide +kernel)⟩

private theorem kinds_of_same {u v : SyntaxKind} (h : sameUse u v) : u ∈ expressionKinds ∧ u ∈ Spec.callable ∧ v ∈ primaryKinds := by
  rcases h with ⟨h1, h2⟩ | ⟨h1, h2⟩
  · exact ⟨(by decide : ∀ k ∈ [SyntaxKind.callExpr, .methodCallExpr], k ∈ expressionKinds) _ h1,
      (by decide : ∀ k ∈ [SyntaxKind.callExpr, .methodCallExpr], k ∈ Spec.callable) _ h1,
      (by decide : ∀ k ∈ [SyntaxKind.callExpr, .methodCallExpr], k ∈ primaryKinds) _ h2⟩
  · exact ⟨(by decide : ∀ k ∈ [SyntaxKind.nameRef, .dotExpr, .indexExpr], k ∈ expressionKinds) _ h1,
      (by decide : ∀ k ∈ [SyntaxKind.nameRef, .dotExpr, .indexExpr], k ∈ Spec.callable) _ h1,
      (by decide : ∀ k ∈ [SyntaxKind.nameRef, .dotExpr, .indexExpr], k ∈ primaryKinds) _ h2⟩

/-- **C130** In a file without errors, a call may be replaced by any call of any file without errors, and a name, field or index by any
name, field or index, wherever it stands: also where it is a statement, and where it is assigned to. What is put there is written as it
is, if the tokens stay what they are, it starts with a name or `(`, and (if it is `(`) nothing that can be called is directly before it;
only the name of a method, behind `:`, stays. The result is a file without errors, with the tree in which that node was replaced. -/
theorem C130_replace (text1 text2 : Text) (tree1 tree2 : Green) (p r1 r2 : Red) (F E : List (SyntaxKind × Text))
    (h1 : sourceFileParse text1 = .ok (tree1, [])) (hp : Below (Red.root tree1) p) (hr : r1 ∈ p.children)
    (hplace : p.kind ∈ openPlaces) (hsame : sameUse r1.kind r2.kind)
    (hl : tree1.leaves = F ++ r1.green.leaves ++ E) (hoff : r1.off = (spelled F).len)
    (h2 : sourceFileParse text2 = .ok (tree2, [])) (hr2 : Below (Red.root tree2) r2)
    (hfirst : (significant r2.green.leaves).head? = some .ident ∨ (significant r2.green.leaves).head? = some .lParen)
    (hbefore : ∀ k, (significant F).getLast? = some k → k ≠ .colon ∧
      ((significant r2.green.leaves).head? = some .lParen → k ∉ callEnds))
    (hlex : tokenize (spelled F ++ (r2.green.text ++ spelled E)) =
      .ok ((F ++ r2.green.leaves ++ E).map fun l => ⟨l.1, Text.len l.2⟩, [])) :
    sourceFileParse (spelled F ++ (r2.green.text ++ spelled E)) = .ok (Green.replaceAt r2.green r1.path tree1, []) := by
  obtain ⟨hk, hc, hk2⟩ := kinds_of_same hsame
  obtain ⟨f1, f2, f3, f4, f5⟩ := facts h1 h2 hr2 hk2
  obtain ⟨a, b, g', gw, -⟩ := spot (V := openPlaces) (y := r2.green) f1 (by decide) hp hr (.inl hplace)
  obtain ⟨k1, -, -, -, k2⟩ := same_fine hsame hk (child_node hr) f4 f5 gw f2 f3
  rw [gw.replace] at k1 k2
  exact core text1 text2 tree1 tree2 p r1 r2 F E h1 hp hr hk hplace hl hoff (.inl hc) h2 hr2 hk2 hfirst hbefore hlex
    fun n hn => ⟨k1 n hn, k2 n hn⟩

/-- **C130** The tokens do stay what they are if a space, one of `( { , ; =` or nothing stands before it, and a space, a line break, one
of `) ] } , ;` or nothing behind it. -/
theorem C130_statement (text1 text2 : Text) (tree1 tree2 : Green) (p r1 r2 : Red) (F E : List (SyntaxKind × Text))
    (h1 : sourceFileParse text1 = .ok (tree1, [])) (hp : Below (Red.root tree1) p) (hr : r1 ∈ p.children)
    (hplace : p.kind ∈ openPlaces) (hsame : sameUse r1.kind r2.kind)
    (hl : tree1.leaves = F ++ r1.green.leaves ++ E) (hoff : r1.off = (spelled F).len)
    (h2 : sourceFileParse text2 = .ok (tree2, [])) (hr2 : Below (Red.root tree2) r2)
    (hfirst : (significant r2.green.leaves).head? = some .ident ∨ (significant r2.green.leaves).head? = some .lParen)
    (hbefore : ∀ k, (significant F).getLast? = some k → k ≠ .colon ∧
      ((significant r2.green.leaves).head? = some .lParen → k ∉ callEnds))
    (hopen : ∀ l, F.getLast? = some l → l.1 = .whitespace ∨ l.1 ∈ openers)
    (hclose : ∀ c, (spelled E).head? = some c → c ∈ closers) :
    sourceFileParse (spelled F ++ (r2.green.text ++ spelled E)) = .ok (Green.replaceAt r2.green r1.path tree1, []) :=
  C130_replace text1 text2 tree1 tree2 p r1 r2 F E h1 hp hr hplace hsame hl hoff h2 hr2 hfirst hbefore
    (C128_fits text1 text2 tree1 tree2 r1 r2 F E h1 hl hopen hclose h2 hr2
      ((by decide : ∀ k ∈ primaryKinds, k ∈ expressionKinds) _ (kinds_of_same hsame).2.2))

/-- **C130** And they do if it is a name that is replaced, unless the other expression starts with a name and a number stands directly
before it. -/
theorem C130_target (text1 text2 : Text) (tree1 tree2 : Green) (p r1 r2 : Red) (F E : List (SyntaxKind × Text))
    (h1 : sourceFileParse text1 = .ok (tree1, [])) (hp : Below (Red.root tree1) p) (hr : r1 ∈ p.children)
    (hplace : p.kind ∈ openPlaces) (hk1 : r1.kind = .nameRef)
    (hl : tree1.leaves = F ++ r1.green.leaves ++ E) (hoff : r1.off = (spelled F).len)
    (h2 : sourceFileParse text2 = .ok (tree2, [])) (hr2 : Below (Red.root tree2) r2)
    (hk2 : r2.kind = .nameRef ∨ r2.kind = .dotExpr ∨ r2.kind = .indexExpr)
    (hfirst : (significant r2.green.leaves).head? = some .ident ∨ (significant r2.green.leaves).head? = some .lParen)
    (hbefore : ∀ k, (significant F).getLast? = some k → k ≠ .colon ∧
      ((significant r2.green.leaves).head? = some .lParen → k ∉ callEnds))
    (hnum : ∀ l, F.getLast? = some l → l.1 = .number → (significant r2.green.leaves).head? = some .lParen) :
    sourceFileParse (spelled F ++ (r2.green.text ++ spelled E)) = .ok (Green.replaceAt r2.green r1.path tree1, []) := by
  have hsame : sameUse r1.kind r2.kind := .inr ⟨by rw [hk1]; decide, by simpa using hk2⟩
  exact C130_replace text1 text2 tree1 tree2 p r1 r2 F E h1 hp hr hplace hsame hl hoff h2 hr2 hfirst hbefore
    (C129_fits text1 text2 tree1 tree2 r1 r2 F E h1 (.child hp hr) hk1 hl h2 hr2 (kinds_of_same hsame).2.2 hfirst hnum)

private def used (F E : List (SyntaxKind × Text)) (w : Text) (calls paren : Bool) (tree : Green) (p r : Red) : Bool :=
  decide ((calls = true ∧ r.kind ∈ [SyntaxKind.callExpr, .methodCallExpr] ∨ calls = false ∧ r.kind ∈ [SyntaxKind.nameRef, .dotExpr, .indexExpr]) ∧
    tree.leaves = F ++ r.green.leaves ++ E ∧ r.off = (spelled F).len ∧ r.green.text = w ∧
    p.kind ∈ openPlaces) && (significant F).getLast?.all (fun k => decide (k ≠ .colon ∧ (paren = true → k ∉ callEnds))) &&
  F.getLast?.all (fun l => decide (l.1 = .whitespace ∨ l.1 ∈ openers)) && (spelled E).head?.all (fun c => decide (c ∈ closers))

private def ofSort (w : Text) (calls paren : Bool) (_ : Green) (_ r : Red) : Bool :=
  decide ((calls = true ∧ r.kind ∈ [SyntaxKind.callExpr, .methodCallExpr] ∨ calls = false ∧ r.kind ∈ [SyntaxKind.nameRef, .dotExpr, .indexExpr]) ∧
    r.green.text = w ∧ (significant r.green.leaves).head? = some (if paren then .lParen else .ident))

private theorem used_of {text text2 new : Text} {is js : List Nat} {i j : Nat} {F E : List (SyntaxKind × Text)} {w w2 : Text}
    {calls paren : Bool} (h : Wrp.finds text is i (used F E w calls paren) = true) (h' : Wrp.finds text2 js j (ofSort w2 calls paren) = true)
    (hn : spelled F ++ (w2 ++ spelled E) = new) :
    ∃ tree tree2 r r2, sourceFileParse text = .ok (tree, []) ∧ Below (Red.root tree) r ∧ r.green.text = w ∧
      sourceFileParse text2 = .ok (tree2, []) ∧ Below (Red.root tree2) r2 ∧ r2.green.text = w2 ∧
      sourceFileParse new = .ok (Green.replaceAt r2.green r.path tree, []) := by
  obtain ⟨tree, p, r, h1, h2, h3, h4⟩ := Wrp.found h
  obtain ⟨tree2, p2, r2, k1, k2, k3, k4⟩ := Wrp.found h'
  simp only [used, Bool.and_eq_true, decide_eq_true_eq, Option.all_eq_true] at h4
  obtain ⟨⟨⟨⟨a1, a2, a3, a4, a5⟩, a6⟩, a7⟩, a8⟩ := h4
  simp only [ofSort, decide_eq_true_eq] at k4
  obtain ⟨b1, b2, b3⟩ := k4
  have hb2 : Below (Red.root tree2) r2 := .child k2 k3
  refine ⟨tree, tree2, r, r2, h1, .child h2 h3, a4, k1, hb2, b2, ?_⟩
  have hpar : (significant r2.green.leaves).head? = some .lParen → paren = true := by
    rw [b3]; cases paren <;> simp
  have hsame : sameUse r.kind r2.kind := by
    cases calls
    · exact .inr ⟨by simpa using a1, by simpa using b1⟩
    · exact .inl ⟨by simpa using a1, by simpa using b1⟩
  have := C130_statement text text2 tree tree2 p r r2 F E h1 h2 h3 a5 hsame a2 a3 k1 hb2
    (by rw [b3]; cases paren <;> simp)
    (fun k hk => ⟨(a6 k hk).1, fun e => (a6 k hk).2 (hpar e)⟩) (fun l hl => a7 l hl) (fun c hc => a8 c hc)
  rw [b2, hn] at this
  exact this

/-- A statement, and a target. -/
theorem C130_example :
    (∃ tree tree2 r r2, sourceFileParse "a=1;f()".toList = .ok (tree, []) ∧ Below (Red.root tree) r ∧ r.green.text = "f()".toList ∧
      sourceFileParse "y=(g or h).x:m{1}".toList = .ok (tree2, []) ∧ Below (Red.root tree2) r2 ∧
      r2.green.text = "(g or h).x:m{1}".toList ∧
      sourceFileParse "a=1;(g or h).x:m{1}".toList = .ok (Green.replaceAt r2.green r.path tree, [])) ∧
    (∃ tree tree2 r r2, sourceFileParse "a,b =1,2".toList = .ok (tree, []) ∧ Below (Red.root tree) r ∧ r.green.text = ['b'] ∧
      sourceFileParse "y=t.f(1)[2]".toList = .ok (tree2, []) ∧ Below (Red.root tree2) r2 ∧ r2.green.text = "t.f(1)[2]".toList ∧
      sourceFileParse "a,t.f(1)[2] =1,2".toList = .ok (Green.replaceAt r2.green r.path tree, [])) := by
  refine ⟨used_of (is := [0, 1, 0]) (i := 0) (js := [0, 0, 1]) (j := 0) (calls := true) (paren := true)
      (F := [(.ident, ['a']), (.eq, ['=']), (.number, ['1']), (.semicolon, [';'])]) (E := [])
      (by decide +kernel) (by decide +kernel) (by decide +kernel),
    used_of (is := [0, 0, 0]) (i := 1) (js := [0, 0, 1]) (j := 0) (calls := false) (paren := false)
      (F := [(.ident, ['a']), (.comma, [','])]) (E := [(.whitespace, [' ']), (.eq, ['=']), (.number, ['1']), (.comma, [',']), (.number, ['2'])])
      (by decide +kernel) (by decide +kernel) (by decide +kernel)⟩

private def other (k k2 : SyntaxKind) (w new : Text) (g2 : Green) (_ : Green) (p r : Red) : Bool :=
  decide (r.kind = k ∧ p.kind ∈ openPlaces ∧ r.green.text = w ∧ g2.kind = k2 ∧
    ((sourceFileParseEval new).toOption.any fun t => !t.2.isEmpty) = true)

private def other2 (text : Text) (k k2 : SyntaxKind) (new w w2 : Text) (is : List Nat) (i : Nat) (_ : Green) (_ r : Red) : Bool :=
  decide (r.green.text = w2) && Wrp.finds text is i (other k k2 w new r.green)

private theorem other_of {text text2 new w w2 : Text} {k k2 : SyntaxKind} {is js : List Nat} {i j : Nat}
    (h : Wrp.finds text2 js j (other2 text k k2 new w w2 is i) = true) :
    ∃ tree tree2 p r r2, sourceFileParse text = .ok (tree, []) ∧ Below (Red.root tree) p ∧ r ∈ p.children ∧
      p.kind ∈ openPlaces ∧ r.kind = k ∧ r.green.text = w ∧
      sourceFileParse text2 = .ok (tree2, []) ∧ Below (Red.root tree2) r2 ∧ r2.kind = k2 ∧ r2.green.text = w2 ∧
      ∃ t errs, sourceFileParse new = .ok (t, errs) ∧ errs ≠ [] := by
  obtain ⟨tree2, p2, r2, k1, k2, k3, k4⟩ := Wrp.found h
  simp only [other2, Bool.and_eq_true, decide_eq_true_eq] at k4
  obtain ⟨tree, p, r, h1, h2, h3, h4⟩ := Wrp.found k4.2
  simp only [other, decide_eq_true_eq] at h4
  obtain ⟨a1, a2, a3, a4, a5⟩ := h4
  refine ⟨tree, tree2, p, r, r2, h1, h2, h3, a2, a1, a3, k1, .child k2 k3, a4, k4.1, ?_⟩
  rw [sourceFileParse_eq_eval]
  cases hs : sourceFileParseEval new with
  | error e => rw [hs] at a5; simp [Except.toOption] at a5
  | ok t =>
    rw [hs] at a5
    simp only [Except.toOption, Option.any_some, Bool.not_eq_true', List.isEmpty_eq_false_iff] at a5
    exact ⟨t.1, t.2, rfl, a5⟩

/-- **C130 fails** if it is not of the same sort: a field in the place of a statement, and a call in the place of a target. -/
theorem C130_fails :
    (∃ tree tree2 p r r2, sourceFileParse "f()".toList = .ok (tree, []) ∧ Below (Red.root tree) p ∧ r ∈ p.children ∧
      p.kind ∈ openPlaces ∧ r.kind = .callExpr ∧ r.green.text = "f()".toList ∧
      sourceFileParse "y=t.x".toList = .ok (tree2, []) ∧ Below (Red.root tree2) r2 ∧ r2.kind = .dotExpr ∧ r2.green.text = "t.x".toList ∧
      ∃ t errs, sourceFileParse "t.x".toList = .ok (t, errs) ∧ errs ≠ []) ∧
    (∃ tree tree2 p r r2, sourceFileParse "a=1".toList = .ok (tree, []) ∧ Below (Red.root tree) p ∧ r ∈ p.children ∧
      p.kind ∈ openPlaces ∧ r.kind = .nameRef ∧ r.green.text = "a".toList ∧
      sourceFileParse "y=f()".toList = .ok (tree2, []) ∧ Below (Red.root tree2) r2 ∧ r2.kind = .callExpr ∧ r2.green.text = "f()".toList ∧
      ∃ t errs, sourceFileParse "f()=1".toList = .ok (t, errs) ∧ errs ≠ []) := by
  exact ⟨other_of (is := [0, 0, 0]) (i := 0) (js := [0, 0, 1]) (j := 0) (by decide +kernel),
    other_of (is := [0, 0, 0]) (i := 0) (js := [0, 0, 1]) (j := 0) (by decide +kernel)⟩

end Verif
