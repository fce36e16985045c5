import Verif.Proof.PutChecks
import Verif.Proof.PutLex
import Verif.Proof.Decide
import Verif.Props.Inlining

/-
C128: between brackets, keywords and separators any expression will do.
-/
namespace Verif
open Lexer Accept PTree Lua Nest Put
open Spec hiding callable

private theorem tokens_unique {L L' : List Lx} (ht : toksOf L = toksOf L') (hw : wordsOf L = wordsOf L') : L = L' := by
  have pos : ∀ q : Text, Text.len q = 0 → q = [] := by
    intro q hq
    cases q with
    | nil => rfl
    | cons c cs =>
      have := Char.utf8Size_pos c
      simp [Text.len] at hq
      omega
  induction L generalizing L' with
  | nil => cases L' with
    | nil => rfl
    | cons => simp [toksOf] at ht
  | cons l L ih =>
    cases L' with
    | nil => simp [toksOf] at ht
    | cons l' L' =>
      simp only [toksOf, List.map_cons, List.cons.injEq, Token.mk.injEq] at ht
      simp only [wordsOf, List.map_cons, List.flatten_cons] at hw
      obtain ⟨⟨h1, h2⟩, h3⟩ := ht
      have : l.2 = l'.2 := by
        rcases List.append_eq_append_iff.1 hw with ⟨q, e1, -⟩ | ⟨q, e1, -⟩
        · rw [e1] at h2
          have : q = [] := pos q (by simp [Text.len] at h2 ⊢; omega)
          rw [e1, this]; simp
        · rw [e1] at h2
          have : q = [] := pos q (by simp [Text.len] at h2 ⊢; omega)
          rw [e1, this]; simp
      rw [this] at hw
      rw [ih h3 (List.append_cancel_left hw)]
      congr 1
      exact Prod.ext h1 this

/-- The tokens with their texts, as the lexer gives them: their kinds and lengths. -/
theorem C128_tokens_lexemes {s : Text} {L : List Lx} (h : tokenize s = .ok (toksOf L, [])) (hw : wordsOf L = s) :
    ∃ ls, Lexemes s ls ∧ ls.map lxOf = L ∧ ∀ l ∈ ls, l.err = none := by
  obtain ⟨ls, ts, l1, -⟩ := parseText_main s
  have h1 := tokenize_eq l1
  rw [h] at h1
  simp only [Except.ok.injEq, Prod.mk.injEq] at h1
  obtain ⟨e1, e2, -⟩ := lexemes_lx l1
  refine ⟨ls, l1, (tokens_unique (L' := ls.map lxOf) ?_ ?_).symm, (errs_none 0).1 h1.2.symm⟩
  · rw [e2, h1.1]
  · rw [hw, e1]

/-- What an expression of a file without errors is made of. -/
theorem Put.expr_facts {text : Text} {tree : Green} {r : Red} (h : sourceFileParse text = .ok (tree, []))
    (hr : Below (Red.root tree) r) (hK : r.kind ∈ expressionKinds) :
    ∃ cs gs m, r.green = .node r.kind gs ∧ Deriv .accepted .expr [.node r.kind cs] ∧ NewBlock cs m (Green.leavesL gs) ∧
      (placeL m cs (Green.leavesL gs)).greens = gs ∧ (∀ n ∈ inner r.green, Fine n) := by
  generalize hKe : r.kind = K at hK
  have hK0 : K ≠ .sourceFile ∧ K ≠ .block := by constructor <;> (rintro rfl; revert hK; decide)
  obtain ⟨ls, ts, gs, pre, post, c, q, a, b, l1, x1, er1, y1, d1, g1, pl1, e1, pa1, ctx, ho, lit1, f1, in1⟩ := Pst.file_facts h hr hKe hK0
  rw [g1] at ctx
  obtain ⟨cs, S, r', ⟨t1, ht1, s1⟩, n1, st1, rk1, -⟩ := Pst.placeL_sub text.len ts (r := []) (by rw [y1]; simp) er1 pl1 ctx
  have hder : Deriv .accepted .expr [.node K cs] := Wrp.deriv_der d1 _ (List.mem_singleton.2 rfl) K cs hK (.node _ _ _ _ ht1 s1)
  obtain ⟨hsolid, k0, y0, hy0, hk0⟩ := Wrp.exp_of hder
  have hS : (placeL text.len cs (Green.leavesL gs ++ S)).rest = S := by
    have := placeL_leaves text.len cs (Green.leavesL gs ++ S)
    rw [n1] at this
    exact List.append_cancel_left this
  have hkinds : realKinds (Green.leavesL gs) = yieldL cs := by
    have h2 := Pst.realKindsL_suffix text.len cs rk1
    rw [hS] at h2
    rw [realKinds_append, h2] at rk1
    exact List.append_cancel_right rk1
  have hne : Green.leavesL gs ≠ [] := by
    intro e; rw [e, hy0] at hkinds; simp [realKinds] at hkinds
  have hst : StartsReal (Green.leavesL gs) := Wrp.StartsReal.left st1 hne
  obtain ⟨p1, p2⟩ := placeL_local text.len 0 cs (Green.leavesL gs) S [] (by rw [hkinds]; simp) (.inr (.inr hsolid))
  rw [n1] at p1
  rw [hS] at p2
  have p2 : (placeL 0 cs (Green.leavesL gs)).rest = [] := by simpa using p2
  exact ⟨cs, gs, 0, g1, hder, ⟨p2, hkinds, hsolid, hst⟩, p1.symm, fun n hn => f1 n (in1 n hn)⟩

private theorem first_child {q : Red} {k : SyntaxKind} {pre post : List Green} {v : Red} (hq : q.green = .node k (pre ++ v.green :: post))
    (hv : v.path = q.path ++ [pre.length]) (ho : v.off = q.off + wlen (Green.leavesL pre)) (hn : v.green.isNode = true)
    (h : pre.any (·.isNode) = false) : q.children.head? = some v := by
  have key : ∀ (pre : List Green) (i off : Nat), v.path = q.path ++ [i + pre.length] → v.off = off + wlen (Green.leavesL pre) →
      pre.any (·.isNode) = false →
      ((Red.elemsFrom q.path i off (pre ++ v.green :: post)).filter (·.green.isNode)).head? = some v := by
    intro pre
    induction pre with
    | nil =>
      intro i off h1 h2 _
      simp only [List.nil_append, Red.elemsFrom, List.filter_cons, hn]
      simp only [List.length_nil, Nat.add_zero] at h1
      simp only [Green.leavesL, wlen_nil, Nat.add_zero] at h2
      obtain ⟨vp, vo, vg⟩ := v
      simp_all
    | cons g pre ih =>
      intro i off h1 h2 h3
      simp only [List.any_cons, Bool.or_eq_false_iff] at h3
      have hl : g.len = wlen g.leaves := by rw [Green.len, text_leaves]; rfl
      have := ih (i + 1) (off + g.len) (by rw [h1]; simp; omega) (by rw [h2, hl]; simp [Green.leavesL]; omega) h3.2
      simpa [Red.elemsFrom, List.filter_cons, h3.1] using this
  have := key pre 0 q.off (by simpa using hv) ho h
  rw [Red.children, Red.elems, hq]
  simpa [Green.children] using this

private theorem sig_eq (ls : List Lx) : significant ls = realKinds ls := by
  have h : ∀ k : SyntaxKind, decide (k ≠ .whitespace ∧ k ≠ .comment) = !k.isTrivia := by intro k; cases k <;> rfl
  induction ls with
  | nil => rfl
  | cons l ls ih =>
    simp only [significant, realKinds, List.map_cons, List.filter_cons, h, isTriv] at ih ⊢
    cases l.1.isTrivia <;> simp [ih]

private theorem split_at {F X F' X' : List Lx} (h : F ++ X = F' ++ X') (hw : wlen F = wlen F')
    (hne : ∀ l ∈ F ++ X, l.2 ≠ []) : F = F' ∧ X = X' := by
  have pos : ∀ l : Lx, l.2 ≠ [] → 0 < Text.len l.2 := by
    intro l hl
    obtain ⟨c, cs, e⟩ := List.exists_cons_of_ne_nil hl
    rw [e]
    have := Char.utf8Size_pos c
    simp [Text.len]
    omega
  rcases List.append_eq_append_iff.1 h with ⟨q, e1, e2⟩ | ⟨q, e1, e2⟩
  · cases q with
    | nil => exact ⟨by simpa using e1.symm, by simpa using e2⟩
    | cons l q =>
      rw [e1] at hw
      have := pos l (hne l (by rw [e2]; simp))
      simp at hw; omega
  · cases q with
    | nil => exact ⟨by simpa using e1, by simpa using e2.symm⟩
    | cons l q =>
      rw [e1] at hw
      have := pos l (hne l (by rw [e1]; simp))
      simp at hw; omega

/-- **C128** In a file without errors, an expression that is all there is between two brackets, keywords or separators — an
expression in parentheses or in an index, a field of a table, a condition, what a `for` runs over, or an element of a list of
expressions other than the one that is a statement and the one that is assigned to — may be replaced by any expression of any
file without errors, written as it is there and without parentheses, if the tokens stay what they are and the next one is not
`(`: the result is a file without errors, and its tree is the old one with the one node replaced by the other. -/
theorem C128_replace (text1 text2 : Text) (tree1 tree2 : Green) (p r1 r2 : Red) (F E : List (SyntaxKind × Text))
    (h1 : sourceFileParse text1 = .ok (tree1, [])) (hp : Below (Red.root tree1) p) (hr : r1 ∈ p.children)
    (hk : r1.kind ∈ expressionKinds)
    (hplace : p.kind ∈ valuePlaces ∨ p.kind = .multivalExpr ∧ ∀ q, Below (Red.root tree1) q → p ∈ q.children →
      q.kind ≠ .exprStmt ∧ (q.kind = .assignStmt → q.children.head? ≠ some p))
    (hl : tree1.leaves = F ++ r1.green.leaves ++ E) (hoff : r1.off = (spelled F).len)
    (hbehind : (significant E).head? ≠ some .lParen)
    (h2 : sourceFileParse text2 = .ok (tree2, [])) (hr2 : Below (Red.root tree2) r2) (hk2 : r2.kind ∈ expressionKinds)
    (hlex : tokenize (spelled F ++ (r2.green.text ++ spelled E)) =
      .ok ((F ++ r2.green.leaves ++ E).map fun l => ⟨l.1, Text.len l.2⟩, [])) :
    sourceFileParse (spelled F ++ (r2.green.text ++ spelled E)) = .ok (Green.replaceAt r2.green r1.path tree1, []) := by
  obtain ⟨us, gs2, m, hg2, hder2, hnb, hpl2, fine2⟩ := Put.expr_facts h2 hr2 hk2
  obtain ⟨p1, v1⟩ := (C78_accepted text1 tree1).1 h1
  obtain ⟨ls, ts, l1, -, y1, ⟨-, d1⟩, e1⟩ := parseText_main text1
  obtain ⟨ls', tree', errs', l1', q1, lit1, -, lv1, -⟩ := parseText_tree text1
  obtain rfl := l1.unique l1'
  rw [p1] at q1 e1
  simp only [Except.ok.injEq, Prod.mk.injEq] at q1 e1
  obtain ⟨rfl, rfl⟩ := q1
  obtain ⟨e1, f1⟩ := e1
  obtain ⟨f1, x1⟩ := List.append_eq_nil_iff.1 f1.symm
  have x1 := (errs_none 0).1 x1
  have he := placeL_errs_nil _ _ _ f1
  obtain ⟨b0, hb0, hd⟩ := d1 he
  simp only [PTree.node.injEq, List.cons.injEq, and_true, true_and] at hb0
  subst hb0
  have fine : ∀ n ∈ inner tree1, Fine n := by simp only [inner, List.forall_mem_map]; exact v1
  -- the node and the nodes above it
  have hrn := child_node hr
  obtain ⟨K, gs, hgs⟩ : ∃ K gs, r1.green = .node K gs := by
    cases hg : r1.green with
    | token => rw [hg] at hrn; simp [Green.isNode] at hrn
    | node k gs => exact ⟨k, gs, rfl⟩
  have hKr : r1.kind = K := by show r1.green.kind = K; rw [hgs]; rfl
  rw [hKr] at hk
  have split : ∀ {u v : Red}, v ∈ u.children → ∃ pre post, u.green = .node u.kind (pre ++ v.green :: post) ∧
      v.path = u.path ++ [pre.length] ∧ v.off = u.off + wlen (Green.leavesL pre) := by
    intro u v hv
    obtain ⟨pre, post, a1, a2, a3⟩ := elemsFrom_split (List.mem_filter.1 hv).1
    refine ⟨pre, post, ?_, by simpa using a2, a3⟩
    cases hu : u.green with
    | token k w => rw [hu] at a1; simp [Green.children] at a1
    | node k cs =>
      rw [hu] at a1
      simp only [Green.children] at a1
      rw [a1]
      show _ = Green.node u.green.kind _
      rw [hu]; rfl
  obtain ⟨pre1, post1, sp, pp, po⟩ := split hr
  cases hp with
  | self =>
    exfalso
    have : (Red.root tree1).kind = .sourceFile := by show tree1.kind = _; rw [e1]; rfl
    rw [this] at hplace
    rcases hplace with h | h
    · exact absurd h (by decide)
    · exact absurd h.1 (by decide)
  | @child q _ hq hpq =>
  obtain ⟨pre2, post2, sq, pq, oq⟩ := split hpq
  obtain ⟨a0, b0, ctx, ho⟩ := (inTree_root tree1).below hq
  have gw : ∀ j k, Put.GP valuePlaces (.node K gs) r2.green j k ([pre2.length, pre1.length]) (Green.leavesL pre2 ++ (Green.leavesL pre1 ++ []))
      (([] ++ Green.leavesL post1) ++ Green.leavesL post2) q.green
      (.node q.kind (pre2 ++ .node p.kind (pre1 ++ r2.green :: post1) :: post2)) := by
    intro j k
    have hflag : (decide (p.kind ∈ valuePlaces) || (decide (p.kind = .multivalExpr) &&
        (decide (q.kind ≠ .exprStmt ∧ q.kind ≠ .assignStmt) || pre2.any (·.isNode)))) = true := by
      rcases hplace with h | ⟨h3, h4⟩
      · simp only [h, decide_true, Bool.true_or]
      · obtain ⟨h5, h6⟩ := h4 q hq hpq
        have : (decide (q.kind ≠ .exprStmt ∧ q.kind ≠ .assignStmt) || pre2.any (·.isNode)) = true := by
          by_cases ha : q.kind = .assignStmt
          · cases hn : pre2.any (·.isNode) with
            | true => simp
            | false => exact absurd (first_child sq pq oq (child_node hpq) hn) (h6 ha)
          · simp [h5, ha]
        rw [this, h3]; decide
    have hin : Put.GP valuePlaces (.node K gs) r2.green
        (decide (p.kind ∈ valuePlaces) || (decide (p.kind = .multivalExpr) &&
          (decide (q.kind ≠ .exprStmt ∧ q.kind ≠ .assignStmt) || pre2.any (·.isNode))))
        (decide (p.kind ≠ .exprStmt ∧ p.kind ≠ .assignStmt) || pre1.any (·.isNode)) [] [] [] (.node K gs) r2.green := by
      rw [hflag]; exact .here
    rw [sq, sp, hgs]
    exact .down (.down hin)
  obtain ⟨g', gwt⟩ := Put.GP.of ctx gw
  have gwF := gwt false false
  have hrep := gwF.replace
  have hpath : q.path ++ [pre2.length, pre1.length] = r1.path := by rw [pp, pq]; simp
  have hoffT : r1.off = wlen (a0 ++ (Green.leavesL pre2 ++ (Green.leavesL pre1 ++ []))) := by
    rw [po, oq, ho]; simp; omega
  rw [hpath] at hrep gwF
  generalize ha : a0 ++ (Green.leavesL pre2 ++ (Green.leavesL pre1 ++ [])) = a at gwF hoffT
  generalize hb : (([] ++ Green.leavesL post1) ++ Green.leavesL post2) ++ b0 = b at gwF
  have gwF0 := gwF
  rw [e1] at gwF
  generalize hpt : r1.path = path at gwF
  generalize hsrc : (Green.node .sourceFile _) = src at gwF
  cases gwF with
  | @down _ _ k1 prea c1 c1' posta q1 a1 b1 gwF =>
  simp only [Green.node.injEq] at hsrc
  obtain ⟨rfl, hsrc⟩ := hsrc
  obtain ⟨rfl, rfl, rfl⟩ : prea = [] ∧ _ ∧ posta = [] := by
    cases prea with
    | nil => simp only [List.nil_append, List.cons.injEq] at hsrc; exact ⟨rfl, hsrc.1, hsrc.2.symm⟩
    | cons z zs => simp at hsrc
  generalize hblk : (Green.node .block _) = blk at gwF
  replace gwF : Put.GP valuePlaces (.node K gs) r2.green false true q1 a1 b1 blk c1' := gwF
  cases gwF with
  | @down _ _ k2 pre c c' post0 q2 a2 b2 gwF =>
  simp only [Green.node.injEq] at hblk
  obtain ⟨rfl, hblk⟩ := hblk
  replace gwF : Put.GP valuePlaces (.node K gs) r2.green false (true || pre.any (·.isNode)) q2 a2 b2 c c' := gwF
  have hr2n : r2.green.isNode = true := by rw [hg2]; rfl
  have hc := (gwF.node rfl hr2n).1
  have : ∃ post, (placeL text1.len ts (ls.map lxOf)).greens = pre ++ c :: post ∧
      post0 = post ++ (placeL text1.len ts (ls.map lxOf)).rest.map leaf := by
    rcases List.append_eq_append_iff.1 hblk with ⟨q, e2, e3⟩ | ⟨q, e2, e3⟩
    · exfalso
      have : c ∈ (placeL text1.len ts (ls.map lxOf)).rest.map leaf := by rw [e3]; simp
      rw [List.mem_map] at this
      obtain ⟨l, -, rfl⟩ := this
      simp [leaf, Green.isNode] at hc
    · cases q with
      | nil =>
        exfalso
        have : c ∈ (placeL text1.len ts (ls.map lxOf)).rest.map leaf := by
          simp only [List.nil_append] at e3; rw [← e3]; simp
        rw [List.mem_map] at this
        obtain ⟨l, -, rfl⟩ := this
        simp [leaf, Green.isNode] at hc
      | cons z q =>
        simp only [List.cons_append, List.cons.injEq] at e3
        exact ⟨q, by rw [e2, e3.1], e3.2⟩
  obtain ⟨post, pl1, rfl⟩ := this
  have hlv1 : ls.map lxOf = (Green.leavesL pre ++ a2) ++ (Green.leavesL gs ++ (b2 ++ (Green.leavesL post ++
      (placeL text1.len ts (ls.map lxOf)).rest))) := by
    have h3 := placeL_leaves text1.len ts (ls.map lxOf)
    rw [pl1, leavesL_append, Green.leavesL, gwF.leaves.1] at h3
    conv => lhs; rw [← h3]
    simp [Green.leaves]
  have hlx : tree1.leaves = ls.map lxOf := by rw [lv1]
  have hne : ∀ l ∈ ls.map lxOf, l.2 ≠ [] := by
    intro l hl
    rw [List.mem_map] at hl
    obtain ⟨x, hx, rfl⟩ := hl
    exact l1.words_ne x hx
  obtain ⟨rfl, hrest⟩ := split_at (F := F) (X := r1.green.leaves ++ E) (F' := Green.leavesL pre ++ a2)
    (by rw [← hlv1, ← hlx, hl, List.append_assoc]) (by
      rw [hoffT] at hoff
      show (spelled F).len = _
      rw [← hoff]; simp [Green.leavesL]) (by rw [← List.append_assoc, ← hl, hlx]; exact hne)
  rw [hgs] at hrest
  simp only [Green.leaves] at hrest
  have hE := List.append_cancel_left hrest
  -- the new tree
  have gwF' : Put.GP valuePlaces (.node K gs) (.node r2.kind (placeL m us (Green.leavesL gs2)).greens) false (true || pre.any (·.isNode)) q2 a2 b2 c c' := by
    rw [hpl2, ← hg2]; exact gwF
  obtain ⟨ts', wr, g1, g2, g3, st⟩ := placeL_put (s := true) hnb hk text1.len 0 ts (r := []) (by rw [y1]; simp) he pl1 gwF'
  have hrestk : realKinds (placeL text1.len ts (ls.map lxOf)).rest = [] := Pst.realKindsL_suffix _ ts (by rw [y1]; simp)
  have hd' : Deriv .accepted .block [.node .block ts'] := by
    refine deriv_put hder2 hd (p := false) (s := false) nofun ⟨_, _, .down (ts := []) wr, ?_⟩
    rw [sig_eq, hE, realKinds_append, realKinds_append, hrestk] at hbehind
    simpa [realKinds_append, yieldL] using hbehind
  -- the new tokens
  have hr2l : r2.green.leaves = Green.leavesL gs2 := by rw [hg2]; simp [Green.leaves]
  obtain ⟨ls2, l2, hls2, hnoerr⟩ := C128_tokens_lexemes (L := (Green.leavesL pre ++ a2) ++ r2.green.leaves ++ E) hlex (by
    rw [text_leaves]; simp [wordsOf, spelled])
  have htoks : ls2.map lxOf = Green.leavesL pre ++ a2 ++ Green.leavesL gs2 ++ b2 ++ Green.leavesL post ++
        (placeL text1.len ts (List.map lxOf ls)).rest := by
    rw [hls2, hE, hr2l]; simp
  rw [← htoks] at g1 g2 g3
  have hparse := parse_of_deriv l2 hd' (by simpa [errorsL, errors] using deriv_errors hd') (by rw [g3]; simp) 0
  rw [(errs_none 0).2 hnoerr, g1, g2] at hparse
  have htree : Green.replaceAt r2.green r1.path tree1 = .node .sourceFile [.node .block
      ((pre ++ c' :: post) ++ (placeL text1.len ts (List.map lxOf ls)).rest.map leaf)] := by
    rw [← hrep]
    simp
  rw [← hpt]
  refine (C78_accepted _ _).2 ⟨by rw [hparse, htree], ?_⟩
  have lg : ∀ n ∈ inner tree1, n.kind = .literal → ∃ l : Lx, n = .node .literal [leaf l] := by
    intro n hn hk
    simp only [inner, List.mem_map] at hn
    obtain ⟨p, hp, rfl⟩ := hn
    obtain ⟨l, h1, -⟩ := litOk_nodes lit1 hp hk
    exact ⟨l, h1⟩
  obtain ⟨k1, -, -, k2⟩ := put_fine (V := valuePlaces) (by decide) (x := .node K gs) hk rfl hr2n (fun n hn => ((fine_iff n).1 (fine2 n hn)).1) gwF0
    (fun n hn => ((fine_iff n).1 (fine n hn)).1) lg
  rw [hrep] at k1 k2
  intro p hp
  have hmem : p.2 ∈ inner (Green.replaceAt r2.green r1.path tree1) := List.mem_map.2 ⟨p, hp, rfl⟩
  refine (fine_iff p.2).2 ⟨k1 _ hmem, fun w hw => ?_⟩
  rcases k2 _ hmem (by rw [hw]; rfl) with h | h
  · exact (fine _ h).literal w hw
  · exact (fine2 _ h).literal w hw

/-- **C128** The tokens stay what they are if nothing, a space or one of `( { , ; =` stands before the expression, and behind it a space, a
line break, one of `) ] } , ;` or nothing at all. -/
theorem C128_fits (text1 text2 : Text) (tree1 tree2 : Green) (r1 r2 : Red) (F E : List (SyntaxKind × Text))
    (h1 : sourceFileParse text1 = .ok (tree1, [])) (hl : tree1.leaves = F ++ r1.green.leaves ++ E)
    (hopen : ∀ l, F.getLast? = some l → l.1 = .whitespace ∨ l.1 ∈ openers)
    (hclose : ∀ c, (spelled E).head? = some c → c ∈ closers)
    (h2 : sourceFileParse text2 = .ok (tree2, [])) (hr2 : Below (Red.root tree2) r2) (hk2 : r2.kind ∈ expressionKinds) :
    tokenize (spelled F ++ (r2.green.text ++ spelled E)) =
      .ok ((F ++ r2.green.leaves ++ E).map fun l => ⟨l.1, Text.len l.2⟩, []) := by
  obtain ⟨cs, gs, m, hg, hder, hnb, -, -⟩ := Put.expr_facts h2 hr2 hk2
  obtain ⟨hsolid, k0, y0, hy0, hk0⟩ := Wrp.exp_of hder
  obtain ⟨ls1, l1, e1, x1⟩ := lexemes_of_ok h1
  obtain ⟨ls2, l2, e2, x2⟩ := lexemes_of_ok h2
  obtain ⟨a, b, ctx, -⟩ := (inTree_root tree2).below hr2
  rw [hl] at e1
  rw [ctx.leaves] at e2
  obtain ⟨lfo, le, rfl, hfo, hle⟩ := List.map_eq_append_iff.1 e1
  obtain ⟨lf, lo, rfl, hlf, hlo⟩ := List.map_eq_append_iff.1 hfo
  obtain ⟨-, B, -, -, hB, -⟩ := lexemes_split l1 fun l hl => x1 l (List.mem_append_left _ hl)
  have hpost : ∃ la lo2 lb, ls2 = la ++ (lo2 ++ lb) ∧ lo2.map lxOf = r2.green.leaves := by
    have e2' : ls2.map lxOf = a ++ (r2.green.leaves ++ b) := by rw [e2]; simp
    obtain ⟨la, lx, rfl, -, hx⟩ := List.map_eq_append_iff.1 e2'
    obtain ⟨lo2, lb, rfl, h, -⟩ := List.map_eq_append_iff.1 hx
    exact ⟨la, lo2, lb, rfl, h⟩
  obtain ⟨la, lo2, lb, rfl, hlo2⟩ := hpost
  obtain ⟨-, R, -, -, hR, -⟩ := lexemes_split l2 fun l hl => x2 l (by simp [hl])
  have xo : ∀ l ∈ lo2, l.err = none := fun l hl => x2 l (by simp [hl])
  obtain ⟨O, -, -, hO, -, wO⟩ := lexemes_split hR xo
  have hr2l : r2.green.leaves = Green.leavesL gs := by rw [hg]; simp [Green.leaves]
  rw [hr2l] at hlo2
  have words : ∀ l : List Lexeme, spelled (l.map lxOf) = (l.map (·.word)).flatten := by
    intro l; simp [spelled, lxOf, Function.comp_def]
  have tE : spelled E = B := by rw [← hle, words, hB.flatten]
  have tO : r2.green.text = (lo2.map (·.word)).flatten := by
    rw [text_leaves, hr2l, ← hlo2]; exact words lo2
  have tF : spelled F = (lf.map (·.word)).flatten := by rw [← hlf, words]
  -- behind the expression
  have hlast : ∃ lo3 z, lo2 = lo3 ++ [z] ∧ z.kind.isTrivia = false := by
    obtain ⟨A1, z, ez, hz⟩ := Wrp.placeL_end m cs (A := Green.leavesL gs) (r := []) (by rw [hnb.kinds]; simp) hsolid
    rw [hnb.rest] at ez
    rw [ez] at hlo2
    obtain ⟨lo3, lz, rfl, -, hlz⟩ := List.map_eq_append_iff.1 hlo2
    obtain ⟨z', rfl, rfl⟩ := List.map_eq_singleton_iff.1 hlz
    exact ⟨lo3, z', rfl, hz⟩
  have hback : Lexemes ((lo2.map (·.word)).flatten ++ B) (lo2 ++ le) := by
    by_cases hB0 : B = []
    · have : le = [] := by
        cases le with
        | nil => rfl
        | cons l le =>
          have h3 := hB.words_ne l (by simp)
          have h4 := hB.flatten
          rw [hB0] at h4
          simp only [List.map_cons, List.flatten_cons, List.append_eq_nil_iff] at h4
          exact absurd h4.1 h3
      subst this hB0
      rw [wO] at hO
      simpa using hO
    · refine lexemes_follow hB hR xo fun l rest hl hrd => ?_
      obtain ⟨lo3, z, rfl, hz⟩ := hlast
      rw [List.getLast?_concat] at hl
      simp only [Option.some.injEq] at hl
      subst hl
      obtain ⟨c, B', rfl⟩ := List.exists_cons_of_ne_nil hB0
      refine reads_closer _ hrd ?_ ?_ (hclose c (by rw [tE]; rfl))
      · intro e; rw [e] at hz; exact absurd hz (by decide)
      · intro e; rw [e] at hz; exact absurd hz (by decide)
  -- before the expression
  have hfirst : ∃ c t, (lo2.map (·.word)).flatten = c :: t ∧ c ≠ '=' ∧ c ∉ spaces := by
    cases lo2 with
    | nil =>
      obtain ⟨lo3, z, e, -⟩ := hlast
      simp at e
    | cons l lo3 =>
      have hz : isTriv (lxOf l) = false := hnb.start _ (by rw [← hlo2]; rfl)
      have hkind : l.kind = k0 := by
        have := hnb.kinds
        rw [← hlo2, hy0] at this
        simp only [realKinds, List.map_cons, List.filter_cons, hz, Bool.not_false, if_true, List.cons.injEq] at this
        exact this.1
      cases hO with
      | @cons s l' rest ls3 h3 h4 =>
      have her := xo l (by simp)
      have e := h3.append
      obtain ⟨w, k, err⟩ := l
      simp only at her hkind e
      subst her hkind e
      obtain ⟨hw, hrd⟩ := firstLexeme_reads.1 h3
      obtain ⟨c, t, rfl, hc⟩ := first_char hrd hk0
      exact ⟨c, t ++ (lo3.map (·.word)).flatten, by simp, hc⟩
  have hnew : Lexemes ((lf.map (·.word)).flatten ++ ((lo2.map (·.word)).flatten ++ B)) (lf ++ (lo2 ++ le)) := by
    rw [List.append_assoc] at l1
    refine lexemes_follow hback l1 (fun l hl => x1 l (by simp [hl])) fun l rest hl hrd => ?_
    have hkind := hopen (lxOf l) (by rw [← hlf, List.getLast?_map, hl]; rfl)
    obtain ⟨c, t, e, hc1, hc2⟩ := hfirst
    rw [e, List.cons_append]
    exact reads_opener _ hrd hkind hc1 hc2
  have xn : ∀ l ∈ lf ++ (lo2 ++ le), l.err = none := by
    intro l hl
    simp only [List.mem_append] at hl
    rcases hl with hl | hl | hl
    · exact x1 l (by simp [hl])
    · exact xo l hl
    · exact x1 l (by simp [hl])
  rw [tF, tO, tE, tokenize_eq hnew, attach_tokens, (errs_none 0).2 xn, hr2l, ← hlf, ← hlo2, ← hle]
  simp [lxOf, Function.comp_def]

private def placing (F E : List (SyntaxKind × Text)) (w : Text) (tree : Green) (p r : Red) : Bool :=
  decide (r.kind ∈ expressionKinds ∧ tree.leaves = F ++ r.green.leaves ++ E ∧ r.off = (spelled F).len ∧ r.green.text = w ∧
    (p.kind ∈ valuePlaces ∨ p.kind = .multivalExpr ∧ ∀ x ∈ tree.nodes 0, x.2.kind ≠ .exprStmt ∧ x.2.kind ≠ .assignStmt) ∧
    (significant E).head? ≠ some .lParen) &&
  F.getLast?.any (fun l => decide (l.1 = .whitespace ∨ l.1 ∈ openers)) && (spelled E).head?.all (fun c => decide (c ∈ closers))

private def spelledAs (w : Text) (_ : Green) (_ r : Red) : Bool := decide (r.kind ∈ expressionKinds ∧ r.green.text = w)

private theorem placed_of {text text2 new : Text} {is js : List Nat} {i j : Nat} {F E : List (SyntaxKind × Text)} {w w2 : Text}
    (h : Wrp.finds text is i (placing F E w) = true) (h' : Wrp.finds text2 js j (spelledAs w2) = true)
    (hn : spelled F ++ (w2 ++ spelled E) = new) :
    ∃ tree tree2 r r2, sourceFileParse text = .ok (tree, []) ∧ Below (Red.root tree) r ∧ r.green.text = w ∧
      sourceFileParse text2 = .ok (tree2, []) ∧ Below (Red.root tree2) r2 ∧ r2.green.text = w2 ∧
      sourceFileParse new = .ok (Green.replaceAt r2.green r.path tree, []) := by
  obtain ⟨tree, p, r, h1, h2, h3, h4⟩ := Wrp.found h
  obtain ⟨tree2, p2, r2, k1, k2, k3, k4⟩ := Wrp.found h'
  simp only [placing, Bool.and_eq_true, decide_eq_true_eq, Option.any_eq_true, Option.all_eq_true] at h4
  obtain ⟨⟨⟨a1, a2, a3, a4, a5, a6⟩, a7⟩, a8⟩ := h4
  simp only [spelledAs, decide_eq_true_eq] at k4
  have hb2 : Below (Red.root tree2) r2 := .child k2 k3
  have hnode : tree.isNode = true := by
    obtain ⟨p, -⟩ := (C78_accepted _ tree).1 h1
    obtain ⟨_, _, -, -, -, -, e⟩ := parseText_main text
    rw [p] at e
    simp only [Except.ok.injEq, Prod.mk.injEq] at e
    rw [e.1]; rfl
  refine ⟨tree, tree2, r, r2, h1, .child h2 h3, a4, k1, hb2, k4.2, ?_⟩
  have := C128_replace text text2 tree tree2 p r r2 F E h1 h2 h3 a1 (by
    rcases a5 with h | ⟨e, h⟩
    · exact .inl h
    · refine .inr ⟨e, fun q hq _ => ?_⟩
      have := h _ ((nodes_red (Red.root tree) hnode _).2 ⟨q, hq, rfl⟩)
      exact ⟨this.1, fun e => absurd e this.2⟩) a2 a3 a6 k1 hb2 k4.1
    (C128_fits text text2 tree tree2 r r2 F E h1 a2 (by
      obtain ⟨l, e, hl⟩ := a7
      intro l' e'
      rw [e] at e'
      cases e'
      exact hl) (fun c hc => a8 c hc) k1 hb2 k4.1)
  rw [k4.2, hn] at this
  exact this

/-- The field `a` of a table and the condition `a` of an `if`, each replaced by `c or d`, and the second of two values
returned, replaced by a function. -/
theorem C128_example :
    (∃ tree tree2 r r2, sourceFileParse "x={a,2}".toList = .ok (tree, []) ∧ Below (Red.root tree) r ∧ r.green.text = ['a'] ∧
      sourceFileParse "y=c or d".toList = .ok (tree2, []) ∧ Below (Red.root tree2) r2 ∧ r2.green.text = "c or d".toList ∧
      sourceFileParse "x={c or d,2}".toList = .ok (Green.replaceAt r2.green r.path tree, [])) ∧
    (∃ tree tree2 r r2, sourceFileParse "if a then end".toList = .ok (tree, []) ∧ Below (Red.root tree) r ∧ r.green.text = ['a'] ∧
      sourceFileParse "y=c or d".toList = .ok (tree2, []) ∧ Below (Red.root tree2) r2 ∧ r2.green.text = "c or d".toList ∧
      sourceFileParse "if c or d then end".toList = .ok (Green.replaceAt r2.green r.path tree, [])) ∧
    (∃ tree tree2 r r2, sourceFileParse "return 1,2".toList = .ok (tree, []) ∧ Below (Red.root tree) r ∧ r.green.text = ['2'] ∧
      sourceFileParse "y=function() end".toList = .ok (tree2, []) ∧ Below (Red.root tree2) r2 ∧
      r2.green.text = "function() end".toList ∧
      sourceFileParse "return 1,function() end".toList = .ok (Green.replaceAt r2.green r.path tree, [])) := by
  refine ⟨placed_of (is := [0, 0, 1, 0, 0, 0]) (i := 0) (js := [0, 0, 1]) (j := 0)
      (F := [(.ident, ['x']), (.eq, ['=']), (.lBrace, ['{'])]) (E := [(.comma, [',']), (.number, ['2']), (.rBrace, ['}'])])
      (by decide +kernel) (by decide +kernel) (by decide +kernel),
    placed_of (is := [0, 0]) (i := 0) (js := [0, 0, 1]) (j := 0)
      (F := [(.ifKw, "if".toList), (.whitespace, [' '])])
      (E := [(.whitespace, [' ']), (.thenKw, "then".toList), (.whitespace, [' ']), (.endKw, "end".toList)])
      (by decide +kernel) (by decide +kernel) (by decide +kernel),
    placed_of (is := [0, 0, 0]) (i := 1) (js := [0, 0, 1]) (j := 0)
      (F := [(.returnKw, "return".toList), (.whitespace, [' ']), (.number, ['1']), (.comma, [','])]) (E := [])
      (by decide +kernel) (by decide +kernel) (by decide +kernel)⟩

private def bare (w new : Text) (g2 : Green) (tree : Green) (p r : Red) : Bool :=
  decide (r.kind ∈ expressionKinds ∧ (p.kind ∈ valuePlaces ∨ p.kind = .multivalExpr) ∧ r.green.text = w ∧
    sourceFileParseEval new ≠ .ok (Green.replaceAt g2 r.path tree, []))

private def bare2 (text new w w2 : Text) (is : List Nat) (i : Nat) (_ : Green) (_ r : Red) : Bool :=
  decide (r.kind ∈ expressionKinds ∧ r.green.text = w2) && Wrp.finds text is i (bare w new r.green)

private theorem bare_of {text text2 new w w2 : Text} {is js : List Nat} {i j : Nat}
    (h : Wrp.finds text2 js j (bare2 text new w w2 is i) = true) :
    ∃ tree tree2 p r r2, sourceFileParse text = .ok (tree, []) ∧ Below (Red.root tree) p ∧ r ∈ p.children ∧
      r.kind ∈ expressionKinds ∧ (p.kind ∈ valuePlaces ∨ p.kind = .multivalExpr) ∧ r.green.text = w ∧
      sourceFileParse text2 = .ok (tree2, []) ∧ Below (Red.root tree2) r2 ∧ r2.kind ∈ expressionKinds ∧ r2.green.text = w2 ∧
      sourceFileParse new ≠ .ok (Green.replaceAt r2.green r.path tree, []) := by
  obtain ⟨tree2, p2, r2, k1, k2, k3, k4⟩ := Wrp.found h
  simp only [bare2, Bool.and_eq_true, decide_eq_true_eq] at k4
  obtain ⟨tree, p, r, h1, h2, h3, h4⟩ := Wrp.found k4.2
  simp only [bare, decide_eq_true_eq] at h4
  exact ⟨tree, tree2, p, r, r2, h1, h2, h3, h4.1, h4.2.1, h4.2.2.1, k1, .child k2 k3, k4.1.1, k4.1.2, by
    rw [sourceFileParse_eq_eval]; exact h4.2.2.2⟩

/-- **C128 fails** without each of its conditions: a long string as an index, where the tokens run together; `a` for the `1` of
`x=1 (f)()`, where a parenthesis follows; and `a` for the call that is the statement `f()`. -/
theorem C128_fails :
    (∃ tree tree2 p r r2, sourceFileParse "x=t[a]".toList = .ok (tree, []) ∧ Below (Red.root tree) p ∧ r ∈ p.children ∧
      r.kind ∈ expressionKinds ∧ (p.kind ∈ valuePlaces ∨ p.kind = .multivalExpr) ∧ r.green.text = ['a'] ∧
      sourceFileParse "y=[[s]]".toList = .ok (tree2, []) ∧ Below (Red.root tree2) r2 ∧ r2.kind ∈ expressionKinds ∧
      r2.green.text = "[[s]]".toList ∧ sourceFileParse "x=t[[[s]]]".toList ≠ .ok (Green.replaceAt r2.green r.path tree, [])) ∧
    (∃ tree tree2 p r r2, sourceFileParse "x=1 (f)()".toList = .ok (tree, []) ∧ Below (Red.root tree) p ∧ r ∈ p.children ∧
      r.kind ∈ expressionKinds ∧ (p.kind ∈ valuePlaces ∨ p.kind = .multivalExpr) ∧ r.green.text = ['1'] ∧
      sourceFileParse "y=a".toList = .ok (tree2, []) ∧ Below (Red.root tree2) r2 ∧ r2.kind ∈ expressionKinds ∧
      r2.green.text = ['a'] ∧ sourceFileParse "x=a (f)()".toList ≠ .ok (Green.replaceAt r2.green r.path tree, [])) ∧
    (∃ tree tree2 p r r2, sourceFileParse "f()".toList = .ok (tree, []) ∧ Below (Red.root tree) p ∧ r ∈ p.children ∧
      r.kind ∈ expressionKinds ∧ (p.kind ∈ valuePlaces ∨ p.kind = .multivalExpr) ∧ r.green.text = "f()".toList ∧
      sourceFileParse "y=a".toList = .ok (tree2, []) ∧ Below (Red.root tree2) r2 ∧ r2.kind ∈ expressionKinds ∧
      r2.green.text = ['a'] ∧ sourceFileParse ['a'] ≠ .ok (Green.replaceAt r2.green r.path tree, [])) := by
  refine ⟨bare_of (is := [0, 0, 1, 0, 1]) (i := 0) (js := [0, 0, 1]) (j := 0) (by decide +kernel),
    bare_of (is := [0, 0, 1]) (i := 0) (js := [0, 0, 1]) (j := 0) (by decide +kernel),
    bare_of (is := [0, 0, 0]) (i := 0) (js := [0, 0, 1]) (j := 0) (by decide +kernel)⟩

end Verif
