import Verif.Proof.Pasting
import Verif.Props.Complaints
import Verif.Proof.Decide

/-
C124: copying a construct with its own brackets.
-/
namespace Verif
open Lexer Lua Accept Spec PTree Nest

private theorem ctx_inner {x g : Green} {p a b} (h : Ctx x g p a b) : ∀ n ∈ inner x, n ∈ inner g := by
  induction h with
  | here => exact fun n h => h
  | @down k pre c post p a b h ih =>
    intro n hn
    rw [inner_node, innerL_append, innerL_cons]
    simp [ih n hn]

/-- what is known of a file without errors and of a construct in it -/
theorem Pst.file_facts {text : Text} {tree : Green} {r : Red} {K : SyntaxKind} (h : sourceFileParse text = .ok (tree, []))
    (hr : Below (Red.root tree) r) (hk : r.kind = K) (hK : K ≠ .sourceFile ∧ K ≠ .block) :
    ∃ ls ts gs pre post c q a b, Lexemes text ls ∧ (∀ l ∈ ls, l.err = none) ∧ errorsL ts = [] ∧
      yieldL ts = realKinds (ls.map lxOf) ∧ Deriv .accepted .block [.node .block ts] ∧
      r.green = .node K gs ∧ (placeL text.len ts (ls.map lxOf)).greens = pre ++ c :: post ∧
      tree = .node .sourceFile [.node .block (pre ++ c :: (post ++ (placeL text.len ts (ls.map lxOf)).rest.map leaf))] ∧
      r.path = 0 :: pre.length :: q ∧ Ctx r.green c q a b ∧ r.off = wlen (Green.leavesL pre ++ a) ∧
      LitOk tree ∧ (∀ n ∈ inner tree, Fine n) ∧ (∀ n ∈ inner r.green, n ∈ inner tree) := by
  obtain ⟨p1, v1⟩ := (C78_accepted text tree).1 h
  obtain ⟨ls, ts, l1, -, y1, ⟨-, d1⟩, e1⟩ := parseText_main text
  obtain ⟨ls', tree', errs', l1', q1, lit1, -, lv1, -⟩ := parseText_tree text
  obtain rfl := l1.unique l1'
  rw [p1] at q1 e1
  simp only [Except.ok.injEq, Prod.mk.injEq] at q1 e1
  obtain ⟨rfl, rfl⟩ := q1
  obtain ⟨e1, f1⟩ := e1
  obtain ⟨f1, x1⟩ := List.append_eq_nil_iff.1 f1.symm
  have x1 := (errs_none 0).1 x1
  have he := placeL_errs_nil _ _ _ f1
  obtain ⟨b0, hb0, hd⟩ := d1 he
  simp only [PTree.node.injEq, List.cons.injEq, and_true, true_and] at hb0
  subst hb0
  obtain ⟨a, b, ctx, ho⟩ := (inTree_root tree).below hr
  have hKs : SyntaxKind.sourceFile ≠ K := hK.1.symm
  have hKb : SyntaxKind.block ≠ K := hK.2.symm
  have hn : r.green.isNode = true := by
    cases hr with
    | self => rw [e1]; rfl
    | child _ hc => exact child_node hc
  obtain ⟨gs, hgs⟩ : ∃ gs, r.green = .node K gs := by
    have hk : r.green.kind = K := hk
    cases hg : r.green with
    | token => rw [hg] at hn; simp [Green.isNode] at hn
    | node k gs => rw [hg] at hk; exact ⟨gs, by rw [show k = K from hk]⟩
  have fine : ∀ n ∈ inner tree, Fine n := by simp only [inner, List.forall_mem_map]; exact v1
  have hin := ctx_inner ctx
  generalize hpath : r.path = path at ctx
  generalize hx : r.green = x at ctx hin hgs
  have ctx0 := ctx
  rw [e1] at ctx
  generalize hsrc : (Green.node .sourceFile _) = src at ctx
  cases ctx with
  | here =>
    rw [hgs] at hsrc
    simp only [Green.node.injEq] at hsrc
    exact absurd hsrc.1 hKs
  | @down k1 pre1 c1 post1 path1 a1 b1 ctx =>
    simp only [Green.node.injEq] at hsrc
    obtain ⟨rfl, hsrc⟩ := hsrc
    obtain ⟨rfl, rfl, rfl⟩ : pre1 = [] ∧ _ ∧ post1 = [] := by
      cases pre1 with
      | nil => simp only [List.nil_append, List.cons.injEq] at hsrc; exact ⟨rfl, hsrc.1, hsrc.2.symm⟩
      | cons z zs => simp at hsrc
    generalize hblk : (Green.node .block _) = blk at ctx
    cases ctx with
    | here =>
      rw [hgs] at hblk
      simp only [Green.node.injEq] at hblk
      exact absurd hblk.1 hKb
    | @down k2 pre2 c2 post2 path2 a2 b2 ctx =>
      simp only [Green.node.injEq] at hblk
      obtain ⟨rfl, hblk⟩ := hblk
      have hc : c2.isNode = true := by
        cases ctx with
        | here => rw [← hx]; exact hn
        | down => rfl
      have : ∃ post, (placeL text.len ts (ls.map lxOf)).greens = pre2 ++ c2 :: post ∧
          post2 = post ++ (placeL text.len ts (ls.map lxOf)).rest.map leaf := by
        rcases List.append_eq_append_iff.1 hblk with ⟨q, e2, e3⟩ | ⟨q, e2, e3⟩
        · exfalso
          have : c2 ∈ (placeL text.len ts (ls.map lxOf)).rest.map leaf := by rw [e3]; simp
          rw [List.mem_map] at this
          obtain ⟨l, -, rfl⟩ := this
          simp [leaf, Green.isNode] at hc
        · cases q with
          | nil =>
            exfalso
            have : c2 ∈ (placeL text.len ts (ls.map lxOf)).rest.map leaf := by
              simp only [List.nil_append] at e3; rw [← e3]; simp
            rw [List.mem_map] at this
            obtain ⟨l, -, rfl⟩ := this
            simp [leaf, Green.isNode] at hc
          | cons z q =>
            simp only [List.cons_append, List.cons.injEq] at e3
            exact ⟨q, by rw [e2, e3.1], e3.2⟩
      obtain ⟨post, e2, e3⟩ := this
      subst e3
      refine ⟨ls, ts, gs, pre2, post, c2, path2, a2, b2, l1, x1, he, y1, hd, hgs, e2, ?_, rfl, ctx, ?_, lit1, fine, hin⟩
      · rw [e1, e2]; simp
      · rw [ho]; simp [Green.leavesL]

/-- **C124** In a file without errors, a construct that has its own brackets (an expression in parentheses, a table, a
function, an index, an argument list, a parameter list, or a statement that ends in `end`) may be replaced by any construct
of the same kind from any file without errors, just as it is written there: the result is a file without errors, and its
tree is the old one with the node of the construct replaced by the other node. -/
theorem C124_paste (text1 text2 A O B : Text) (tree1 tree2 : Green) (r1 r2 : Red)
    (h1 : sourceFileParse text1 = .ok (tree1, [])) (h2 : sourceFileParse text2 = .ok (tree2, []))
    (hr1 : Below (Red.root tree1) r1) (hr2 : Below (Red.root tree2) r2) (hk : r1.kind = r2.kind)
    (hK : r2.kind ∈ selfClosing) (ht : text1 = A ++ O ++ B) (hrange : r1.range = ⟨A.len, A.len + O.len⟩) :
    sourceFileParse (A ++ r2.green.text ++ B) = .ok (Green.replaceAt r2.green r1.path tree1, []) := by
  generalize hKe : r2.kind = K at hK hk
  have hK0 : K ≠ .sourceFile ∧ K ≠ .block := by constructor <;> (rintro rfl; revert hK; decide)
  obtain ⟨ls, ts, gs, pre, post, c, q, a, b, l1, x1, er1, y1, d1, g1, pl1, e1, pa1, ctx, ho, lit1, f1, in1⟩ :=
    Pst.file_facts h1 hr1 hk hK0
  obtain ⟨ls2, ts2, gs2, pre2, post2, c2, q2, a2, b2, l2, x2, er2, y2, d2, g2, pl2, e2, -, ctx2, -, lit2, f2, in2⟩ :=
    Pst.file_facts h2 hr2 hKe hK0
  have hlv1 : ls.map lxOf = Green.leavesL pre ++ (a ++ (Green.leavesL gs ++ (b ++ (Green.leavesL post ++
      (placeL text1.len ts (ls.map lxOf)).rest)))) := by
    have h3 := placeL_leaves text1.len ts (ls.map lxOf)
    rw [pl1, leavesL_append, Green.leavesL, ctx.leaves, g1] at h3
    conv => lhs; rw [← h3]
    simp [Green.leaves]
  have hlv2 : ls2.map lxOf = Green.leavesL pre2 ++ (a2 ++ (Green.leavesL gs2 ++ (b2 ++ (Green.leavesL post2 ++
      (placeL text2.len ts2 (ls2.map lxOf)).rest)))) := by
    have h3 := placeL_leaves text2.len ts2 (ls2.map lxOf)
    rw [pl2, leavesL_append, Green.leavesL, ctx2.leaves, g2] at h3
    conv => lhs; rw [← h3]
    simp [Green.leaves]
  -- the shapes of the two constructs
  rw [g1] at ctx
  rw [g2] at ctx2
  obtain ⟨cs1, S1, r1', ⟨t1, ht1, s1⟩, n1, st1, rk1, -⟩ := Pst.placeL_sub text1.len ts (r := []) (by rw [y1]; simp) er1 pl1 ctx
  obtain ⟨cs2, S2, r2', ⟨t2, ht2, s2⟩, n2, st2, rk2, -⟩ := Pst.placeL_sub text2.len ts2 (r := []) (by rw [y2]; simp) er2 pl2 ctx2
  have good1 : Pst.Good .accepted K cs1 := Pst.deriv_all d1 _ (List.mem_singleton.2 rfl) K cs1 hK (.node _ _ _ _ ht1 s1)
  have good2 : Pst.Good .accepted K cs2 := Pst.deriv_all d2 _ (List.mem_singleton.2 rfl) K cs2 hK (.node _ _ _ _ ht2 s2)
  obtain ⟨-, -, o1, m1, z1, em1, ko1, kz1⟩ := Pst.new_node hK good1 n1 st1 rk1
  obtain ⟨nb, gr2, o2, m2, z2, em2, ko2, kz2⟩ := Pst.new_node hK good2 n2 st2 rk2
  -- the new tokens
  rw [← List.append_assoc] at hlv1 hlv2
  obtain ⟨lf, lx, rfl, hlf, hlx⟩ := List.map_eq_append_iff.1 hlv1
  obtain ⟨lo, le, rfl, hlo, hle⟩ := List.map_eq_append_iff.1 hlx
  obtain ⟨lf2, lx2, rfl, hlf2, hlx2⟩ := List.map_eq_append_iff.1 hlv2
  obtain ⟨lo2, le2, rfl, hlo2, hle2⟩ := List.map_eq_append_iff.1 hlx2
  have hsplit : ∀ {lo : List Lexeme} {o m z}, lo.map lxOf = o :: m ++ [z] → ∃ o' m' z', lo = o' :: m' ++ [z'] ∧ lxOf o' = o ∧ lxOf z' = z := by
    intro lo o m z h
    obtain ⟨l', z', rfl, h3, h4⟩ := List.map_eq_append_iff.1 h
    obtain ⟨o', m', rfl, h5, -⟩ := List.map_eq_cons_iff.1 h3
    obtain ⟨z'', rfl, h6⟩ := List.map_eq_singleton_iff.1 h4
    exact ⟨o', m', z'', rfl, h5, h6⟩
  obtain ⟨o1', m1', z1', rfl, eo1, ez1⟩ := hsplit (hlo.trans em1)
  obtain ⟨o2', m2', z2', rfl, eo2, ez2⟩ := hsplit (hlo2.trans em2)
  have hko : ∀ {l : Lexeme} {x : Lx}, lxOf l = x → l.kind = x.1 := by intro l x h; rw [← h]; rfl
  have hfo : Pst.opener K ∈ Pst.fixedKinds := by simp only [Pst.fixedKinds, List.mem_append, List.mem_map]; exact .inl ⟨K, hK, rfl⟩
  have hfz : Pst.closer K ∈ Pst.fixedKinds := by simp only [Pst.fixedKinds, List.mem_append, List.mem_map]; exact .inr ⟨K, hK, rfl⟩
  have same_o : o1' = o2' := Pst.fixed_same l1 l2 (by simp) (by simp) (x1 _ (by simp)) (x2 _ (by simp))
    (by rw [hko eo1, hko eo2, ko1, ko2]) (by rw [hko eo1, ko1]; exact hfo)
  have same_z : z1' = z2' := Pst.fixed_same l1 l2 (by simp) (by simp) (x1 _ (by simp)) (x2 _ (by simp))
    (by rw [hko ez1, hko ez2, kz1, kz2]) (by rw [hko ez1, kz1]; exact hfz)
  subst same_o same_z
  obtain ⟨F, R1, eF, hFl, hR1, wF⟩ := lexemes_split l1 fun l hl => x1 l (by simp [hl])
  obtain ⟨O', E, rfl, hO, hE, wO⟩ := lexemes_split hR1 fun l hl => x1 l (by
    simp only [List.mem_append] at hl ⊢; exact .inr (.inl hl))
  have hZ : ∃ Z, Lexemes Z (z1' :: le) ∧ Z = z1'.word ++ E := by
    have : Lexemes text1 ((lf ++ (o1' :: m1')) ++ (z1' :: le)) := by simpa using l1
    obtain ⟨X, Y, -, -, hY, -⟩ := lexemes_split this fun l hl => x1 l (by
      simp only [List.mem_append, List.mem_cons] at hl ⊢; rcases hl with h | h | h <;> simp [h])
    refine ⟨Y, hY, ?_⟩
    rw [← hY.flatten, ← hE.flatten]; simp
  obtain ⟨Z, hZ, eZ⟩ := hZ
  have hZ2 : ∃ Z2 Y2, Lexemes Z2 (z1' :: le2) ∧ Z2.head? = Z.head? ∧ Lexemes Y2 ((o1' :: m2') ++ (z1' :: le2)) := by
    have h3 : Lexemes text2 ((lf2 ++ (o1' :: m2')) ++ (z1' :: le2)) := by simpa using l2
    obtain ⟨X, Y, -, -, hY, -⟩ := lexemes_split h3 fun l hl => x2 l (by
      simp only [List.mem_append, List.mem_cons] at hl ⊢; rcases hl with h | h | h <;> simp [h])
    have h4 : Lexemes text2 (lf2 ++ ((o1' :: m2') ++ (z1' :: le2))) := by simpa using l2
    obtain ⟨X', Y', -, -, hY', -⟩ := lexemes_split h4 fun l hl => x2 l (by
      simp only [List.mem_append] at hl ⊢; exact .inl hl)
    refine ⟨Y, Y', hY, ?_, hY'⟩
    have hne := l1.words_ne z1' (by simp)
    rw [eZ, ← hY.flatten]
    simp only [List.map_cons, List.flatten_cons, List.head?_append]
    cases hw : z1'.word with
    | nil => exact absurd hw hne
    | cons => simp
  obtain ⟨Z2, Y2, hZ2, hhead, hY2⟩ := hZ2
  have new1 := Pst.lexemes_change hZ2 hZ hhead hY2
  have new2 := Pst.lexemes_change (la := lf) hR1 new1 (by
    have hne := l1.words_ne o1' (by simp)
    rw [← hR1.flatten]
    simp only [List.cons_append, List.append_assoc, List.map_cons, List.flatten_cons, List.head?_append]
    cases hw : o1'.word with
    | nil => exact absurd hw hne
    | cons => simp) l1
  -- the texts
  have htext2 : r2.green.text = ((o1' :: m2' ++ [z1']).map (·.word)).flatten := by
    rw [text_leaves, g2]
    simp only [Green.leaves, ← hlo2]
    simp [wordsOf, lxOf, Function.comp_def]
  have hoff : r1.off = A.len ∧ r1.off + r1.green.len = A.len + O.len := by
    have := hrange
    simp only [Red.range, Green.range, Range.ofLen, Range.mk.injEq] at this
    exact this
  have hlen : r1.green.len = Text.len O' := by
    show Text.len r1.green.text = _
    rw [text_leaves, g1, wO]
    simp only [Green.leaves, ← hlo]
    simp [wordsOf, lxOf, Function.comp_def]
  rw [ht, List.append_assoc] at eF
  obtain ⟨rfl, eG⟩ := Text.append_inj_len eF (by rw [← hoff.1, ho, wF, ← wlen_words, hlf])
  obtain ⟨-, rfl⟩ := Text.append_inj_len eG (by omega)
  have hnew : Lexemes (A ++ r2.green.text ++ B) (lf ++ ((o1' :: m2' ++ [z1']) ++ le)) := by
    rw [htext2]
    rw [eZ] at new2
    simpa [wF] using new2
  -- the new tree
  have swap := ctx.swap (y := .node K gs2)
  have sw2 := swap
  rw [← gr2] at sw2
  obtain ⟨ts', rep, p1, p2, p3, -⟩ := Pst.placeL_swap nb text1.len 0 ts (r := []) (by rw [y1]; simp) er1 pl1 sw2
  have htoks : (lf ++ ((o1' :: m2' ++ [z1']) ++ le)).map lxOf = Green.leavesL pre ++ a ++ Green.leavesL gs2 ++ b ++
      Green.leavesL post ++ (placeL text1.len ts (List.map lxOf (lf ++ (o1' :: m1' ++ [z1'] ++ le)))).rest := by
    rw [List.map_append, List.map_append, hlf, hlo2, hle]; simp
  rw [← htoks] at p1 p2 p3
  have hd' := (Pst.deriv_rep hK good2 d1 (.down rep)).1
  have hnoerr : ∀ l ∈ lf ++ ((o1' :: m2' ++ [z1']) ++ le), l.err = none := by
    intro l hl
    rcases List.mem_append.1 hl with hl | hl
    · exact x1 l (by simp [hl])
    rcases List.mem_append.1 hl with hl | hl
    · exact x2 l (List.mem_append_right _ (List.mem_append_left _ hl))
    · exact x1 l (List.mem_append_right _ (List.mem_append_right _ hl))
  have hparse := parse_of_deriv hnew hd' (by simpa [errorsL, errors] using deriv_errors hd') (by rw [p3]; simp) 0
  rw [(errs_none 0).2 hnoerr, p1, p2] at hparse
  have htree : Green.replaceAt r2.green r1.path tree1 = .node .sourceFile [.node .block
      ((pre ++ Green.replaceAt (.node K gs2) q c :: post) ++
        (placeL text1.len ts (List.map lxOf (lf ++ (o1' :: m1' ++ [z1'] ++ le)))).rest.map leaf)] := by
    rw [pa1, e1, g2]
    have e := modify_mid (f := Green.replaceAt (.node K gs2) q) pre c
      (post ++ (placeL text1.len ts (List.map lxOf (lf ++ (o1' :: m1' ++ [z1'] ++ le)))).rest.map leaf)
    simp only [Green.replaceAt, List.modify_zero_cons, e]
    simp
  have swapT : Swap (.node K gs) (.node K gs2) (Green.leavesL pre ++ a) (b ++ Green.leavesL (post ++ (placeL text1.len ts (List.map lxOf (lf ++ (o1' :: m1' ++ [z1'] ++ le)))).rest.map leaf))
      (.node .block (pre ++ c :: (post ++ (placeL text1.len ts (List.map lxOf (lf ++ (o1' :: m1' ++ [z1'] ++ le)))).rest.map leaf)))
      (.node .block (pre ++ Green.replaceAt (.node K gs2) q c :: (post ++ (placeL text1.len ts (List.map lxOf (lf ++ (o1' :: m1' ++ [z1'] ++ le)))).rest.map leaf))) :=
    .down swap
  have swapF := Swap.down (k := .sourceFile) (pre := []) (post := []) swapT
  simp only [List.nil_append] at swapF
  rw [← e1] at swapF
  have htree2 : Green.replaceAt r2.green r1.path tree1 = .node .sourceFile [.node .block
      (pre ++ Green.replaceAt (.node K gs2) q c :: (post ++
        (placeL text1.len ts (List.map lxOf (lf ++ (o1' :: m1' ++ [z1'] ++ le)))).rest.map leaf))] := by rw [htree]; simp
  rw [← htree2] at swapF
  refine (C78_accepted _ _).2 ⟨by rw [hparse, gr2, htree], ?_⟩
  have in2' : ∀ n ∈ inner (.node K gs2), n ∈ inner tree2 := by rw [← g2]; exact in2
  have lg : ∀ n ∈ inner tree1, n.kind = .literal → ∃ l : Lx, n = .node .literal [leaf l] := by
    intro n hn hk
    simp only [inner, List.mem_map] at hn
    obtain ⟨p, hp, rfl⟩ := hn
    obtain ⟨l, h1, -⟩ := litOk_nodes lit1 hp hk
    exact ⟨l, h1⟩
  obtain ⟨k1, -, -, -, -, k2⟩ := Pst.swap_fine hK rfl rfl swapF (fun n hn => ((fine_iff n).1 (f1 n hn)).1)
    (fun n hn => ((fine_iff n).1 (f2 n (in2' n hn))).1) lg
  intro p hp
  have hmem : p.2 ∈ inner (Green.replaceAt r2.green r1.path tree1) := List.mem_map.2 ⟨p, hp, rfl⟩
  refine (fine_iff p.2).2 ⟨k1 _ hmem, fun w hw => ?_⟩
  rcases k2 _ hmem (by rw [hw]; rfl) with h0 | h0
  · exact (f1 _ h0).literal w hw
  · exact (f2 _ (in2' _ h0)).literal w hw

/-- a file without errors with a node of a kind, of `n` bytes at `pos` -/
private theorem node_of {text : Text} {K : SyntaxKind} {pos n : Nat} {w : Text}
    (h : (sourceFileParseEval text).toOption.map (fun p => (p.2.length,
      (p.1.nodes 0).any fun x => x.1 == pos && x.2.kind == K && x.2.len == n && decide (x.2.text = w))) = some (0, true)) :
    ∃ tree r, sourceFileParse text = .ok (tree, []) ∧ Below (Red.root tree) r ∧ r.kind = K ∧ r.range = ⟨pos, pos + n⟩ ∧
      r.green.text = w := by
  rw [sourceFileParse_eq_eval]
  cases e : sourceFileParseEval text with
  | error x => rw [e] at h; simp [Except.toOption] at h
  | ok q =>
    rw [e] at h
    obtain ⟨t, es⟩ := q
    simp only [Except.toOption, Option.map_some, Option.some.injEq, Prod.mk.injEq, List.length_eq_zero_iff,
      List.any_eq_true, Bool.and_eq_true, beq_iff_eq, decide_eq_true_eq] at h
    obtain ⟨rfl, x, hx, ⟨⟨h1, h2⟩, h3⟩, h4⟩ := h
    cases t with
    | token k w => simp [Green.nodes] at hx
    | node k cs =>
      obtain ⟨r, hr, rfl⟩ := (nodes_red (Red.root (.node k cs)) rfl x).1 hx
      refine ⟨_, r, rfl, hr, h2, ?_, h4⟩
      simp only [redPair] at h1 h3
      simp [Red.range, Green.range, Range.ofLen, h1, h3]

/-- A table of one file replaced by a table of another one, with a comment in it, and a loop by a loop: the hypotheses met, and
what the result is. -/
theorem C124_example :
    (∃ tree1 tree2 r1 r2, sourceFileParse "x=f{1}+y".toList = .ok (tree1, []) ∧
      sourceFileParse "return {a=2,--c\n}".toList = .ok (tree2, []) ∧ Below (Red.root tree1) r1 ∧ Below (Red.root tree2) r2 ∧
      r1.kind = r2.kind ∧ r2.kind ∈ selfClosing ∧ r1.range = ⟨3, 6⟩ ∧ r2.green.text = "{a=2,--c\n}".toList ∧
      sourceFileParse "x=f{a=2,--c\n}+y".toList = .ok (Green.replaceAt r2.green r1.path tree1, [])) ∧
    (∃ tree1 tree2 r1 r2, sourceFileParse "while a do end".toList = .ok (tree1, []) ∧
      sourceFileParse "if x then while not y do g() end end".toList = .ok (tree2, []) ∧ Below (Red.root tree1) r1 ∧
      Below (Red.root tree2) r2 ∧ r1.kind = r2.kind ∧ r2.kind ∈ selfClosing ∧ r1.range = ⟨0, 14⟩ ∧
      r2.green.text = "while not y do g() end".toList ∧
      sourceFileParse "while not y do g() end".toList = .ok (Green.replaceAt r2.green r1.path tree1, [])) := by
  constructor
  · obtain ⟨tree1, r1, h1, b1, k1, g1, -⟩ := node_of (text := "x=f{1}+y".toList) (K := .tableExpr) (pos := 3) (n := 3)
      (w := "{1}".toList) (by decide +kernel)
    obtain ⟨tree2, r2, h2, b2, k2, -, t2⟩ := node_of (text := "return {a=2,--c\n}".toList) (K := .tableExpr) (pos := 7) (n := 10)
      (w := "{a=2,--c\n}".toList) (by decide +kernel)
    have := C124_paste _ _ "x=f".toList "{1}".toList "+y".toList tree1 tree2 r1 r2 h1 h2 b1 b2 (by rw [k1, k2]) (by rw [k2]; decide)
      (by decide) (by rw [g1]; decide)
    rw [t2] at this
    have e : "x=f".toList ++ "{a=2,--c\n}".toList ++ "+y".toList = "x=f{a=2,--c\n}+y".toList := by decide
    rw [e] at this
    exact ⟨tree1, tree2, r1, r2, h1, h2, b1, b2, by rw [k1, k2], by rw [k2]; decide, g1, t2, this⟩
  · obtain ⟨tree1, r1, h1, b1, k1, g1, -⟩ := node_of (text := "while a do end".toList) (K := .whileStmt) (pos := 0) (n := 14)
      (w := "while a do end".toList) (by decide +kernel)
    obtain ⟨tree2, r2, h2, b2, k2, -, t2⟩ := node_of (text := "if x then while not y do g() end end".toList) (K := .whileStmt)
      (pos := 10) (n := 22) (w := "while not y do g() end".toList) (by decide +kernel)
    have := C124_paste _ _ [] "while a do end".toList [] tree1 tree2 r1 r2 h1 h2 b1 b2 (by rw [k1, k2]) (by rw [k2]; decide)
      (by decide) (by rw [g1]; decide)
    rw [t2] at this
    have e : [] ++ "while not y do g() end".toList ++ [] = "while not y do g() end".toList := by decide
    rw [e] at this
    exact ⟨tree1, tree2, r1, r2, h1, h2, b1, b2, by rw [k1, k2], by rw [k2]; decide, g1, t2, this⟩

private theorem swap_inner {x y g g' : Green} {a b} (h : Swap x y a b g g') : ∀ n ∈ inner y, n ∈ inner g' := by
  induction h with
  | here => exact fun n h => h
  | @down k pre c c' post a b h ih =>
    intro n hn
    rw [inner_node, innerL_append, innerL_cons]
    simp [ih n hn]

/-- **C124 fails** for constructs without brackets of their own: with the product `b*c` of `x=b*c*a` replaced by the sum
`b+c`, the result is `x=b+c*a`, which is read otherwise. -/
theorem C124_open_fails : ∃ tree1 tree2 tree3 r1 r2, sourceFileParse "x=b*c*a".toList = .ok (tree1, []) ∧
    sourceFileParse "x=b+c".toList = .ok (tree2, []) ∧ Below (Red.root tree1) r1 ∧ Below (Red.root tree2) r2 ∧
    r1.kind = r2.kind ∧ r1.range = ⟨2, 5⟩ ∧ r2.green.text = "b+c".toList ∧
    sourceFileParse "x=b+c*a".toList = .ok (tree3, []) ∧ tree3 ≠ Green.replaceAt r2.green r1.path tree1 := by
  obtain ⟨tree1, r1, h1, b1, k1, g1, -⟩ := node_of (text := "x=b*c*a".toList) (K := .infixExpr) (pos := 2) (n := 3)
    (w := "b*c".toList) (by decide +kernel)
  obtain ⟨tree2, r2, h2, b2, k2, -, t2⟩ := node_of (text := "x=b+c".toList) (K := .infixExpr) (pos := 2) (n := 3)
    (w := "b+c".toList) (by decide +kernel)
  have h : (sourceFileParseEval "x=b+c*a".toList).toOption.map (fun p => (p.2.length,
      (p.1.nodes 0).all fun x => decide (x.2.text ≠ "b+c".toList))) = some (0, true) := by decide +kernel
  have h3 : ∃ tree3, sourceFileParse "x=b+c*a".toList = .ok (tree3, []) ∧ ∀ n ∈ inner tree3, n.text ≠ "b+c".toList := by
    rw [sourceFileParse_eq_eval]
    cases e : sourceFileParseEval "x=b+c*a".toList with
    | error x => rw [e] at h; simp [Except.toOption] at h
    | ok q =>
      rw [e] at h
      obtain ⟨t, es⟩ := q
      simp only [Except.toOption, Option.map_some, Option.some.injEq, Prod.mk.injEq, List.length_eq_zero_iff,
        List.all_eq_true, decide_eq_true_eq] at h
      obtain ⟨rfl, hx⟩ := h
      exact ⟨t, rfl, by simpa only [inner, List.forall_mem_map] using hx⟩
  obtain ⟨tree3, h3, h4⟩ := h3
  refine ⟨tree1, tree2, tree3, r1, r2, h1, h2, b1, b2, by rw [k1, k2], g1, t2, h3, fun e => ?_⟩
  obtain ⟨a, b, ctx, -⟩ := (inTree_root tree1).below b1
  have hm : r2.green ∈ inner r2.green := by
    have : r2.green.kind = .infixExpr := k2
    cases hg : r2.green with
    | token k w =>
      obtain ⟨_, _, ctx2, -⟩ := (inTree_root tree2).below b2
      have hn : r2.green.isNode = true := by
        cases b2 with
        | self =>
          obtain ⟨p, -⟩ := (C78_accepted _ tree2).1 h2
          obtain ⟨_, _, -, -, -, -, e⟩ := parseText_main "x=b+c".toList
          rw [p] at e
          simp only [Except.ok.injEq, Prod.mk.injEq] at e
          rw [e.1]; rfl
        | child _ hc => exact child_node hc
      rw [hg] at hn; simp [Green.isNode] at hn
    | node k cs => rw [inner_node]; simp
  exact h4 _ (e ▸ swap_inner (ctx.swap (y := r2.green)) _ hm) t2

end Verif
