import Verif.Proof.WrapChecks
import Verif.Proof.Productions
import Verif.Props.Complaints
import Verif.Proof.Decide

/-
C126: an expression may be put in parentheses.
-/
namespace Verif
open Lexer Accept PTree Lua Nest Wrp
open Spec hiding callable

private theorem significant_eq (ls : List Lx) : significant ls = realKinds ls := by
  have h : ∀ k : SyntaxKind, decide (k ≠ .whitespace ∧ k ≠ .comment) = !k.isTrivia := by intro k; cases k <;> rfl
  induction ls with
  | nil => rfl
  | cons l ls ih =>
    simp only [significant, realKinds, List.map_cons, List.filter_cons, h, isTriv] at ih ⊢
    cases l.1.isTrivia <;> simp [ih]

private theorem split_unique {F X F' X' : List Lx} (h : F ++ X = F' ++ X') (hw : wlen F = wlen F')
    (hne : ∀ l ∈ F ++ X, l.2 ≠ []) : F = F' ∧ X = X' := by
  have pos : ∀ l : Lx, l.2 ≠ [] → 0 < Text.len l.2 := by
    intro l hl
    obtain ⟨c, cs, e⟩ := List.exists_cons_of_ne_nil hl
    rw [e]
    have := Char.utf8Size_pos c
    simp [Text.len]
    omega
  rcases List.append_eq_append_iff.1 h with ⟨q, e1, e2⟩ | ⟨q, e1, e2⟩
  · cases q with
    | nil => exact ⟨by simpa using e1.symm, by simpa using e2⟩
    | cons l q =>
      rw [e1] at hw
      have := pos l (hne l (by rw [e2]; simp))
      simp at hw; omega
  · cases q with
    | nil => exact ⟨by simpa using e1, by simpa using e2.symm⟩
    | cons l q =>
      rw [e1] at hw
      have := pos l (hne l (by rw [e1]; simp))
      simp at hw; omega

/-- **C126** In a file without errors, an expression that is an operand, the function or object of a call, a table that is indexed, a
key, or an element of a list of expressions, a table or a condition may be put in parentheses, unless the parenthesis would
be taken as the start of arguments (what comes before ends like something that can be called), or what follows would become
the arguments (an expression that cannot be called as it stands is followed by a parenthesis), or the expression is the call
of a statement. The result is a file without errors, and its tree is the old one with the node of the expression replaced by
a node with the parentheses around it. -/
theorem C126_wrap (text : Text) (tree : Green) (p r : Red) (F E : List (SyntaxKind × Text))
    (h : sourceFileParse text = .ok (tree, [])) (hp : Below (Red.root tree) p) (hr : r ∈ p.children)
    (hk : r.kind ∈ expressionKinds) (hplace : p.kind ∈ openPlaces)
    (hl : tree.leaves = F ++ r.green.leaves ++ E) (hoff : r.off = (spelled F).len)
    (hbefore : ∀ k, (significant F).getLast? = some k → k ∉ callEnds)
    (hbehind : r.kind ∈ Spec.callable ∨ (significant E).head? ≠ some .lParen)
    (hcall : ∀ q, Below (Red.root tree) q → p ∈ q.children → q.kind = .exprStmt → r.kind ≠ .callExpr ∧ r.kind ≠ .methodCallExpr) :
    sourceFileParse (spelled F ++ '(' :: (r.green.text ++ ')' :: spelled E)) =
      .ok (Green.replaceAt (parenthesized r.green) r.path tree, []) := by
  obtain ⟨p1, v1⟩ := (C78_accepted text tree).1 h
  obtain ⟨ls, ts, l1, -, y1, ⟨-, d1⟩, e1⟩ := parseText_main text
  obtain ⟨ls', tree', errs', l1', q1, lit1, -, lv1, -⟩ := parseText_tree text
  obtain rfl := l1.unique l1'
  rw [p1] at q1 e1
  simp only [Except.ok.injEq, Prod.mk.injEq] at q1 e1
  obtain ⟨rfl, rfl⟩ := q1
  obtain ⟨e1, f1⟩ := e1
  obtain ⟨f1, x1⟩ := List.append_eq_nil_iff.1 f1.symm
  have x1 := (errs_none 0).1 x1
  have he := placeL_errs_nil _ _ _ f1
  obtain ⟨b0, hb0, hd⟩ := d1 he
  simp only [PTree.node.injEq, List.cons.injEq, and_true, true_and] at hb0
  subst hb0
  have fine : ∀ n ∈ inner tree, Fine n := by simp only [inner, List.forall_mem_map]; exact v1
  -- the node and the nodes above it
  have hrn := child_node hr
  obtain ⟨K, gs, hgs⟩ : ∃ K gs, r.green = .node K gs := by
    cases hg : r.green with
    | token => rw [hg] at hrn; simp [Green.isNode] at hrn
    | node k gs => exact ⟨k, gs, rfl⟩
  have hKr : r.kind = K := by show r.green.kind = K; rw [hgs]; rfl
  rw [hKr] at hk hbehind
  have split : ∀ {u v : Red}, v ∈ u.children → ∃ pre post, u.green = .node u.kind (pre ++ v.green :: post) ∧
      v.path = u.path ++ [pre.length] ∧ v.off = u.off + wlen (Green.leavesL pre) := by
    intro u v hv
    obtain ⟨pre, post, a1, a2, a3⟩ := elemsFrom_split (List.mem_filter.1 hv).1
    refine ⟨pre, post, ?_, by simpa using a2, a3⟩
    cases hu : u.green with
    | token k w => rw [hu] at a1; simp [Green.children] at a1
    | node k cs =>
      rw [hu] at a1
      simp only [Green.children] at a1
      rw [a1]
      show _ = Green.node u.green.kind _
      rw [hu]; rfl
  obtain ⟨pre1, post1, sp, pp, po⟩ := split hr
  cases hp with
  | self =>
    exfalso
    have : (Red.root tree).kind = .sourceFile := by show tree.kind = _; rw [e1]; rfl
    rw [this] at hplace
    exact absurd hplace (by decide)
  | @child q _ hq hpq =>
  obtain ⟨pre2, post2, sq, pq, oq⟩ := split hpq
  obtain ⟨a0, b0, ctx, ho⟩ := (inTree_root tree).below hq
  let lp : Lx := (.lParen, ['('])
  let rp : Lx := (.rParen, [')'])
  have gw : ∀ j k, GW lp rp K gs j k ([pre2.length, pre1.length]) (Green.leavesL pre2 ++ (Green.leavesL pre1 ++ []))
      (([] ++ Green.leavesL post1) ++ Green.leavesL post2) q.green
      (.node q.kind (pre2 ++ .node p.kind (pre1 ++ parenG lp rp K gs :: post1) :: post2)) := by
    intro j k
    rw [sq, sp, hgs]
    exact .down (.down (.here hplace fun e => by rw [← hKr]; exact hcall q hq hpq e))
  obtain ⟨g', gwt⟩ := GW.of ctx gw
  have hrep := (gwt .sourceFile .sourceFile).replace
  have hpath : q.path ++ [pre2.length, pre1.length] = r.path := by rw [pp, pq]; simp
  have gwF := gwt .sourceFile .sourceFile
  have hlvT := gwF.leaves.1
  have hoffT : r.off = wlen (a0 ++ (Green.leavesL pre2 ++ (Green.leavesL pre1 ++ []))) := by
    rw [po, oq, ho]; simp; omega
  rw [hpath] at hrep gwF
  have e0 := e1
  generalize ha : a0 ++ (Green.leavesL pre2 ++ (Green.leavesL pre1 ++ [])) = a at gwF hlvT hoffT
  generalize hb : (([] ++ Green.leavesL post1) ++ Green.leavesL post2) ++ b0 = b at gwF hlvT
  have gwF0 := gwF
  rw [e1] at gwF
  generalize hpt : r.path = path at gwF
  generalize hsrc : (Green.node .sourceFile _) = src at gwF
  cases gwF with
  | here hx => exact absurd hx (by decide)
  | @down _ _ k1 prea c1 c1' posta q1 a1 b1 gwF =>
  simp only [Green.node.injEq] at hsrc
  obtain ⟨rfl, hsrc⟩ := hsrc
  obtain ⟨rfl, rfl, rfl⟩ : prea = [] ∧ _ ∧ posta = [] := by
    cases prea with
    | nil => simp only [List.nil_append, List.cons.injEq] at hsrc; exact ⟨rfl, hsrc.1, hsrc.2.symm⟩
    | cons z zs => simp at hsrc
  generalize hblk : (Green.node .block _) = blk at gwF
  cases gwF with
  | here hx => exact absurd hx (by decide)
  | @down _ _ k2 pre c c' post0 q2 a2 b2 gwF =>
  simp only [Green.node.injEq] at hblk
  obtain ⟨rfl, hblk⟩ := hblk
  have hc := gwF.node.1
  have : ∃ post, (placeL text.len ts (ls.map lxOf)).greens = pre ++ c :: post ∧
      post0 = post ++ (placeL text.len ts (ls.map lxOf)).rest.map leaf := by
    rcases List.append_eq_append_iff.1 hblk with ⟨q, e2, e3⟩ | ⟨q, e2, e3⟩
    · exfalso
      have : c ∈ (placeL text.len ts (ls.map lxOf)).rest.map leaf := by rw [e3]; simp
      rw [List.mem_map] at this
      obtain ⟨l, -, rfl⟩ := this
      simp [leaf, Green.isNode] at hc
    · cases q with
      | nil =>
        exfalso
        have : c ∈ (placeL text.len ts (ls.map lxOf)).rest.map leaf := by
          simp only [List.nil_append] at e3; rw [← e3]; simp
        rw [List.mem_map] at this
        obtain ⟨l, -, rfl⟩ := this
        simp [leaf, Green.isNode] at hc
      | cons z q =>
        simp only [List.cons_append, List.cons.injEq] at e3
        exact ⟨q, by rw [e2, e3.1], e3.2⟩
  obtain ⟨post, pl1, rfl⟩ := this
  have hlv1 : ls.map lxOf = (Green.leavesL pre ++ a2) ++ (Green.leavesL gs ++ (b2 ++ (Green.leavesL post ++
      (placeL text.len ts (ls.map lxOf)).rest))) := by
    have h3 := placeL_leaves text.len ts (ls.map lxOf)
    rw [pl1, leavesL_append, Green.leavesL, gwF.leaves.1] at h3
    conv => lhs; rw [← h3]
    simp
  -- what is before and behind
  have hlx : tree.leaves = ls.map lxOf := by
    rw [lv1]
  have hne : ∀ l ∈ ls.map lxOf, l.2 ≠ [] := by
    intro l hl
    rw [List.mem_map] at hl
    obtain ⟨x, hx, rfl⟩ := hl
    exact l1.words_ne x hx
  obtain ⟨rfl, hrest⟩ := split_unique (F := F) (X := r.green.leaves ++ E) (F' := Green.leavesL pre ++ a2)
    (by rw [← hlv1, ← hlx, hl, List.append_assoc]) (by
      rw [hoffT] at hoff
      show (spelled F).len = _
      rw [← hoff]; simp [Green.leavesL]) (by rw [← List.append_assoc, ← hl, hlx]; exact hne)
  rw [hgs] at hrest
  simp only [Green.leaves] at hrest
  have hE := List.append_cancel_left hrest
  -- the new tree
  obtain ⟨ts', wr, g1, g2, g3, st⟩ := placeL_wrap (lp := lp) (rp := rp) rfl rfl hk text.len 0 ts (r := []) (by rw [y1]; simp) he
    (AllExp.sub (deriv_exp hd _ (List.mem_singleton.2 rfl))) pl1 gwF
  have hrestk : realKinds (placeL text.len ts (ls.map lxOf)).rest = [] := Pst.realKindsL_suffix _ ts (by rw [y1]; simp)
  have hd' : Deriv .accepted .block [.node .block ts'] := by
    refine deriv_wrap (K := K) hd (p := false) nofun ⟨_, _, .down (ts := []) wr, ⟨fun k hk => ?_, ?_⟩⟩
    · exact hbefore k (by rw [significant_eq]; exact hk)
    · rcases hbehind with h | h
      · exact .inl (by simpa [Spec.callable, callableKinds] using h)
      · right
        rw [significant_eq, hE, realKinds_append, realKinds_append, hrestk] at h
        simpa [realKinds_append, yieldL] using h
  -- the new tokens
  obtain ⟨lf, lx, rfl, hlf, hlx2⟩ := List.map_eq_append_iff.1 hlv1
  obtain ⟨lo, le, rfl, hlo, hle⟩ := List.map_eq_append_iff.1 hlx2
  obtain ⟨A, R1, eA, hAl, hR1, wA⟩ := lexemes_split l1 fun l hl => x1 l (by simp [hl])
  obtain ⟨O, B, rfl, hO, hB, wO⟩ := lexemes_split hR1 fun l hl => x1 l (by
    simp only [List.mem_append] at hl ⊢; exact .inr (.inl hl))
  -- the first and the last token of the expression
  obtain ⟨cs, S, r', ⟨t1, ht1, s1⟩, n1, st1, rk1, -⟩ := Pst.placeL_sub text.len ts (r := []) (by rw [y1]; simp) he pl1 gwF.ctx
  obtain ⟨hsolid, -⟩ := deriv_exp hd _ (List.mem_singleton.2 rfl) K cs hk (.node _ _ _ _ ht1 s1)
  obtain ⟨A1, z, ez, hz⟩ := placeL_end text.len cs rk1 hsolid
  have hS : (placeL text.len cs (Green.leavesL gs ++ S)).rest = S := by
    have := placeL_leaves text.len cs (Green.leavesL gs ++ S)
    rw [n1] at this
    exact List.append_cancel_left this
  rw [hS] at ez
  have hlast : Green.leavesL gs = A1 ++ [z] := List.append_cancel_right (bs := S) (by rw [ez]; simp)
  rw [hlast] at hlo
  obtain ⟨lo1, lz, rfl, hlo1, hlz⟩ := List.map_eq_append_iff.1 hlo
  obtain ⟨z', rfl, ez'⟩ := List.map_eq_singleton_iff.1 hlz
  have real_kind : ∀ {l : Lexeme} {x : Lx}, lxOf l = x → isTriv x = false → l.kind ≠ .comment ∧ l.kind ≠ .whitespace := by
    rintro l x rfl hx
    have : l.kind.isTrivia = false := hx
    constructor <;> intro e <;> rw [e] at this <;> exact absurd this (by decide)
  have hclose : Lexemes (((lo1 ++ [z']).map (·.word)).flatten ++ ')' :: B) ((lo1 ++ [z']) ++ (⟨[')'], .rParen, none⟩ :: le)) := by
    refine lexemes_paren (lb := le) (.inr rfl) (paren_lexeme (.inr rfl) hB) hR1 (fun l hl => x1 l (by
      simp only [List.mem_append] at hl ⊢; exact .inr (.inl hl))) (fun l hl => ?_)
    rw [List.getLast?_concat] at hl
    simp only [Option.some.injEq] at hl
    subst hl
    exact (real_kind ez' hz).1
  have hopen : Lexemes ((lf.map (·.word)).flatten ++ '(' :: (((lo1 ++ [z']).map (·.word)).flatten ++ ')' :: B))
      (lf ++ (⟨['('], .lParen, none⟩ :: ((lo1 ++ [z']) ++ (⟨[')'], .rParen, none⟩ :: le)))) := by
    refine lexemes_paren (.inl rfl) (paren_lexeme (.inl rfl) hclose) l1 (fun l hl => x1 l (by simp [hl])) (fun l hl hcom => ?_)
    -- a comment is followed by a line break
    obtain ⟨lf1, rfl⟩ := List.getLast?_eq_some_iff.1 hl
    rw [List.append_assoc] at l1
    obtain ⟨-, R2, -, -, hR2, -⟩ := lexemes_split l1 fun x hx => x1 x (by simp [hx])
    simp only [List.singleton_append] at hR2
    have hz2 : ∃ z2 zs, lo1 ++ [z'] = z2 :: zs := by cases lo1 <;> simp
    obtain ⟨z2, zs, ez2⟩ := hz2
    have hz2r : isTriv (lxOf z2) = false := by
      refine st _ ?_
      have : Green.leavesL gs = lxOf z2 :: zs.map lxOf := by
        rw [hlast, ← hlo, ez2]; rfl
      rw [this]; rfl
    rw [ez2] at hR2
    obtain ⟨w, k, err⟩ := l
    simp only at hcom
    subst hcom
    have her : err = none := x1 ⟨w, .comment, err⟩ (by simp)
    subst her
    generalize hx : (⟨w, .comment, none⟩ : Lexeme) :: (z2 :: zs ++ le) = ll at hR2
    cases hR2 with
    | nil => cases hx
    | @cons s l' rest lls h1 h2 =>
    simp only [List.cons.injEq] at hx
    obtain ⟨rfl, rfl⟩ := hx
    have e := h1.append
    simp only at e
    subst e
    obtain ⟨hw, hr1⟩ := firstLexeme_reads.1 h1
    generalize hx : z2 :: zs ++ le = ll at h2
    cases h2 with
    | nil => cases hx
    | @cons s l' rest2 lls h3 h4 =>
    simp only [List.cons_append, List.cons.injEq] at hx
    obtain ⟨rfl, -⟩ := hx
    rcases comment_next hr1 with e | e
    · have := h3.append
      rw [e] at this
      exact l1.words_ne z2 (by rw [ez2]; simp) (List.append_eq_nil_iff.1 this.symm).1
    · exact (real_kind rfl hz2r).2 (newline_space h3 e)
  have words : ∀ l : List Lexeme, ((l.map lxOf).map (·.2)).flatten = (l.map (·.word)).flatten := by
    intro l; simp [lxOf, Function.comp_def]
  have tF : spelled (Green.leavesL pre ++ a2) = (lf.map (·.word)).flatten := by
    rw [← hlf]; exact words lf
  have tO : r.green.text = ((lo1 ++ [z']).map (·.word)).flatten := by
    rw [text_leaves, hgs]
    simp only [Green.leaves]
    rw [hlast, ← hlo]; exact words _
  have tE : spelled E = B := by
    rw [hE, ← hle, ← hB.flatten]; exact words le
  rw [tF, tO, tE]
  have htoks : (lf ++ (⟨['('], .lParen, none⟩ :: ((lo1 ++ [z']) ++ (⟨[')'], .rParen, none⟩ :: le)))).map lxOf =
      Green.leavesL pre ++ a2 ++ (lp :: Green.leavesL gs ++ [rp]) ++ b2 ++ Green.leavesL post ++
        (placeL text.len ts (List.map lxOf (lf ++ (lo1 ++ [z'] ++ le)))).rest := by
    rw [List.map_append, hlf, List.map_cons, List.map_append, hlo, List.map_cons, hle, hlast]
    simp [lxOf, lp, rp]
  rw [← htoks] at g1 g2 g3
  have hnoerr : ∀ l ∈ lf ++ (⟨['('], .lParen, none⟩ :: ((lo1 ++ [z']) ++ (⟨[')'], .rParen, none⟩ :: le))), l.err = none := by
    intro l hl
    simp only [List.mem_append, List.mem_cons] at hl
    rcases hl with hl | rfl | (hl | hl) | rfl | hl
    · exact x1 l (by simp [hl])
    · rfl
    · exact x1 l (by simp [hl])
    · exact x1 l (by simp at hl; simp [hl])
    · rfl
    · exact x1 l (by simp [hl])
  have hparse := parse_of_deriv hopen hd' (by simpa [errorsL, errors] using deriv_errors hd') (by rw [g3]; simp) 0
  rw [(errs_none 0).2 hnoerr, g1, g2] at hparse
  have htree : Green.replaceAt (parenthesized r.green) r.path tree = .node .sourceFile [.node .block
      ((pre ++ c' :: post) ++ (placeL text.len ts (List.map lxOf (lf ++ (lo1 ++ [z'] ++ le)))).rest.map leaf)] := by
    have : parenthesized r.green = parenG lp rp K gs := by rw [hgs]; rfl
    rw [this, ← hrep]
    simp
  rw [← hpt]
  refine (C78_accepted _ _).2 ⟨by rw [hparse, htree], ?_⟩
  have lg : ∀ n ∈ inner tree, n.kind = .literal → ∃ l : Lx, n = .node .literal [leaf l] := by
    intro n hn hk
    simp only [inner, List.mem_map] at hn
    obtain ⟨p, hp, rfl⟩ := hn
    obtain ⟨l, h1, -⟩ := litOk_nodes lit1 hp hk
    exact ⟨l, h1⟩
  obtain ⟨k1, -, -, k2⟩ := wrap_fine hk gwF0 (fun n hn => ((fine_iff n).1 (fine n hn)).1) lg
  have htree2 : Green.replaceAt (parenthesized r.green) r.path tree = .node .sourceFile ([] ++ (.node .block
      (pre ++ c' :: (post ++ (placeL text.len ts (List.map lxOf (lf ++ (lo1 ++ [z'] ++ le)))).rest.map leaf))) :: []) := by
    rw [htree]; simp
  rw [← htree2] at k1 k2
  intro p hp
  have hmem : p.2 ∈ inner (Green.replaceAt (parenthesized r.green) r.path tree) := List.mem_map.2 ⟨p, hp, rfl⟩
  refine (fine_iff p.2).2 ⟨k1 _ hmem, fun w hw => ?_⟩
  exact (fine _ (k2 _ hmem (by rw [hw]; rfl))).literal w hw

private theorem separated_node {sep : SyntaxKind} {P : Sym → Prop} {ss : List Sym} (h : Separated sep P ss) {k : SyntaxKind}
    (hk : Sym.node k ∈ ss) : P (.node k) := by
  induction h with
  | one s h => simp at hk; exact hk ▸ h
  | cons s ss h _ ih =>
    simp only [List.mem_cons] at hk
    rcases hk with e | e | e
    · exact e ▸ h
    · cases e
    · exact ih e

/-- **C126** The places that `C126_wrap` speaks of are all places of expressions: an expression node that is not a child of such
a node is the label of a `goto`, part of the name of a function that is defined, or the table that is the argument of a call. -/
theorem C126_places (text : Text) (tree : Green) (p r : Red) (h : sourceFileParse text = .ok (tree, []))
    (hp : Below (Red.root tree) p) (hr : r ∈ p.children) (hk : r.kind ∈ expressionKinds) :
    p.kind ∈ openPlaces ∨ (p.kind ∈ [SyntaxKind.gotoStmt, .indexPath] ∧ r.kind = .nameRef) ∨
      (p.kind = .callArgs ∧ r.kind = .tableExpr) := by
  have hprod := productions text tree (sourceFileParse_ok h) p hp
  have hn := child_node hr
  have hmem : Sym.node r.kind ∈ (parts p).map sym := by
    refine List.mem_map.2 ⟨r, List.mem_filter.2 ⟨(List.mem_filter.1 hr).1, by simp [hn]⟩, by simp [sym, hn]⟩
  generalize r.kind = k at *
  generalize (parts p).map sym = ss at *
  generalize p.kind = q at *
  have no : ∀ {l : List SyntaxKind} {m}, k = m → m ∈ l → (∀ m ∈ l, m ∉ expressionKinds) → False := by
    intro l m e h1 h2
    exact h2 m h1 (e ▸ hk)
  have entries : ∀ {ss}, Entries ss → Sym.node k ∈ ss → False := by
    intro ss h
    induction h with
    | nil => simp
    | last => intro h; simp at h; subst h; exact absurd hk (by decide)
    | cons ss _ ih =>
      intro h
      simp only [List.mem_cons, Sym.node.injEq] at h
      rcases h with rfl | rfl | h
      · exact absurd hk (by decide)
      · exact absurd hk (by decide)
      · exact ih h
  have stmts : ∀ {ss}, Stmts ss → Sym.node k ∈ ss → False := by
    intro ss h
    induction h with
    | nil => simp
    | plain m ss hm _ ih =>
      intro h
      simp only [List.mem_cons, Sym.node.injEq] at h
      rcases h with e | h
      · exact no e hm (by decide)
      · exact ih h
    | semi m ss hm _ ih =>
      intro h
      simp only [List.mem_cons, Sym.node.injEq, reduceCtorEq, false_or] at h
      rcases h with e | h
      · exact no e hm (by decide)
      · exact ih h
  have dec : ∀ m, k = m → m ∉ expressionKinds → False := fun m e h => h (e ▸ hk)
  cases hprod
  case block h => exact (stmts h hmem).elim
  case tableExpr ss h =>
    simp only [List.mem_cons, List.mem_append, reduceCtorEq, false_or, List.not_mem_nil, or_false] at hmem
    exact (entries h hmem).elim
  case multiName h => have := separated_node h hmem; simp at this; exact (dec _ this (by decide)).elim
  case multiNameComma ss h =>
    simp only [List.mem_cons, List.mem_append, reduceCtorEq, List.not_mem_nil, or_false] at hmem
    have := separated_node h hmem; simp at this; exact (dec _ this (by decide)).elim
  case indexPath h => have := separated_node h hmem; simp at this; exact .inr (.inl ⟨by decide, this⟩)
  case indexPathDot ss h =>
    simp only [List.mem_cons, List.mem_append, reduceCtorEq, List.not_mem_nil, or_false] at hmem
    have := separated_node h hmem; simp at this; exact .inr (.inl ⟨by decide, this⟩)
  case gotoStmt => simp at hmem; exact .inr (.inl ⟨by decide, hmem⟩)
  case callArgs s h =>
    simp only [List.mem_cons, List.not_mem_nil, or_false] at h hmem
    rcases h with rfl | rfl | rfl
    · simp at hmem; exact (dec _ hmem (by decide)).elim
    · simp at hmem; exact .inr (.inr ⟨rfl, hmem⟩)
    · simp at hmem
  case tableContent m h => simp only [List.mem_singleton, Sym.node.injEq] at hmem; exact (no hmem h (by decide)).elim
  case tableKey m h => simp only [List.mem_singleton, Sym.node.injEq] at hmem; exact (no hmem h (by decide)).elim
  case functionDefContent m h => simp only [List.mem_singleton, Sym.node.injEq] at hmem; exact (no hmem h (by decide)).elim
  case forContent m h => simp only [List.mem_singleton, Sym.node.injEq] at hmem; exact (no hmem h (by decide)).elim
  all_goals first
    | exact .inl (by decide)
    | (exfalso
       simp only [List.mem_cons, List.not_mem_nil, or_false, false_or, reduceCtorEq, Sym.node.injEq] at hmem
       try first
         | exact hmem.elim
         | exact dec _ hmem (by decide)
         | (rcases hmem with e | e <;> exact dec _ e (by decide))
         | (rcases hmem with e | e | e <;> exact dec _ e (by decide)))
/-! ### examples -/

/-- the node reached by going to the children with these numbers -/
def Wrp.nav : List Nat → Red → Option Red
  | [], r => some r
  | i :: is, r => r.children[i]?.bind (nav is)

theorem Wrp.nav_below {root : Red} : ∀ {is : List Nat} {r p : Red}, Below root r → nav is r = some p → Below root p
  | [], r, p, h, e => by simp only [nav, Option.some.injEq] at e; exact e ▸ h
  | i :: is, r, p, h, e => by
    simp only [nav, Option.bind_eq_some_iff] at e
    obtain ⟨c, hc, e⟩ := e
    exact nav_below (.child h (List.mem_of_getElem? hc)) e

/-- a file without errors, a node of it and a child of that node, with a property -/
def Wrp.finds (text : Text) (is : List Nat) (i : Nat) (P : Green → Red → Red → Bool) : Bool :=
  match sourceFileParseEval text with
  | .ok (tree, []) => match nav is (Red.root tree) with
    | some p => match p.children[i]? with
      | some r => P tree p r
      | none => false
    | none => false
  | _ => false

theorem Wrp.found {text : Text} {is : List Nat} {i : Nat} {P : Green → Red → Red → Bool} (h : finds text is i P = true) :
    ∃ tree p r, sourceFileParse text = .ok (tree, []) ∧ Below (Red.root tree) p ∧ r ∈ p.children ∧ P tree p r = true := by
  rw [sourceFileParse_eq_eval]
  unfold finds at h
  split at h
  · rename_i tree e
    split at h
    · rename_i p hp
      split at h
      · rename_i r hr
        exact ⟨tree, p, r, e, nav_below .self hp, List.mem_of_getElem? hr, h⟩
      · cases h
    · cases h
  · cases h

def Wrp.fits (F E : List (SyntaxKind × Text)) (w : Text) (tree : Green) (p r : Red) : Bool :=
  decide (r.kind ∈ expressionKinds ∧ p.kind ∈ openPlaces ∧ tree.leaves = F ++ r.green.leaves ++ E ∧ r.off = (spelled F).len ∧
    r.green.text = w ∧ (r.kind ∈ Spec.callable ∨ (significant E).head? ≠ some .lParen)) &&
  (significant F).getLast?.all (fun k => decide (k ∉ callEnds)) && (tree.nodes 0).all fun x => decide (x.2.kind ≠ .exprStmt)

theorem Wrp.fits_of {text : Text} {is : List Nat} {i : Nat} {F E : List (SyntaxKind × Text)} {w : Text}
    (h : finds text is i (fits F E w) = true) :
    ∃ tree p r, sourceFileParse text = .ok (tree, []) ∧ Below (Red.root tree) p ∧ r ∈ p.children ∧ r.kind ∈ expressionKinds ∧
      p.kind ∈ openPlaces ∧ tree.leaves = F ++ r.green.leaves ++ E ∧ r.green.text = w ∧ r.off = (spelled F).len ∧
      (∀ k, (significant F).getLast? = some k → k ∉ callEnds) ∧
      (r.kind ∈ Spec.callable ∨ (significant E).head? ≠ some .lParen) ∧
      (∀ q, Below (Red.root tree) q → p ∈ q.children → q.kind = .exprStmt → r.kind ≠ .callExpr ∧ r.kind ≠ .methodCallExpr) := by
  obtain ⟨tree, p, r, h1, h2, h3, h4⟩ := found h
  simp only [fits, Bool.and_eq_true, decide_eq_true_eq, List.all_eq_true] at h4
  obtain ⟨⟨⟨a1, a2, a3, a4, a5, a6⟩, a7⟩, a8⟩ := h4
  refine ⟨tree, p, r, h1, h2, h3, a1, a2, a3, a5, a4, fun k hk => by rw [hk] at a7; simpa using a7, a6, fun q hq _ hk => ?_⟩
  have hn : tree.isNode = true := by
    obtain ⟨p, -⟩ := (C78_accepted _ tree).1 h1
    obtain ⟨_, _, -, -, -, -, e⟩ := parseText_main text
    rw [p] at e
    simp only [Except.ok.injEq, Prod.mk.injEq] at e
    rw [e.1]; rfl
  exact absurd hk (a8 _ ((nodes_red (Red.root tree) hn _).2 ⟨q, hq, rfl⟩))

private theorem example_of {text new : Text} {is : List Nat} {i : Nat} {F E : List (SyntaxKind × Text)} {w : Text}
    (h : finds text is i (fits F E w) = true) (hn : spelled F ++ '(' :: (w ++ ')' :: spelled E) = new) :
    ∃ tree p r, sourceFileParse text = .ok (tree, []) ∧ Below (Red.root tree) p ∧ r ∈ p.children ∧ r.kind ∈ expressionKinds ∧
      p.kind ∈ openPlaces ∧ tree.leaves = F ++ r.green.leaves ++ E ∧ r.green.text = w ∧
      sourceFileParse new = .ok (Green.replaceAt (parenthesized r.green) r.path tree, []) := by
  obtain ⟨tree, p, r, h1, h2, h3, a1, a2, a3, a5, a4, a7, a6, a8⟩ := fits_of h
  refine ⟨tree, p, r, h1, h2, h3, a1, a2, a3, a5, ?_⟩
  have := C126_wrap text tree p r F E h1 h2 h3 a1 a2 a3 a4 a7 a6 a8
  rw [a5, hn] at this
  exact this

/-- The call `f(1)` of `x=a*f(1)+b`, the condition of a loop, before a comment, and the object of a method call. -/
theorem C126_example :
    (∃ tree p r, sourceFileParse "x=a*f(1)+b".toList = .ok (tree, []) ∧ Below (Red.root tree) p ∧ r ∈ p.children ∧
      r.kind ∈ expressionKinds ∧ p.kind ∈ openPlaces ∧
      tree.leaves = [(.ident, ['x']), (.eq, ['=']), (.ident, ['a']), (.asterisk, ['*'])] ++ r.green.leaves ++
        [(.plus, ['+']), (.ident, ['b'])] ∧ r.green.text = "f(1)".toList ∧
      sourceFileParse "x=a*(f(1))+b".toList = .ok (Green.replaceAt (parenthesized r.green) r.path tree, [])) ∧
    (∃ tree p r, sourceFileParse "while not a--c\ndo end".toList = .ok (tree, []) ∧ Below (Red.root tree) p ∧ r ∈ p.children ∧
      r.kind ∈ expressionKinds ∧ p.kind ∈ openPlaces ∧
      tree.leaves = [(.whileKw, "while".toList), (.whitespace, [' '])] ++ r.green.leaves ++
        [(.comment, "--c".toList), (.whitespace, ['\n']), (.doKw, "do".toList), (.whitespace, [' ']), (.endKw, "end".toList)] ∧
      r.green.text = "not a".toList ∧
      sourceFileParse "while (not a)--c\ndo end".toList = .ok (Green.replaceAt (parenthesized r.green) r.path tree, [])) ∧
    (∃ tree p r, sourceFileParse "x=a:m()".toList = .ok (tree, []) ∧ Below (Red.root tree) p ∧ r ∈ p.children ∧
      r.kind ∈ expressionKinds ∧ p.kind ∈ openPlaces ∧
      tree.leaves = [(.ident, ['x']), (.eq, ['='])] ++ r.green.leaves ++
        [(.colon, [':']), (.ident, ['m']), (.lParen, ['(']), (.rParen, [')'])] ∧ r.green.text = ['a'] ∧
      sourceFileParse "x=(a):m()".toList = .ok (Green.replaceAt (parenthesized r.green) r.path tree, [])) := by
  refine ⟨example_of (is := [0, 0, 1, 0, 0]) (i := 1) (by decide +kernel) (by decide +kernel),
    example_of (is := [0, 0]) (i := 0) (by decide +kernel) (by decide +kernel),
    example_of (is := [0, 0, 1, 0]) (i := 0) (by decide +kernel) (by decide +kernel)⟩

private def spoiled (new : Text) (K : SyntaxKind) (tree : Green) (p r : Red) : Bool :=
  decide (r.kind = K ∧ p.kind ∈ openPlaces) &&
  decide (sourceFileParseEval new ≠ .ok (Green.replaceAt (parenthesized r.green) r.path tree, []))

private theorem spoiled_of {text new : Text} {K : SyntaxKind} {is : List Nat} {i : Nat} (h : finds text is i (spoiled new K) = true) :
    ∃ tree p r, sourceFileParse text = .ok (tree, []) ∧ Below (Red.root tree) p ∧ r ∈ p.children ∧ r.kind = K ∧
      p.kind ∈ openPlaces ∧ sourceFileParse new ≠ .ok (Green.replaceAt (parenthesized r.green) r.path tree, []) := by
  obtain ⟨tree, p, r, h1, h2, h3, h4⟩ := found h
  simp only [spoiled, Bool.and_eq_true, decide_eq_true_eq] at h4
  exact ⟨tree, p, r, h1, h2, h3, h4.1.1, h4.1.2, by rw [sourceFileParse_eq_eval]; exact h4.2⟩

/-- **C126 fails** without each of the three conditions: `f` of `x=a f()`, behind `a`; the `1` of `x=1 (f)()`, in front of a
parenthesis; and the call that is the statement `f()`. -/
theorem C126_fails :
    (∃ tree p r, sourceFileParse "x=a f()".toList = .ok (tree, []) ∧ Below (Red.root tree) p ∧ r ∈ p.children ∧
      r.kind = .nameRef ∧ p.kind ∈ openPlaces ∧
      sourceFileParse "x=a (f)()".toList ≠ .ok (Green.replaceAt (parenthesized r.green) r.path tree, [])) ∧
    (∃ tree p r, sourceFileParse "x=1 (f)()".toList = .ok (tree, []) ∧ Below (Red.root tree) p ∧ r ∈ p.children ∧
      r.kind = .literal ∧ p.kind ∈ openPlaces ∧
      sourceFileParse "x=(1) (f)()".toList ≠ .ok (Green.replaceAt (parenthesized r.green) r.path tree, [])) ∧
    (∃ tree p r, sourceFileParse "f()".toList = .ok (tree, []) ∧ Below (Red.root tree) p ∧ r ∈ p.children ∧
      r.kind = .callExpr ∧ p.kind ∈ openPlaces ∧
      sourceFileParse "(f())".toList ≠ .ok (Green.replaceAt (parenthesized r.green) r.path tree, [])) := by
  refine ⟨spoiled_of (is := [0, 1, 0, 0]) (i := 0) (by decide +kernel), spoiled_of (is := [0, 0, 1]) (i := 0) (by decide +kernel),
    spoiled_of (is := [0, 0, 0]) (i := 0) (by decide +kernel)⟩

end Verif
