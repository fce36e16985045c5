import Verif.Proof.Nesting
import Verif.Props.Complaints
import Verif.Proof.Decide

/-
C118, C119: a correct file put into a block of another one.
-/
namespace Verif
open Lexer Lua Accept Spec PTree Nest

private theorem texts_len (gs : List Green) : Text.len (texts gs) = wlen (Green.leavesL gs) := by
  induction gs with
  | nil => rfl
  | cons g gs ih =>
    have e : wlen g.leaves = Text.len g.text := by rw [wlen, ← text_leaves]
    simp only [texts, List.map_cons, List.flatten_cons, Text.len_append] at ih ⊢
    rw [ih, ← e]
    simp [Green.leavesL, wlen, wordsOf]

private theorem kinds_of {s : Text} {ls : List Lexeme} {k : List SyntaxKind} (hl : Lexemes s ls) (h : HasKinds s k) :
    k = (real (ls.map lxOf)).map (·.1) := by
  obtain ⟨tokens, errors, ht, rfl⟩ := h
  rw [tokenize_eq hl] at ht
  simp only [Except.ok.injEq, Prod.mk.injEq] at ht
  obtain ⟨rfl, -⟩ := ht
  rw [← (lexemes_lx hl).2.1]; simp [toksOf, real, isTriv, List.filter_map, Function.comp_def]

private theorem not_open {s : Text} {ls : List Lexeme} (hl : Lexemes s ls) (h : ¬ EndsInBlockComment s) :
    ∀ l, ls.getLast? = some l → l.kind = .comment → ¬ "--[[".toList <+: l.word := by
  intro l hl2 hlk hpre
  obtain ⟨body, hb⟩ := hpre
  have hf := hl.flatten
  obtain ⟨ini, hini⟩ : ∃ ini, ls = ini ++ [l] := by
    have hne : ls ≠ [] := by rintro rfl; simp at hl2
    rw [List.getLast?_eq_some_getLast hne] at hl2
    simp only [Option.some.injEq] at hl2
    exact ⟨ls.dropLast, by rw [← hl2]; exact (List.dropLast_concat_getLast hne).symm⟩
  refine h ⟨(ini.map (·.word)).flatten, body, _, _, ?_, tokenize_eq hl, ?_⟩
  · rw [hb, ← hf, hini]; simp
  · rw [attach_tokens, hini, hb]; simp [hlk]

private theorem ctx_inner {x g : Green} {p a b} (h : Ctx x g p a b) : ∀ n ∈ inner x, n ∈ inner g := by
  induction h with
  | here => exact fun n h => h
  | @down k pre c post p a b h ih =>
    intro n hn
    rw [inner_node, innerL_append, innerL_cons]
    simp [ih n hn]

/-- **C119** In a file without errors, any run of neighbouring statements of a block (also an empty run, at any place between
or around the statements) may be replaced by any other file without errors, on lines of its own (also by an empty one): if
no statement can be read as going on with the one before it, the result has no errors, and apart from white space and
comments its tree is the old one with these statements replaced by those of the other file. -/
theorem C119_splice (text s F E : Text) (tree t : Green) (r : Red) (pre mid post new : List Green)
    (kP kS kQ : List SyntaxKind)
    (h : sourceFileParse text = .ok (tree, [])) (hs : sourceFileParse s = .ok (t, []))
    (hr : Below (Red.root tree) r) (hr2 : r.green = .node .block (pre ++ mid ++ post))
    (ht : text = F ++ (texts pre ++ texts mid ++ texts post) ++ E) (hF : F.len = r.range.start)
    (hb : BlockOf t (.node .block new))
    (hcP : ¬ EndsInBlockComment (texts pre)) (hcs : ¬ EndsInBlockComment s)
    (hkP : HasKinds (texts pre) kP) (hkS : HasKinds s kS) (hkQ : HasKinds (texts post) kQ)
    (h1 : KeepsApart kP (kS ++ kQ)) (h2 : KeepsApart (kP ++ kS) kQ)
    (h3 : kQ.head? = some .semicolon → ∃ k, (kP ++ kS).getLast? = some k ∧ k ≠ .semicolon) :
    ∃ t', sourceFileParse (F ++ texts pre ++ '\n' :: (s ++ '\n' :: (texts post ++ E))) = .ok (t', []) ∧
      withoutTrivia t' = withoutTrivia (Green.replaceAt (.node .block (pre ++ new ++ post)) r.path tree) := by
  obtain ⟨p1, v1⟩ := (C78_accepted text tree).1 h
  obtain ⟨pt2, v2⟩ := (C78_accepted s t).1 hs
  -- the tokens
  obtain ⟨ls, ts, l1, -, y1, ⟨-, d1⟩, e1⟩ := parseText_main text
  obtain ⟨ls', tree', errs', l1', q1, lit1, -, lv1, -⟩ := parseText_tree text
  obtain rfl := l1.unique l1'
  rw [p1] at q1 e1
  simp only [Except.ok.injEq, Prod.mk.injEq] at q1 e1
  obtain ⟨rfl, rfl⟩ := q1
  obtain ⟨m2, ts2, l2, -, y2, ⟨-, d2⟩, e2⟩ := parseText_main s
  obtain ⟨m2', tree2, errs2, l2', q2, lit2, -, lv2, -⟩ := parseText_tree s
  obtain rfl := l2.unique l2'
  rw [pt2] at q2 e2
  simp only [Except.ok.injEq, Prod.mk.injEq] at q2 e2
  obtain ⟨rfl, rfl⟩ := q2
  obtain ⟨e1, f1⟩ := e1
  obtain ⟨f1, x1⟩ := List.append_eq_nil_iff.1 f1.symm
  obtain ⟨e2, f2⟩ := e2
  obtain ⟨f2, x2⟩ := List.append_eq_nil_iff.1 f2.symm
  have x1 := (errs_none 0).1 x1
  have x2 := (errs_none 0).1 x2
  obtain ⟨a, b, ctx, ho⟩ := (inTree_root tree).below hr
  have hn : r.green.isNode = true := by rw [hr2]; rfl
  have hk : r.green.kind = .block := by rw [hr2]; rfl
  have hlv := ctx.leaves
  have hrl : r.green.leaves = Green.leavesL pre ++ (Green.leavesL mid ++ Green.leavesL post) := by
    rw [hr2]; simp [Green.leaves]
  rw [lv1, hrl, List.append_assoc] at hlv
  obtain ⟨lf, lx, rfl, rfl, hlx⟩ := List.map_eq_append_iff.1 hlv
  rw [List.append_assoc] at hlx
  obtain ⟨lp, ly, rfl, hlp, hly⟩ := List.map_eq_append_iff.1 hlx
  rw [List.append_assoc] at hly
  obtain ⟨lo, lz, rfl, hlo, hlz⟩ := List.map_eq_append_iff.1 hly
  obtain ⟨lq, le, rfl, hlq, rfl⟩ := List.map_eq_append_iff.1 hlz
  obtain ⟨F', R1, eF, hFl, hR1, wF⟩ := lexemes_split l1 fun l hl => x1 l (by simp [hl])
  obtain ⟨P', R2, rfl, hP, hR2, wP⟩ := lexemes_split hR1 fun l hl => x1 l (by simp [hl])
  obtain ⟨O', R3, rfl, hO, hR3, wO⟩ := lexemes_split hR2 fun l hl => x1 l (by simp [hl])
  obtain ⟨Q', E', rfl, hQ, hE, wQ⟩ := lexemes_split hR3 fun l hl => x1 l (by simp [hl])
  rw [ht] at eF
  simp only [List.append_assoc] at eF
  obtain ⟨rfl, eG⟩ := Text.append_inj_len eF (by
    rw [hF, wF, ← wlen_words, ← ho]; rfl)
  obtain ⟨eP, eH⟩ := Text.append_inj_len eG (by rw [texts_len, wP, ← wlen_words, hlp])
  obtain ⟨eO, eI⟩ := Text.append_inj_len eH (by rw [texts_len, wO, ← wlen_words, hlo])
  obtain ⟨eQ, rfl⟩ := Text.append_inj_len eI (by rw [texts_len, wQ, ← wlen_words, hlq])
  rw [eP] at hcP hkP ⊢
  rw [eQ] at hkQ ⊢
  clear eP eO eQ eF eG eH eI ht
  -- the shape of the tree
  have htree : ∃ gs, tree = .node .sourceFile [.node .block gs] := ⟨_, e1⟩
  obtain ⟨gs, rfl⟩ := htree
  have hblk : t = .node .sourceFile [.node .block new] := by
    rw [e2] at hb
    obtain ⟨hb1, hb2⟩ := hb
    simp only [Green.children, List.cons.injEq, and_true] at hb1
    rw [e2, hb1]
  subst hblk
  -- what is before the new text is not an open comment
  have hFP : Lexemes (F ++ P') (lf ++ lp) := by
    obtain ⟨X, Y, e, hX, -, wX⟩ := lexemes_split (la := lf ++ lp) (by simpa using l1) fun l hl => x1 l (by
      simp only [List.mem_append] at hl ⊢; rcases hl with hl | hl <;> simp [hl])
    rw [wF, wP]
    rw [wX] at hX
    simpa using hX
  have hlast : ∀ l, (lf ++ lp).getLast? = some l → l.kind = .comment → ¬ "--[[".toList <+: l.word := by
    intro l hl hlk
    rw [List.getLast?_append] at hl
    cases hq : lp.getLast? with
    | some l' =>
      rw [hq] at hl
      simp only [Option.some_or, Option.some.injEq] at hl
      subst hl
      exact not_open hP hcP _ hq hlk
    | none =>
      rw [hq] at hl
      simp only [Option.none_or] at hl
      refine absurd hlk fun hlk => before_block p1 l1 x1 hk hn ctx ?_ l hl hlk
      rw [hrl, ← hlp, ← hlo, ← hlq]; simp
  -- the new tokens
  obtain ⟨A1, u, p, q, B1, rfl, j1, j2, w1⟩ := lexemes_join (Q' ++ E) l2 x2 (not_open l2 hcs)
  have jQ := hR3.unique j2
  obtain ⟨A2, u2, p2, q2, B2, eFP, j3, j4, w2⟩ := lexemes_join (s ++ '\n' :: (Q' ++ E)) hFP (fun l hl => x1 l (by
    simp only [List.mem_append] at hl ⊢; rcases hl with hl | hl <;> simp [hl])) hlast
  have jj := j1.unique j4
  have hreal : ∀ {x : List Lexeme}, (∀ l ∈ x, l.kind = .whitespace ∧ l.err = none) → real (x.map lxOf) = [] := by
    intro x hx
    simp only [real, List.filter_eq_nil_iff, List.mem_map]
    rintro l ⟨y, hy, rfl⟩
    simp [isTriv, lxOf, (hx y hy).1, SyntaxKind.isTrivia]
  have hnew : real ((A2 ++ (p2 ++ B2)).map lxOf) = real ((lf ++ lp).map lxOf) ++ (real ((A1 ++ u).map lxOf) ++ real ((lq ++ le).map lxOf)) := by
    rw [jQ, eFP]
    have := congrArg (fun x => real (x.map lxOf)) jj
    simp only [List.map_append, real_append] at this ⊢
    rw [hreal (x := u2) fun l hl => w2 l (by simp [hl]), hreal (x := p2) fun l hl => w2 l (by simp [hl]),
      hreal (x := u) fun l hl => w1 l (by simp [hl]), hreal (x := q) fun l hl => w1 l (by simp [hl])]
    rw [hreal (x := p) fun l hl => w1 l (by simp [hl]), hreal (x := q2) fun l hl => w2 l (by simp [hl])] at this
    simp only [List.append_nil, List.nil_append] at this ⊢
    rw [this]
  have hnoerr : ∀ l ∈ A2 ++ (p2 ++ B2), l.err = none := by
    intro l hl
    simp only [List.mem_append] at hl
    rcases hl with hl | hl | hl
    · have : l ∈ lf ++ lp := by rw [eFP]; simp [hl]
      simp only [List.mem_append] at this
      exact x1 l (by rcases this with h | h <;> simp [h])
    · exact (w2 l (by simp [hl])).2
    · have : l ∈ A1 ++ (p ++ B1) := by rw [jj]; simp [hl]
      simp only [List.mem_append] at this
      rcases this with hl | hl | hl
      · exact x2 l (by simp [hl])
      · exact (w1 l (by simp [hl])).2
      · have : l ∈ lq ++ le := by rw [jQ]; simp [hl]
        simp only [List.mem_append] at this
        exact x1 l (by rcases this with h | h <;> simp [h])
  -- the new tree
  have swap := ctx.swap (y := .node .block (pre ++ new ++ post))
  generalize hT : Green.replaceAt (.node .block (pre ++ new ++ post)) r.path (.node .sourceFile [.node .block gs]) = T at swap ⊢
  have hrep := swap_rep hr2 rfl swap
  obtain ⟨b0, hb0, hd⟩ := strip_tree _ _ p1
  obtain ⟨b2, hb2, hd2⟩ := strip_tree _ _ pt2
  simp only [strip, stripL, PTree.node.injEq, List.cons.injEq, and_true, true_and] at hb0 hb2
  subst hb0 hb2
  have hold : Deriv .accepted .stmts (stripL pre ++ (stripL mid ++ stripL post)) := by
    have hsub := (below_sub (a := Red.root (.node .sourceFile [.node .block gs])) rfl hr).2 (strip r.green) (.refl _)
    rw [hr2] at hsub
    simp only [strip, stripL_append, List.append_assoc] at hsub
    generalize hz : strip (Red.root (.node .sourceFile [.node .block gs])).green = z at hsub
    have hz : z = .node .sourceFile [.node .block (stripL gs)] := by rw [← hz]; simp [Red.root, strip, stripL]
    subst hz
    cases hsub with
    | node _ c _ hc hs =>
      simp only [List.mem_singleton] at hc
      subst hc
      have := deriv_blocks hd _ (List.mem_singleton.2 rfl) _ hs
      cases this with
      | block _ h => exact h
  have dnew : Deriv .accepted .stmts (stripL new) := by
    cases hd2 with
    | block _ h => exact h
  obtain ⟨dP, dT⟩ := stmts_split hold
  have dQ : Tail (stripL post) := by
    rcases dT with d | ⟨us, e, d⟩
    · exact (stmts_split d).2
    · cases hm : stripL mid with
      | nil => rw [hm] at e; exact .inr ⟨us, e, d⟩
      | cons m ms =>
        rw [hm] at e
        simp only [List.cons_append, List.cons.injEq] at e
        rw [← e.2] at d
        exact (stmts_split d).2
  have yP : yieldL (stripL pre) = kP := by rw [yieldL_real, ← hlp, kinds_of hP hkP]
  have yQ : yieldL (stripL post) = kQ := by rw [yieldL_real, ← hlq, kinds_of hQ hkQ]
  have yS : yieldL (stripL new) = kS := by
    have : Green.leavesL new = (A1 ++ u).map lxOf := by rw [← lv2]; simp [Green.leaves, Green.leavesL]
    rw [yieldL_real, this, kinds_of l2 hkS]
  have hd2 : Deriv .accepted .block [.node .block (stripL (pre ++ new ++ post))] := by
    simp only [stripL_append]
    refine .block _ (stmts_splice dP dnew dQ ?_ ?_ ?_)
    · rw [yP, yS, yQ]; exact h1
    · rw [yP, yS, yQ]; exact h2
    · rw [yP, yS, yQ]; exact h3
  have hT2 : ∃ ts', strip T = .node .sourceFile [.node .block ts'] ∧ Deriv .accepted .block [.node .block ts'] := by
    simp only [strip, stripL] at hrep
    rw [repL_node (by simp)] at hrep
    obtain ⟨cs', hrep, e⟩ := hrep
    obtain ⟨t', rfl⟩ := repL_single hrep
    have := (deriv_rep hd2 hd hrep).1
    simp only [List.cons.injEq, and_true] at e
    cases this with
    | block ts' h => exact ⟨ts', e, .block _ h⟩
  obtain ⟨ts', eT, hd'⟩ := hT2
  have hTn : ∃ cs, T = .node .sourceFile cs := by
    cases T with
    | token => simp [strip] at eT
    | node k cs => simp only [strip, PTree.node.injEq] at eT; exact ⟨cs, by rw [eT.1]⟩
  obtain ⟨cs, rfl⟩ := hTn
  have hTl : real (Green.leavesL cs) = real ((A2 ++ (p2 ++ B2)).map lxOf) := by
    have := swap.leaves.2
    simp only [Green.leaves] at this
    rw [this, hnew, ← lv2]
    simp [Green.leaves, Green.leavesL, real_append, hlp, hlq]
  have hy : yieldL ts' = realKinds ((A2 ++ (p2 ++ B2)).map lxOf) := by
    have : yieldL ts' = yieldL (stripL cs) := by
      simp only [strip, PTree.node.injEq, true_and] at eT
      rw [eT]; simp [yieldL, PTree.yield]
    rw [this, yieldL_real, hTl]; rfl
  have hparse := parse_of_deriv j3 hd' (by simpa [errorsL, errors] using deriv_errors hd') hy 0
  rw [(errs_none 0).2 hnoerr] at hparse
  obtain ⟨ls3, t3, errs3, l3, q3, lit3, -, lv3, -⟩ := parseText_tree (F ++ P' ++ '\n' :: (s ++ '\n' :: (Q' ++ E)))
  obtain rfl := l3.unique j3
  rw [hparse] at q3
  simp only [Except.ok.injEq, Prod.mk.injEq] at q3
  obtain ⟨e3, rfl⟩ := q3
  have hstrip : strip t3 = strip (.node .sourceFile cs) := by
    rw [e3] at hparse
    refine C84_unambiguous _ _ (strip_tree _ _ hparse) ⟨_, eT, hd'⟩ ?_
    rw [← e3]
    simp only [strip, PTree.yield]
    have e4 := congrArg Green.leaves e3
    simp only [Green.leaves] at e4
    rw [yieldL_real, yieldL_real, e4, lv3, hTl]
  have hbare : withoutTrivia t3 = withoutTrivia (.node .sourceFile cs) := by
    have e4 := congrArg Green.leaves e3
    rw [← e3] at hstrip ⊢
    refine withoutTrivia_eq hstrip ?_
    simp only [Green.leaves] at e4
    rw [hTl, e4, lv3]
  refine ⟨t3, (C78_accepted _ _).2 ⟨by rw [hparse, e3], ?_⟩, hbare⟩
  have fg : ∀ n ∈ inner (.node .sourceFile [.node .block gs]), Fine n := by
    simp only [inner, List.forall_mem_map]; exact v1
  have hsub : ∀ n ∈ innerL pre ++ innerL post, n ∈ inner (.node .sourceFile [.node .block gs]) := by
    intro n hn
    refine ctx_inner ctx n ?_
    rw [hr2, inner_node, innerL_append, innerL_append]
    simp only [List.mem_cons, List.mem_append] at hn ⊢
    rcases hn with hn | hn <;> simp [hn]
  have hnewi : ∀ n ∈ innerL new, n ∈ inner (.node .sourceFile [.node .block new]) := by
    intro n hn
    rw [inner_node, innerL_cons, inner_node]
    simp [hn]
  have hyi : ∀ n ∈ inner (.node .block (pre ++ new ++ post)), n = .node .block (pre ++ new ++ post) ∨
      n ∈ inner (.node .sourceFile [.node .block gs]) ∨ n ∈ inner (.node .sourceFile [.node .block new]) := by
    intro n hn
    rw [inner_node, innerL_append, innerL_append] at hn
    simp only [List.mem_cons, List.mem_append] at hn
    rcases hn with hn | (hn | hn) | hn
    · exact .inl hn
    · exact .inr (.inl (hsub n (by simp [hn])))
    · exact .inr (.inr (hnewi n hn))
    · exact .inr (.inl (hsub n (by simp [hn])))
  have fnew : ∀ n ∈ inner (.node .sourceFile [.node .block new]), Fine n := by
    simp only [inner, List.forall_mem_map]; exact v2
  have fy : ∀ n ∈ inner (.node .block (pre ++ new ++ post)), Fine n := by
    intro n hn
    rcases hyi n hn with rfl | h | h
    · exact ⟨fun h => by simp [Green.kind] at h, fun h => by simp [Green.kind] at h, fun w h => by simp at h⟩
    · exact fg n h
    · exact fnew n h
  have lg : ∀ {g : Green}, LitOk g → ∀ n ∈ inner g, n.kind = .literal → ∃ l : Lx, n = .node .literal [leaf l] ∧ l.1 ∈ literalKinds := by
    intro g hg n hn hk
    simp only [inner, List.mem_map] at hn
    obtain ⟨p, hp, rfl⟩ := hn
    obtain ⟨l, h1, h2, -⟩ := litOk_nodes hg hp hk
    exact ⟨l, h1, h2⟩
  obtain ⟨k1, -, -, -, -, k2⟩ := swap_fine hr2 rfl swap (fun n hn => ((fine_iff n).1 (fg n hn)).1)
    (fun n hn => ((fine_iff n).1 (fy n hn)).1) (fun n hn hk => (lg lit1 n hn hk).imp fun _ h => h.1)
  intro p hp
  have hmem : withoutTrivia p.2 ∈ inner (withoutTrivia (.node .sourceFile cs)) := by
    rw [← hbare, inner_bare]
    exact List.mem_map.2 ⟨p.2, List.mem_map.2 ⟨p, hp, rfl⟩, rfl⟩
  rw [inner_bare, List.mem_map] at hmem
  obtain ⟨n, hn2, hn3⟩ := hmem
  refine (fine_iff p.2).2 ⟨?_, ?_⟩
  · rw [← stmtFine_bare, ← hn3, stmtFine_bare]
    exact k1 n hn2
  · intro w hw
    rw [hw] at hn3
    have hnk : n.kind = .literal := by rw [← kind_bare, hn3]; rfl
    have hsame : ∀ {l : Lx}, n = .node .literal [leaf l] → l.1 ∈ literalKinds → n = .node .literal [.token .str w] := by
      intro l hl hl2
      have hnt : l.1.isTrivia = false := by
        have : ∀ k ∈ literalKinds, k.isTrivia = false := by decide
        exact this _ hl2
      rw [hl] at hn3 ⊢
      simp [withoutTrivia, withoutTriviaL, leaf, hnt, show SyntaxKind.str.isTrivia = false from rfl] at hn3 ⊢
      exact hn3
    rcases k2 n hn2 hnk with h0 | h0
    · obtain ⟨l, hl, hl2⟩ := lg lit1 n h0 hnk
      exact (fg n h0).literal w (hsame hl hl2)
    · rcases hyi n h0 with rfl | h0 | h0
      · simp [Green.kind] at hnk
      · obtain ⟨l, hl, hl2⟩ := lg lit1 n h0 hnk
        exact (fg n h0).literal w (hsame hl hl2)
      · obtain ⟨l, hl, hl2⟩ := lg lit2 n h0 hnk
        exact (fnew n h0).literal w (hsame hl hl2)

private theorem texts_node (k cs) : (Green.node k cs).text = texts cs := by
  have h1 := text_leaves (.node k cs)
  rw [h1]
  have : ∀ gs, wordsOf (Green.leavesL gs) = texts gs := by
    intro gs
    induction gs with
    | nil => rfl
    | cons g gs ih => simp [texts, Green.leavesL, wordsOf, text_leaves] at ih ⊢; rw [ih]
  exact this cs

private theorem kinds_exist (s : Text) : ∃ k, HasKinds s k := by
  obtain ⟨ls, h⟩ := lexemes_exists s
  exact ⟨_, _, _, tokenize_eq h, rfl⟩

private theorem kinds_nil : HasKinds [] [] := ⟨_, _, tokenize_eq .nil, rfl⟩

private theorem nil_open : ¬ EndsInBlockComment [] := by
  rintro ⟨front, body, _, _, h, -⟩
  simp at h

private theorem nil_parses : sourceFileParse [] = .ok (.node .sourceFile [.node .block []], []) := by
  rw [sourceFileParse_eq_eval]; decide +kernel

/-- **C119** In a file without errors, statements may be taken out, if those behind them cannot be read as going on with
those before. -/
theorem C119_delete (text F E : Text) (tree : Green) (r : Red) (pre mid post : List Green) (kP kQ : List SyntaxKind)
    (h : sourceFileParse text = .ok (tree, []))
    (hr : Below (Red.root tree) r) (hr2 : r.green = .node .block (pre ++ mid ++ post))
    (ht : text = F ++ (texts pre ++ texts mid ++ texts post) ++ E) (hF : F.len = r.range.start)
    (hcP : ¬ EndsInBlockComment (texts pre)) (hkP : HasKinds (texts pre) kP) (hkQ : HasKinds (texts post) kQ)
    (h1 : KeepsApart kP kQ) (h3 : kQ.head? = some .semicolon → ∃ k, kP.getLast? = some k ∧ k ≠ .semicolon) :
    ∃ t', sourceFileParse (F ++ texts pre ++ '\n' :: '\n' :: (texts post ++ E)) = .ok (t', []) ∧
      withoutTrivia t' = withoutTrivia (Green.replaceAt (.node .block (pre ++ post)) r.path tree) := by
  have := C119_splice text [] F E tree _ r pre mid post [] kP [] kQ h nil_parses hr hr2 ht hF ⟨rfl, rfl⟩ hcP nil_open hkP
    kinds_nil hkQ h1 (by simpa using h1) (by simpa using h3)
  simpa using this

/-- **C118** In a file without errors, the text of any block (the body of a function, of a loop, of a branch, of `do`, also an empty
one) may be replaced by any other file without errors, on lines of its own: the result has no errors, and apart from white
space and comments its tree is the old one with that block replaced by the block of the other file.  (The other file must
not end in a comment that may still be open.) -/
theorem C118_replace (text s A O B : Text) (tree t blk : Green) (r : Red)
    (h : sourceFileParse text = .ok (tree, [])) (hs : sourceFileParse s = .ok (t, [])) (hc : ¬ EndsInBlockComment s)
    (hr : Below (Red.root tree) r) (hk : r.kind = .block) (ht : text = A ++ O ++ B)
    (hrange : r.range = ⟨A.len, A.len + O.len⟩) (hb : BlockOf t blk) :
    ∃ t', sourceFileParse (A ++ '\n' :: (s ++ '\n' :: B)) = .ok (t', []) ∧
      withoutTrivia t' = withoutTrivia (Green.replaceAt blk r.path tree) := by
  obtain ⟨p1, -⟩ := (C78_accepted text tree).1 h
  obtain ⟨ls', tree', errs', l1', q1, lit1, -, lv1, tx, -⟩ := parseText_tree text
  obtain ⟨ls, ts, l1, -, y1, ⟨-, d1⟩, e1⟩ := parseText_main text
  rw [p1] at q1 e1
  simp only [Except.ok.injEq, Prod.mk.injEq] at q1 e1
  obtain ⟨rfl, rfl⟩ := q1
  obtain ⟨e1, -⟩ := e1
  obtain ⟨a, b, ctx, ho⟩ := (inTree_root tree).below hr
  have hn : r.green.isNode = true := by
    cases hr with
    | self => rw [e1]; rfl
    | child _ hc => exact child_node hc
  obtain ⟨vs, hvs⟩ : ∃ vs, r.green = .node .block vs := by
    have hk : r.green.kind = .block := hk
    cases hg : r.green with
    | token => rw [hg] at hn; simp [Green.isNode] at hn
    | node k vs => rw [hg] at hk; exact ⟨vs, by rw [show k = .block from hk]⟩
  obtain ⟨ws, rfl⟩ : ∃ ws, blk = .node .block ws := by
    obtain ⟨p2, -⟩ := (C78_accepted s t).1 hs
    obtain ⟨m2, ts2, -, -, -, -, e2⟩ := parseText_main s
    rw [p2] at e2
    simp only [Except.ok.injEq, Prod.mk.injEq] at e2
    rw [e2.1] at hb
    have := hb.1
    simp only [Green.children, List.cons.injEq, and_true] at this
    exact ⟨_, this.symm⟩
  have hoff : r.off = A.len ∧ r.off + r.green.len = A.len + O.len := by
    have := hrange
    simp only [Red.range, Green.range, Range.ofLen, Range.mk.injEq] at this
    exact this
  have htx := ctx.text
  rw [tx, ht, List.append_assoc, List.append_assoc] at htx
  obtain ⟨-, htx⟩ := Text.append_inj_len htx (by rw [← hoff.1, ho]; rfl)
  obtain ⟨hO, -⟩ := Text.append_inj_len htx (by
    have e : r.green.len = Text.len r.green.text := rfl
    omega)
  obtain ⟨kS, hkS⟩ := kinds_exist s
  have := C119_splice text s A B tree t r [] vs [] ws [] kS [] h hs hr (by simpa using hvs)
    (by rw [ht, hO, hvs, texts_node]; simp [texts]) (by rw [hrange]) hb nil_open hc kinds_nil hkS kinds_nil
    (by intro k k' h; simp at h) (by intro k k' _ h; simp at h) (by simp)
  simpa [texts] using this

/-- a file without errors with a block of `n` bytes at `pos` -/
private theorem block_of {text : Text} {pos n : Nat}
    (h : (sourceFileParseEval text).toOption.map (fun p => (p.2.length,
      (p.1.nodes 0).any fun x => x.1 == pos && x.2.kind == .block && x.2.len == n)) = some (0, true)) :
    ∃ tree r, sourceFileParse text = .ok (tree, []) ∧ Below (Red.root tree) r ∧ r.kind = .block ∧ r.range = ⟨pos, pos + n⟩ := by
  rw [sourceFileParse_eq_eval]
  cases e : sourceFileParseEval text with
  | error x => rw [e] at h; simp [Except.toOption] at h
  | ok q =>
    rw [e] at h
    obtain ⟨t, es⟩ := q
    simp only [Except.toOption, Option.map_some, Option.some.injEq, Prod.mk.injEq, List.length_eq_zero_iff,
      List.any_eq_true, Bool.and_eq_true, beq_iff_eq] at h
    obtain ⟨rfl, x, hx, ⟨h1, h2⟩, h3⟩ := h
    cases t with
    | token k w => simp [Green.nodes] at hx
    | node k cs =>
      obtain ⟨r, hr, rfl⟩ := (nodes_red (Red.root (.node k cs)) rfl x).1 hx
      refine ⟨_, r, rfl, hr, h2, ?_⟩
      simp only [redPair] at h1 h3
      simp [Red.range, Green.range, Range.ofLen, h1, h3]

private theorem block_of_parsed {text : Text} {tree : Green} (h : sourceFileParse text = .ok (tree, [])) : ∃ blk, BlockOf tree blk := by
  obtain ⟨p, -⟩ := (C78_accepted text tree).1 h
  obtain ⟨ls, ts, -, -, -, -, e⟩ := parseText_main text
  rw [p] at e
  simp only [Except.ok.injEq, Prod.mk.injEq] at e
  rw [e.1]
  exact ⟨_, rfl, rfl⟩

/-- **C118** Every file without errors (that does not end in a comment that may still be open) may be put, on lines of its
own, into the body of a statement. -/
theorem C118_wrap (s : Text) (t : Green) (hs : sourceFileParse s = .ok (t, [])) (hc : ¬ EndsInBlockComment s) :
    ∀ p ∈ [("do ".toList, "end".toList), ("while x do ".toList, "end".toList), ("repeat ".toList, "until x".toList),
        ("if x then ".toList, "end".toList), ("if x then else ".toList, "end".toList),
        ("if x then elseif y then ".toList, "else end".toList), ("for i=1,2 do ".toList, "end".toList),
        ("for k,v in p do ".toList, "end".toList), ("function f() ".toList, "end".toList),
        ("local function f(a) ".toList, "end".toList), ("return function(...) ".toList, "end".toList)],
      ∃ t', sourceFileParse (p.1 ++ '\n' :: (s ++ '\n' :: p.2)) = .ok (t', []) := by
  have key : ∀ (A B : Text), (sourceFileParseEval (A ++ [] ++ B)).toOption.map (fun p => (p.2.length,
      (p.1.nodes 0).any fun x => x.1 == A.len && x.2.kind == .block && x.2.len == 0)) = some (0, true) →
      ∃ t', sourceFileParse (A ++ '\n' :: (s ++ '\n' :: B)) = .ok (t', []) := by
    intro A B h
    obtain ⟨tree, r, h1, h2, h3, h4⟩ := block_of h
    obtain ⟨blk, hb⟩ := block_of_parsed hs
    obtain ⟨t', h5, -⟩ := C118_replace _ s A [] B tree t blk r h1 hs hc h2 h3 rfl h4 hb
    exact ⟨t', h5⟩
  intro p hp
  simp only [List.mem_cons, List.not_mem_nil, or_false] at hp
  rcases hp with rfl | rfl | rfl | rfl | rfl | rfl | rfl | rfl | rfl | rfl | rfl <;> exact key _ _ (by decide +kernel)

/-- A block that is not empty, behind a comment, and a file that returns and ends in a comment. -/
example : ∃ tree t blk r, sourceFileParse "function f() -- c\n  g(\"a\") end".toList = .ok (tree, []) ∧
    sourceFileParse "local x = 1 return x -- d".toList = .ok (t, []) ∧ ¬ EndsInBlockComment "local x = 1 return x -- d".toList ∧
    Below (Red.root tree) r ∧ r.kind = .block ∧
    "function f() -- c\n  g(\"a\") end".toList = "function f() -- c\n  ".toList ++ "g(\"a\")".toList ++ " end".toList ∧
    r.range = ⟨Text.len "function f() -- c\n  ".toList, Text.len "function f() -- c\n  ".toList + Text.len "g(\"a\")".toList⟩ ∧
    BlockOf t blk := by
  obtain ⟨tree, r, h1, h2, h3, h4⟩ := block_of (text := "function f() -- c\n  g(\"a\") end".toList) (pos := 20) (n := 6)
    (by decide +kernel)
  obtain ⟨t, _, g1, -⟩ := block_of (text := "local x = 1 return x -- d".toList) (pos := 0) (n := 25) (by decide +kernel)
  obtain ⟨blk, hb⟩ := block_of_parsed g1
  refine ⟨tree, t, blk, r, h1, g1, ?_, h2, h3, by decide, h4, hb⟩
  have e1 : tokenize "local x = 1 return x -- d".toList = .ok ([⟨.localKw, 5⟩, ⟨.whitespace, 1⟩, ⟨.ident, 1⟩, ⟨.whitespace, 1⟩,
    ⟨.eq, 1⟩, ⟨.whitespace, 1⟩, ⟨.number, 1⟩, ⟨.whitespace, 1⟩, ⟨.returnKw, 6⟩, ⟨.whitespace, 1⟩, ⟨.ident, 1⟩,
    ⟨.whitespace, 1⟩, ⟨.comment, 4⟩], []) := by decide +kernel
  rintro ⟨front, body, tokens, errors, h, ht, hl⟩
  rw [e1] at ht
  simp only [Except.ok.injEq, Prod.mk.injEq] at ht
  obtain ⟨rfl, -⟩ := ht
  have hlen : Text.len body = 0 := by
    simp only [List.getLast?_cons, List.getLast?_nil, Option.getD_none, Option.getD_some, Option.some.injEq,
      Token.mk.injEq, true_and, Text.len_append] at hl
    have : Text.len "--[[".toList = 4 := by decide
    omega
  obtain rfl : body = [] := by
    cases body with
    | nil => rfl
    | cons c cs => have := Text.len_pos (s := c :: cs) (by simp); omega
  have := congrArg List.getLast? h
  simp at this

/-- The hypotheses of `C119_splice` met: in the body of `do`, the assignment with its semicolon and the space behind it
replaced by another call. -/
example : ∃ tree t r pre mid post new kP kS kQ, sourceFileParse "do\n f() a=1; g() end".toList = .ok (tree, []) ∧
    sourceFileParse "h(2)".toList = .ok (t, []) ∧ Below (Red.root tree) r ∧ r.green = .node .block (pre ++ mid ++ post) ∧
    "do\n f() a=1; g() end".toList = "do\n ".toList ++ (texts pre ++ texts mid ++ texts post) ++ " end".toList ∧
    texts pre = "f() ".toList ∧ texts mid = "a=1; ".toList ∧ texts post = "g()".toList ∧
    Text.len "do\n ".toList = r.range.start ∧ BlockOf t (.node .block new) ∧
    ¬ EndsInBlockComment (texts pre) ∧ ¬ EndsInBlockComment "h(2)".toList ∧
    HasKinds (texts pre) kP ∧ HasKinds "h(2)".toList kS ∧ HasKinds (texts post) kQ ∧
    KeepsApart kP (kS ++ kQ) ∧ KeepsApart (kP ++ kS) kQ ∧
    (kQ.head? = some .semicolon → ∃ k, (kP ++ kS).getLast? = some k ∧ k ≠ .semicolon) := by
  have h : (sourceFileParseEval "do\n f() a=1; g() end".toList).toOption.map (fun p => (p.2.length,
      (p.1.nodes 0).any fun x => x.1 == 4 && (x.2.kind == .block && (x.2.isNode &&
        (decide (texts (x.2.children.take 2) = "f() ".toList) && (decide (texts ((x.2.children.drop 2).take 3) = "a=1; ".toList) &&
        decide (texts (x.2.children.drop 5) = "g()".toList))))))) = some (0, true) := by decide +kernel
  rw [sourceFileParse_eq_eval]
  cases e : sourceFileParseEval "do\n f() a=1; g() end".toList with
  | error x => rw [e] at h; simp [Except.toOption] at h
  | ok q =>
    rw [e] at h
    obtain ⟨tree, es⟩ := q
    simp only [Except.toOption, Option.map_some, Option.some.injEq, Prod.mk.injEq, List.length_eq_zero_iff,
      List.any_eq_true, Bool.and_eq_true, beq_iff_eq, decide_eq_true_eq] at h
    obtain ⟨rfl, x, hx, g1, g2, g3, g4, g5, g6⟩ := h
    cases tree with
    | token k w => simp [Green.nodes] at hx
    | node k cs =>
      obtain ⟨r, hr, rfl⟩ := (nodes_red (Red.root (.node k cs)) rfl x).1 hx
      simp only [redPair] at g1 g2 g3 g4 g5 g6
      obtain ⟨vs, hvs⟩ : ∃ vs, r.green = .node .block vs := by
        cases hg : r.green with
        | token => rw [hg] at g3; simp [Green.isNode] at g3
        | node k vs => rw [hg] at g2; exact ⟨vs, by rw [show k = .block from g2]⟩
      rw [hvs] at g4 g5 g6
      simp only [Green.children] at g4 g5 g6
      have hh : ∃ t, sourceFileParse "h(2)".toList = .ok (t, []) := by
        have h : (sourceFileParseEval "h(2)".toList).toOption.map (fun p => p.2.length) = some 0 := by decide +kernel
        rw [sourceFileParse_eq_eval]
        cases e : sourceFileParseEval "h(2)".toList with
        | error x => rw [e] at h; simp [Except.toOption] at h
        | ok q =>
          rw [e] at h
          obtain ⟨tree, es⟩ := q
          simp only [Except.toOption, Option.map_some, Option.some.injEq, List.length_eq_zero_iff] at h
          exact ⟨tree, by rw [h]⟩
      obtain ⟨t, ht⟩ := hh
      obtain ⟨blk, hb⟩ := block_of_parsed ht
      obtain ⟨ws, rfl⟩ : ∃ ws, blk = .node .block ws := by
        obtain ⟨p2, -⟩ := (C78_accepted _ t).1 ht
        obtain ⟨m2, ts2, -, -, -, -, e2⟩ := parseText_main "h(2)".toList
        rw [p2] at e2
        simp only [Except.ok.injEq, Prod.mk.injEq] at e2
        rw [e2.1] at hb
        have := hb.1
        simp only [Green.children, List.cons.injEq, and_true] at this
        exact ⟨_, this.symm⟩
      have t1 : tokenize "f() ".toList = .ok ([⟨.ident, 1⟩, ⟨.lParen, 1⟩, ⟨.rParen, 1⟩, ⟨.whitespace, 1⟩], []) := by decide +kernel
      have t2 : tokenize "h(2)".toList = .ok ([⟨.ident, 1⟩, ⟨.lParen, 1⟩, ⟨.number, 1⟩, ⟨.rParen, 1⟩], []) := by decide +kernel
      have t3 : tokenize "g()".toList = .ok ([⟨.ident, 1⟩, ⟨.lParen, 1⟩, ⟨.rParen, 1⟩], []) := by decide +kernel
      refine ⟨_, t, r, vs.take 2, (vs.drop 2).take 3, vs.drop 5, ws, [.ident, .lParen, .rParen], [.ident, .lParen, .number, .rParen],
        [.ident, .lParen, .rParen], rfl, ht, hr, ?_, ?_, g4, g5, g6, ?_, hb, ?_, ?_, ⟨_, _, by rw [g4]; exact t1, by decide⟩,
        ⟨_, _, t2, by decide⟩, ⟨_, _, by rw [g6]; exact t3, by decide⟩, ?_, ?_, by simp⟩
      · rw [hvs]
        have : vs = vs.take 2 ++ (vs.drop 2).take 3 ++ vs.drop 5 := by
          rw [List.append_assoc, show vs.drop 5 = (vs.drop 2).drop 3 by simp, List.take_append_drop, List.take_append_drop]
        rw [← this]
      · rw [g4, g5, g6]; decide
      · simp only [Red.range, Green.range, Range.ofLen, g1]; decide
      · rw [g4]
        rintro ⟨front, body, tokens, errors, h, hq, hl⟩
        rw [t1] at hq
        simp only [Except.ok.injEq, Prod.mk.injEq] at hq
        obtain ⟨rfl, -⟩ := hq
        simp at hl
      · rintro ⟨front, body, tokens, errors, h, hq, hl⟩
        rw [t2] at hq
        simp only [Except.ok.injEq, Prod.mk.injEq] at hq
        obtain ⟨rfl, -⟩ := hq
        simp at hl
      · intro k k' h1 h2
        simp at h1 h2
        subst h1 h2
        exact .inr ⟨by simp, by simp⟩
      · intro k k' h1 h2
        simp at h1 h2
        subst h1 h2
        exact .inr ⟨by simp, by simp⟩

/-- **C118 fails** for a file that ends in an open comment: it swallows what comes behind it. -/
theorem C118_comment_fails : ∃ t t' e, sourceFileParse "--[[ a".toList = .ok (t, []) ∧
    sourceFileParse ("do ".toList ++ '\n' :: ("--[[ a".toList ++ '\n' :: "end".toList)) = .ok (t', [e]) := by
  have h1 : ((sourceFileParseEval "--[[ a".toList).toOption.map fun p => p.2.length) = some 0 := by decide +kernel
  have h2 : ((sourceFileParseEval ("do ".toList ++ '\n' :: ("--[[ a".toList ++ '\n' :: "end".toList))).toOption.map
    fun p => p.2.length) = some 1 := by decide +kernel
  rw [sourceFileParse_eq_eval, sourceFileParse_eq_eval]
  cases e1 : sourceFileParseEval "--[[ a".toList with
  | error => rw [e1] at h1; simp [Except.toOption] at h1
  | ok p =>
    cases e2 : sourceFileParseEval ("do ".toList ++ '\n' :: ("--[[ a".toList ++ '\n' :: "end".toList)) with
    | error => rw [e2] at h2; simp [Except.toOption] at h2
    | ok q =>
      rw [e1] at h1
      rw [e2] at h2
      obtain ⟨t, es⟩ := p
      obtain ⟨t', es'⟩ := q
      simp [Except.toOption] at h1 h2
      obtain ⟨e, rfl⟩ := List.length_eq_one_iff.1 h2
      subst h1
      exact ⟨t, t', e, rfl, rfl⟩

/-- **C119 fails** where a statement can be read as going on with the one before: without the semicolon, the call belongs to
the assignment. -/
theorem C119_apart_fails : ∃ t t', sourceFileParse ("a=b".toList ++ ";".toList ++ "(f)()".toList) = .ok (t, []) ∧
    sourceFileParse ("a=b".toList ++ '\n' :: ([] ++ '\n' :: "(f)()".toList)) = .ok (t', []) ∧
    (statements t).map Green.kind = [.assignStmt, .semicolon, .exprStmt] ∧
    (statements t').map Green.kind = [.assignStmt] := by
  have key : ∀ (text : Text) (ks : List SyntaxKind), (sourceFileParseEval text).toOption.map (fun p =>
      (p.2.length, (statements p.1).map Green.kind)) = some (0, ks) →
      ∃ t, sourceFileParse text = .ok (t, []) ∧ (statements t).map Green.kind = ks := by
    intro text ks h
    rw [sourceFileParse_eq_eval]
    cases e : sourceFileParseEval text with
    | error x => rw [e] at h; simp [Except.toOption] at h
    | ok q =>
      rw [e] at h
      obtain ⟨t, es⟩ := q
      simp only [Except.toOption, Option.map_some, Option.some.injEq, Prod.mk.injEq, List.length_eq_zero_iff] at h
      exact ⟨t, by rw [h.1], h.2⟩
  obtain ⟨t, h1, h2⟩ := key ("a=b".toList ++ ";".toList ++ "(f)()".toList) [.assignStmt, .semicolon, .exprStmt] (by decide +kernel)
  obtain ⟨t', h3, h4⟩ := key ("a=b".toList ++ '\n' :: ([] ++ '\n' :: "(f)()".toList)) [.assignStmt] (by decide +kernel)
  exact ⟨t, t', h1, h3, h2, h4⟩

end Verif
