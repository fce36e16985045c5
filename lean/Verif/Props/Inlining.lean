import Verif.Props.Wrapping
import Verif.Props.Pasting
import Verif.Props.Alone

/-
C127: an expression may be put in the place of another one, in parentheses.
-/
namespace Verif
open Lexer Accept PTree Lua Nest Wrp
open Spec hiding callable

private theorem first_space {l : Lexeme} {s r : Text} (h : FirstLexeme s l r) {c : Char} (hs : s.head? = some c) (hc : c ∈ spaces) :
    l.kind = .whitespace := by
  obtain ⟨w, k, e⟩ := l
  have ha := h.append
  simp only at ha
  subst ha
  obtain ⟨hw, hr⟩ := firstLexeme_reads.1 h
  have hne : w ++ r ≠ [] := by simp [hw]
  obtain ⟨w0, k0, e0, r0, -, hu⟩ := C82_rules_total (w ++ r) hne
  obtain ⟨-, rfl, -, -⟩ := hu _ _ _ _ rfl hr
  have key := hu ((w ++ r).takeWhile (fun c => decide (c ∈ spaces))) .whitespace none ((w ++ r).dropWhile (fun c => decide (c ∈ spaces)))
    (List.takeWhile_append_dropWhile).symm (.space ?_ ?_ ?_)
  · exact key.2.1.symm
  · cases hx : w ++ r with
    | nil => exact absurd hx hne
    | cons z zs =>
      rw [hx] at hs
      simp at hs
      subst hs
      simp [hc]
  · intro x hx
    have := List.all_takeWhile (p := fun c => decide (c ∈ spaces)) (l := w ++ r)
    rw [List.all_eq_true] at this
    simpa using this x hx
  · intro x hx
    have := List.head?_dropWhile_not (p := fun c => decide (c ∈ spaces)) (l := w ++ r)
    rw [hx] at this
    simpa using this

/-- **C127** Every expression of a file without errors stands alone behind `return`, just as it is written: the file
`return e` has no errors, and the expression is the same node in it. -/
theorem C127_alone (text : Text) (tree : Green) (r : Red) (h : sourceFileParse text = .ok (tree, []))
    (hr : Below (Red.root tree) r) (hK : r.kind ∈ expressionKinds) :
    sourceFileParse ("return ".toList ++ r.green.text) = .ok (returnFile r.green, []) := by
  generalize hKe : r.kind = K at hK
  have hK0 : K ≠ .sourceFile ∧ K ≠ .block := by constructor <;> (rintro rfl; revert hK; decide)
  obtain ⟨ls, ts, gs, pre, post, c, q, a, b, l1, x1, er1, y1, d1, g1, pl1, e1, pa1, ctx, ho, lit1, f1, in1⟩ := Pst.file_facts h hr hKe hK0
  have hlv1 : ls.map lxOf = (Green.leavesL pre ++ a) ++ (Green.leavesL gs ++ (b ++ (Green.leavesL post ++
      (placeL text.len ts (ls.map lxOf)).rest))) := by
    have h3 := placeL_leaves text.len ts (ls.map lxOf)
    rw [pl1, leavesL_append, Green.leavesL, ctx.leaves, g1] at h3
    conv => lhs; rw [← h3]
    simp [Green.leaves]
  rw [g1] at ctx
  obtain ⟨cs, S, r', ⟨t1, ht1, s1⟩, n1, st1, rk1, -⟩ := Pst.placeL_sub text.len ts (r := []) (by rw [y1]; simp) er1 pl1 ctx
  have hder : Deriv .accepted .expr [.node K cs] := deriv_der d1 _ (List.mem_singleton.2 rfl) K cs hK (.node _ _ _ _ ht1 s1)
  obtain ⟨hsolid, k0, y0, hy0, hk0⟩ := exp_of hder
  have hS : (placeL text.len cs (Green.leavesL gs ++ S)).rest = S := by
    have := placeL_leaves text.len cs (Green.leavesL gs ++ S)
    rw [n1] at this
    exact List.append_cancel_left this
  have hkinds : realKinds (Green.leavesL gs) = yieldL cs := by
    have h2 := Pst.realKindsL_suffix text.len cs rk1
    rw [hS] at h2
    rw [realKinds_append, h2] at rk1
    exact List.append_cancel_right rk1
  have hne : Green.leavesL gs ≠ [] := by
    intro e; rw [e, hy0] at hkinds; simp [realKinds] at hkinds
  have hst : StartsReal (Green.leavesL gs) := StartsReal.left st1 hne
  obtain ⟨p1, p2⟩ := placeL_local text.len 0 cs (Green.leavesL gs) S [] (by rw [hkinds]; simp) (.inr (.inr hsolid))
  rw [n1] at p1
  rw [hS] at p2
  have p2 : (placeL 0 cs (Green.leavesL gs)).rest = [] := by simpa using p2
  -- the tokens
  obtain ⟨lf, lx, rfl, hlf, hlx⟩ := List.map_eq_append_iff.1 hlv1
  obtain ⟨lo, le, rfl, hlo, hle⟩ := List.map_eq_append_iff.1 hlx
  obtain ⟨-, R1, -, -, hR1, -⟩ := lexemes_split l1 fun l hl => x1 l (by simp [hl])
  obtain ⟨O, B, rfl, hO, -, wO⟩ := lexemes_split hR1 fun l hl => x1 l (by simp [hl])
  have tO : r.green.text = O := by
    rw [text_leaves, g1, wO]
    simp only [Green.leaves]
    rw [← hlo]
    simp [wordsOf, lxOf, Function.comp_def]
  have hnew : Lexemes ("return ".toList ++ O) (⟨"return".toList, .returnKw, none⟩ :: ⟨[' '], .whitespace, none⟩ :: lo) := by
    have hsp : Lexemes (' ' :: O) (⟨[' '], .whitespace, none⟩ :: lo) := by
      refine Lexemes.cons (rest := O) ((firstLexeme_reads (w := [' '])).2 ⟨by simp, ?_⟩) hO
      refine .space (by simp) (by decide) fun c hc hm => ?_
      cases hO with
      | nil => simp at hc
      | @cons s l rest ls h3 h4 =>
        have hw := first_space h3 hc hm
        have : isTriv (lxOf l) = false := hst _ (by rw [← hlo]; rfl)
        have : l.kind.isTrivia = false := this
        rw [hw] at this
        exact absurd this (by decide)
    refine Lexemes.cons (rest := ' ' :: O) ((firstLexeme_reads (w := "return".toList)).2 ⟨by decide, ?_⟩) hsp
    exact .keyword (by decide) (by intro c hc; simp at hc; subst hc; decide)
  rw [tO]
  have hd' : Deriv .accepted .block [.node .block [.node .returnStmt [.tok .returnKw, .node .multivalExpr [.node K cs]]]] :=
    .block _ (.stmtsCons _ _ (.return _ (.multival _ _ hder .tailNil)) .stmtsNil (by simp [yieldL]))
  have hm : ([⟨"return".toList, .returnKw, none⟩, ⟨[' '], .whitespace, none⟩] ++ lo : List Lexeme).map lxOf =
      (.returnKw, "return".toList) :: (.whitespace, [' ']) :: Green.leavesL gs := by
    rw [List.map_append, hlo]; rfl
  simp only [List.cons_append, List.nil_append] at hm
  have hparse := parse_of_deriv hnew hd' (by simpa [errorsL, errors] using deriv_errors hd') (by
    rw [hm]
    simp only [realKinds, isTriv, List.filter_cons, List.map_cons] at hkinds ⊢
    simp [yieldL, PTree.yield, SyntaxKind.isTrivia, isTriv, ← hkinds]) 0
  have hnoerr : ∀ l ∈ (⟨"return".toList, .returnKw, none⟩ :: ⟨[' '], .whitespace, none⟩ :: lo : List Lexeme), l.err = none := by
    intro l hl
    simp only [List.mem_cons] at hl
    rcases hl with rfl | rfl | hl
    · rfl
    · rfl
    · exact x1 l (by simp [hl])
  obtain ⟨z, zs, hz⟩ := List.exists_cons_of_ne_nil hne
  have hzr : isTriv z = false := hst z (by rw [hz]; rfl)
  have t1 : isTriv (.returnKw, "return".toList) = false := by decide
  have t2 : isTriv (.whitespace, [' ']) = true := by decide
  have m1 : lead (Green.leavesL gs) = [] ∧ afterTriv (Green.leavesL gs) = Green.leavesL gs := by
    rw [hz]; simp [lead, afterTriv, hzr]
  have m2 : ∀ S : List Lx, lead ((.returnKw, "return".toList) :: S) = [] ∧
      afterTriv ((.returnKw, "return".toList) :: S) = (.returnKw, "return".toList) :: S := by
    intro S; simp only [lead, afterTriv, List.takeWhile_cons, List.dropWhile_cons, t1]; simp
  have m3 : lead ((.whitespace, [' ']) :: Green.leavesL gs) = [leaf (.whitespace, [' '])] ∧
      afterTriv ((.whitespace, [' ']) :: Green.leavesL gs) = Green.leavesL gs := by
    rw [hz]; simp [lead, afterTriv, hzr, t2]
  have htree : returnFile r.green = .node .sourceFile [.node .block
      ((placeL 0 [.node .returnStmt [.tok .returnKw, .node .multivalExpr [.node K cs]]]
        ((.returnKw, "return".toList) :: (.whitespace, [' ']) :: Green.leavesL gs)).greens ++
       (placeL 0 [.node .returnStmt [.tok .returnKw, .node .multivalExpr [.node K cs]]]
        ((.returnKw, "return".toList) :: (.whitespace, [' ']) :: Green.leavesL gs)).rest.map leaf)] := by
    have p1' := p1.symm
    simp only [placeL, place, (m2 _).1, (m2 _).2, m3.1, m3.2, m1.1, m1.2, p2, p1']
    rw [g1]
    simp [returnFile, leaf]
  rw [hm, (errs_none 0).2 hnoerr, ← htree] at hparse
  refine (C78_accepted _ _).2 ⟨hparse, fun p hp => ?_⟩
  have hmem : p.2 ∈ inner (returnFile r.green) := List.mem_map.2 ⟨p, hp, rfl⟩
  have hl0 : ∀ k w, inner (.token k w) = [] := by intro k w; simp [inner, Green.nodes]
  simp only [returnFile, inner_node, innerL_cons, hl0, List.nil_append, List.mem_cons, List.mem_append] at hmem
  have hnil : innerL ([] : List Green) = [] := rfl
  simp only [hnil, List.not_mem_nil, or_false] at hmem
  have other : ∀ {g : Green}, g.kind ∉ [SyntaxKind.exprStmt, .assignStmt, .literal] → Fine g := by
    intro g hg
    simp only [List.mem_cons, List.not_mem_nil, or_false, not_or] at hg
    refine (fine_iff g).2 ⟨⟨fun e => absurd e hg.1, fun e => absurd e hg.2.1⟩, fun w e => ?_⟩
    rw [e] at hg
    exact absurd rfl hg.2.2
  rcases hmem with e | e | e | e | e
  · rw [e]; exact other (by simp [Green.kind])
  · rw [e]; exact other (by simp [Green.kind])
  · rw [e]; exact other (by simp [Green.kind])
  · rw [e]; exact other (by simp [Green.kind])
  · exact f1 _ (in1 _ e)

private theorem ilen_eq (g : Green) : g.len = wlen g.leaves := by
  rw [Green.len, text_leaves]; rfl

private theorem below_tr {a b c : Red} (h1 : Below a b) (h2 : Below b c) : Below a c := by
  induction h2 with
  | self => exact h1
  | child _ hc ih => exact .child ih hc

private theorem mem_elems (path : List Nat) (c : Green) (post : List Green) : ∀ (pre : List Green) (i off : Nat),
    (⟨path ++ [i + pre.length], off + wlen (Green.leavesL pre), c⟩ : Red) ∈ Red.elemsFrom path i off (pre ++ c :: post)
  | [], i, off => by simp [Red.elemsFrom, Green.leavesL]
  | g :: pre, i, off => by
    have := mem_elems path c post pre (i + 1) (off + g.len)
    rw [List.cons_append, Red.elemsFrom]
    refine List.mem_cons_of_mem _ ?_
    have e1 : i + (g :: pre).length = i + 1 + pre.length := by simp; omega
    have e2 : off + wlen (Green.leavesL (g :: pre)) = off + g.len + wlen (Green.leavesL pre) := by
      simp [Green.leavesL, ilen_eq]; omega
    rw [e1, e2]
    exact this

private theorem mem_children {u : Red} {k : SyntaxKind} {pre post : List Green} {c : Green} (h : u.green = .node k (pre ++ c :: post))
    (hc : c.isNode = true) : (⟨u.path ++ [pre.length], u.off + wlen (Green.leavesL pre), c⟩ : Red) ∈ u.children := by
  refine List.mem_filter.2 ⟨?_, hc⟩
  have := mem_elems u.path c post pre 0 u.off
  rw [Red.elems, h]
  simpa [Green.children] using this

private theorem ctx_below {x g : Green} {p : List Nat} {a b : List Lx} (h : Ctx x g p a b) (hx : x.isNode = true) :
    g.isNode = true ∧ ∀ path off, Below ⟨path, off, g⟩ ⟨path ++ p, off + wlen a, x⟩ := by
  induction h with
  | here => exact ⟨hx, fun path off => by simpa using Below.self⟩
  | @down k pre c post p a b _ ih =>
    obtain ⟨h1, h2⟩ := ih
    refine ⟨rfl, fun path off => ?_⟩
    have := h2 (path ++ [pre.length]) (off + wlen (Green.leavesL pre))
    refine below_tr (.child .self (mem_children (u := ⟨path, off, .node k (pre ++ c :: post)⟩) rfl h1)) ?_
    simpa [Nat.add_assoc] using this

private theorem replace_twice {x g : Green} {p : List Nat} {a b : List Lx} (h : Ctx x g p a b) (y z : Green) :
    Green.replaceAt z p (Green.replaceAt y p g) = Green.replaceAt z p g := by
  induction h with
  | here => rfl
  | @down k pre c post p a b _ ih => simp only [Green.replaceAt, modify_mid, ih]

private theorem ctx_step {x : Green} {k : SyntaxKind} {cs : List Green} {i : Nat} {p : List Nat} {a b : List Lx}
    (h : Ctx x (.node k cs) (i :: p) a b) : ∃ c a' b', cs[i]? = some c ∧ Ctx x c p a' b' := by
  generalize hg : Green.node k cs = g at h
  generalize hp : i :: p = q at h
  cases h with
  | here => cases hp
  | @down k' pre c post p' a' b' h =>
    simp only [Green.node.injEq, List.cons.injEq] at hg hp
    obtain ⟨rfl, rfl⟩ := hg
    obtain ⟨rfl, rfl⟩ := hp
    exact ⟨c, _, _, by simp, h⟩

private theorem ctx_end {x g : Green} {a b : List Lx} (h : Ctx x g [] a b) : x = g := by
  cases h; rfl

/-- **C127** … and in parentheses: the file `return (e)` has no errors. -/
theorem C127_paren (text : Text) (tree : Green) (r : Red) (h : sourceFileParse text = .ok (tree, []))
    (hr : Below (Red.root tree) r) (hK : r.kind ∈ expressionKinds) :
    sourceFileParse ("return (".toList ++ (r.green.text ++ [')'])) = .ok (returnFile (parenthesized r.green), []) := by
  have ha := C127_alone text tree r h hr hK
  have hn : r.green.isNode = true := by
    cases hg : r.green with
    | node => rfl
    | token k w =>
      obtain ⟨ls, ts, gs, _, _, _, _, _, _, _, _, _, _, _, g1, _⟩ := Pst.file_facts h hr rfl
        (by constructor <;> (intro e; rw [e] at hK; revert hK; decide))
      rw [hg] at g1; cases g1
  have hK' : r.green.kind ∈ expressionKinds := hK
  generalize r.green = g at *
  obtain ⟨m, hm⟩ : ∃ m, m = Green.node .multivalExpr [g] := ⟨_, rfl⟩
  have ctx : Ctx m (returnFile g) [0, 0, 2] [(.returnKw, "return".toList), (.whitespace, [' '])] [] := by
    have := Ctx.down (k := .sourceFile) (pre := []) (post := []) (.down (k := .block) (pre := []) (post := [])
      (.down (k := .returnStmt) (pre := [.token .returnKw "return".toList, .token .whitespace [' ']]) (post := []) (.here (x := m))))
    rw [returnFile, ← hm]
    simpa [Green.leavesL, Green.leaves] using this
  have hp : Below (Red.root (returnFile g)) ⟨[0, 0, 2], 7, m⟩ := by
    have := (ctx_below ctx (by rw [hm]; rfl)).2 [] 0
    have e : wlen [(SyntaxKind.returnKw, "return".toList), (.whitespace, [' '])] = 7 := by decide
    rw [e] at this
    exact this
  have hrc : (⟨[0, 0, 2, 0], 7, g⟩ : Red) ∈ (⟨[0, 0, 2], 7, m⟩ : Red).children := by
    have := mem_children (u := ⟨[0, 0, 2], 7, m⟩) (k := .multivalExpr) (pre := []) (post := []) (c := g) hm hn
    simpa [Green.leavesL] using this
  have key := C126_wrap _ (returnFile g) ⟨[0, 0, 2], 7, m⟩ ⟨[0, 0, 2, 0], 7, g⟩
    [(.returnKw, "return".toList), (.whitespace, [' '])] [] ha hp hrc hK'
    (by show m.kind ∈ openPlaces; rw [hm]; show SyntaxKind.multivalExpr ∈ openPlaces; decide) (by rw [ctx.leaves, hm]; simp [Green.leaves, Green.leavesL]) (show 7 = Text.len _ by decide)
    (by intro k hk; simp [significant] at hk; subst hk; decide) (.inr (by simp [significant]))
    (by
      intro q hq hc hk
      exfalso
      obtain ⟨pre, post, a1, a2, a3⟩ := elemsFrom_split (List.mem_filter.1 hc).1
      obtain ⟨a, b, hctx, -⟩ := (inTree_root (returnFile g)).below hq
      have hpath : q.path = [0, 0] := by
        simp only at a2
        have : ([0, 0] : List Nat) ++ [2] = q.path ++ [0 + pre.length] := a2
        exact ((List.append_inj' this rfl).1).symm
      rw [hpath, returnFile] at hctx
      obtain ⟨c, a', b', e1, hctx⟩ := ctx_step hctx
      simp only [List.getElem?_cons_zero, Option.some.injEq] at e1
      subst e1
      obtain ⟨c, a', b', e1, hctx⟩ := ctx_step hctx
      simp only [List.getElem?_cons_zero, Option.some.injEq] at e1
      subst e1
      have e := ctx_end hctx
      have : q.green.kind = .exprStmt := hk
      rw [e] at this
      exact absurd this (by simp [Green.kind]))
  have e1 : spelled [(.returnKw, "return".toList), (.whitespace, [' '])] ++ '(' :: (g.text ++ ')' :: spelled []) =
      "return (".toList ++ (g.text ++ [')']) := by
    simp [spelled]
  have e2 : Green.replaceAt (parenthesized g) [0, 0, 2, 0] (returnFile g) = returnFile (parenthesized g) := by
    simp [Green.replaceAt, returnFile]
  rw [← e1, ← e2]
  exact key

/-- **C127** In a file without errors, an expression at a place where it may be put in parentheses (`C126_wrap`) may be
replaced by any expression of any file without errors, written as it is there, in parentheses: the result is a file without
errors, and its tree is the old one with the node of the expression replaced by the other node in parentheses. -/
theorem C127_replace (text1 text2 : Text) (tree1 tree2 : Green) (p r1 r2 : Red) (F E : List (SyntaxKind × Text))
    (h1 : sourceFileParse text1 = .ok (tree1, [])) (hp : Below (Red.root tree1) p) (hr : r1 ∈ p.children)
    (hk : r1.kind ∈ expressionKinds) (hplace : p.kind ∈ openPlaces)
    (hl : tree1.leaves = F ++ r1.green.leaves ++ E) (hoff : r1.off = (spelled F).len)
    (hbefore : ∀ k, (significant F).getLast? = some k → k ∉ callEnds)
    (hbehind : r1.kind ∈ Spec.callable ∨ (significant E).head? ≠ some .lParen)
    (hcall : ∀ q, Below (Red.root tree1) q → p ∈ q.children → q.kind = .exprStmt → r1.kind ≠ .callExpr ∧ r1.kind ≠ .methodCallExpr)
    (h2 : sourceFileParse text2 = .ok (tree2, [])) (hr2 : Below (Red.root tree2) r2) (hk2 : r2.kind ∈ expressionKinds) :
    sourceFileParse (spelled F ++ '(' :: (r2.green.text ++ ')' :: spelled E)) =
      .ok (Green.replaceAt (parenthesized r2.green) r1.path tree1, []) := by
  have w1 := C126_wrap text1 tree1 p r1 F E h1 hp hr hk hplace hl hoff hbefore hbehind hcall
  have w2 := C127_paren text2 tree2 r2 h2 hr2 hk2
  obtain ⟨a, b, ctx, ho⟩ := (inTree_root tree1).below (.child hp hr)
  have ctx' := ctx.replace (parenthesized r1.green)
  have hb1 := (ctx_below ctx' rfl).2 [] 0
  simp only [List.nil_append, Nat.zero_add, ← ho] at hb1
  have ctx2 : Ctx (parenthesized r2.green) (returnFile (parenthesized r2.green)) [0, 0, 2, 0]
      [(.returnKw, "return".toList), (.whitespace, [' '])] [] := by
    have := Ctx.down (k := .sourceFile) (pre := []) (post := []) (.down (k := .block) (pre := []) (post := [])
      (.down (k := .returnStmt) (pre := [.token .returnKw "return".toList, .token .whitespace [' ']]) (post := [])
        (.down (k := .multivalExpr) (pre := []) (post := []) (.here (x := parenthesized r2.green)))))
    rw [returnFile]
    simpa [Green.leavesL, Green.leaves] using this
  have hb2 := (ctx_below ctx2 rfl).2 [] 0
  have tp : ∀ g : Green, (parenthesized g).text = '(' :: (g.text ++ [')']) := by
    intro g; simp [parenthesized, Green.text, Green.textL]
  have key := C124_paste _ _ (spelled F) ('(' :: (r1.green.text ++ [')'])) (spelled E) _ _ ⟨r1.path, r1.off, parenthesized r1.green⟩ _
    w1 w2 hb1 hb2 rfl (show SyntaxKind.parenExpr ∈ selfClosing by decide) (by simp) (by
      show (⟨r1.off, r1.off + (parenthesized r1.green).len⟩ : Range) = _
      rw [Green.len, tp, hoff])
  simp only [replace_twice ctx, tp] at key
  simpa using key

/-! ### examples -/

private def isExpr (w : Text) (_ : Green) (_ r : Red) : Bool := decide (r.kind ∈ expressionKinds ∧ r.green.text = w)

private theorem replaced_of {text text2 new : Text} {is js : List Nat} {i j : Nat} {F E : List (SyntaxKind × Text)} {w w2 : Text}
    (h : finds text is i (fits F E w) = true) (h' : finds text2 js j (isExpr w2) = true)
    (hn : spelled F ++ '(' :: (w2 ++ ')' :: spelled E) = new) :
    ∃ tree tree2 r r2, sourceFileParse text = .ok (tree, []) ∧ Below (Red.root tree) r ∧ r.green.text = w ∧
      sourceFileParse text2 = .ok (tree2, []) ∧ Below (Red.root tree2) r2 ∧ r2.green.text = w2 ∧
      sourceFileParse new = .ok (Green.replaceAt (parenthesized r2.green) r.path tree, []) := by
  obtain ⟨tree, p, r, h1, h2, h3, a1, a2, a3, a5, a4, a7, a6, a8⟩ := fits_of h
  obtain ⟨tree2, p2, r2, k1, k2, k3, k4⟩ := found h'
  simp only [isExpr, decide_eq_true_eq] at k4
  refine ⟨tree, tree2, r, r2, h1, .child h2 h3, a5, k1, .child k2 k3, k4.2, ?_⟩
  have := C127_replace text text2 tree tree2 p r r2 F E h1 h2 h3 a1 a2 a3 a4 a7 a6 a8 k1 (.child k2 k3) k4.1
  rw [k4.2, hn] at this
  exact this

/-- The call `f(1)` of `x=a*f(1)+b` is replaced by the `c or d` of `if c or d then end`. -/
theorem C127_example :
    ∃ tree tree2 r r2, sourceFileParse "x=a*f(1)+b".toList = .ok (tree, []) ∧ Below (Red.root tree) r ∧
      r.green.text = "f(1)".toList ∧
      sourceFileParse "if c or d then end".toList = .ok (tree2, []) ∧ Below (Red.root tree2) r2 ∧
      r2.green.text = "c or d".toList ∧
      sourceFileParse "x=a*(c or d)+b".toList = .ok (Green.replaceAt (parenthesized r2.green) r.path tree, []) :=
  replaced_of (is := [0, 0, 1, 0, 0]) (i := 1) (js := [0, 0]) (j := 0)
    (F := [(.ident, ['x']), (.eq, ['=']), (.ident, ['a']), (.asterisk, ['*'])]) (E := [(.plus, ['+']), (.ident, ['b'])])
    (by decide +kernel) (by decide +kernel) (by decide +kernel)

private def bare (new : Text) (g2 : Green) (tree : Green) (p r : Red) : Bool :=
  decide (r.kind ∈ expressionKinds ∧ p.kind ∈ openPlaces ∧ r.green.text = ['a'] ∧ sourceFileParseEval new ≠ .ok (Green.replaceAt g2 r.path tree, []))

private def bare2 (text new : Text) (is : List Nat) (i : Nat) (_ : Green) (_ r : Red) : Bool :=
  decide (r.kind ∈ expressionKinds ∧ r.green.text = "c or d".toList) && finds text is i (bare new r.green)

/-- **C127 fails** without the parentheses: the `a` of `x=a*b` is replaced by the `c or d` of the other file. -/
theorem C127_fails :
    ∃ tree tree2 p r r2, sourceFileParse "x=a*b".toList = .ok (tree, []) ∧ Below (Red.root tree) p ∧ r ∈ p.children ∧
      r.kind ∈ expressionKinds ∧ p.kind ∈ openPlaces ∧ r.green.text = ['a'] ∧
      sourceFileParse "if c or d then end".toList = .ok (tree2, []) ∧ Below (Red.root tree2) r2 ∧ r2.kind ∈ expressionKinds ∧
      r2.green.text = "c or d".toList ∧
      sourceFileParse "x=c or d*b".toList ≠ .ok (Green.replaceAt r2.green r.path tree, []) := by
  have h : finds "if c or d then end".toList [0, 0] 0 (bare2 "x=a*b".toList "x=c or d*b".toList [0, 0, 1, 0] 0) = true := by
    decide +kernel
  obtain ⟨tree2, p2, r2, k1, k2, k3, k4⟩ := found h
  simp only [bare2, Bool.and_eq_true, decide_eq_true_eq] at k4
  obtain ⟨tree, p, r, h1, h2, h3, h4⟩ := found k4.2
  simp only [bare, decide_eq_true_eq] at h4
  exact ⟨tree, tree2, p, r, r2, h1, h2, h3, h4.1, h4.2.1, h4.2.2.1, k1, .child k2 k3, k4.1.1, k4.1.2, by
    rw [sourceFileParse_eq_eval]; exact h4.2.2.2⟩

end Verif
