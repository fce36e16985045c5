import Verif.Spec.Joining
import Verif.Props.Stability
import Verif.Props.Grouping
import Verif.Props.Accepted
import Verif.Props.Reparse
import Verif.Proof.Decide

/-
C97: two correct files, one behind the other.
-/
namespace Verif
open Lexer Lua Accept Spec PTree

/-! ### the lexer -/

private theorem newline_tail {u : Text} (h : NumberTail (u ++ ['\n'])) : False := by
  generalize e : u ++ ['\n'] = t at h
  have nd : Char.isDigit '\n' = false := by decide
  cases h with
  | @mk frac ex h1 h2 =>
    have hl : (frac ++ ex).getLast? = some '\n' := by rw [← e]; simp
    have hm : '\n' ∈ frac ++ ex := List.mem_of_getLast? hl
    rcases List.mem_append.1 hm with hm | hm
    · rcases h1 with rfl | ⟨ds, rfl, hd⟩
      · simp at hm
      · simp at hm; have := hd _ hm; rw [nd] at this; cases this
    · rcases h2 with rfl | ⟨c, sign, ds, rfl, hc, hs, hd⟩
      · simp at hm
      · simp only [List.mem_cons, List.mem_append] at hm
        rcases hm with rfl | hm | hm
        · simp at hc
        · rcases hs with rfl | rfl <;> simp at hm
        · have := hd _ hm; rw [nd] at this; cases this

theorem newline_number {w : Text} (h : Spelled .number (w ++ ['\n'])) : False := by
  generalize e : w ++ ['\n'] = t at h
  generalize hk : SyntaxKind.number = k at h
  have nd : Char.isDigit '\n' = false := by decide
  have hm : '\n' ∈ t := by rw [← e]; simp
  cases h with
  | @fixed s k hm =>
    subst hk
    have : ∀ p ∈ keywords ++ operators, p.2 ≠ .number := by decide
    exact this _ hm rfl
  | name => cases hk
  | space => cases hk
  | lineComment => cases hk
  | blockComment => cases hk
  | quoted => cases hk
  | long => cases hk
  | tilde => cases hk
  | @number d ds tail h1 h2 h3 =>
    simp only [List.mem_cons, List.mem_append] at hm
    rcases hm with rfl | hm | hm
    · rw [nd] at h1; cases h1
    · have := h2 _ hm; rw [nd] at this; cases this
    · have e2 := congrArg List.getLast? e
      have hne : tail ≠ [] := List.ne_nil_of_mem hm
      have : tail.getLast? = some '\n' := by
        rw [← List.cons_append, List.getLast?_append, List.getLast?_append] at e2
        cases ht : tail.getLast? with
        | none => simp [hne] at ht
        | some c => rw [ht] at e2; simpa using e2.symm
      obtain ⟨u, hu⟩ : ∃ u, tail = u ++ ['\n'] := ⟨tail.dropLast, by
        have h5 := List.dropLast_concat_getLast hne
        rw [List.getLast?_eq_some_getLast hne] at this
        simp at this
        rw [this] at h5; exact h5.symm⟩
      exact newline_tail (hu ▸ h3)
  | @hex ds h1 =>
    simp only [List.mem_cons] at hm
    rcases hm with hm | hm | hm
    · simp at hm
    · simp at hm
    · have := h1 _ hm; revert this; decide

/-- The last token of a text, when a line break is put behind it. -/
private theorem reads_newline {w : Text} {k : SyntaxKind} (r : Text) (h : Reads w k none []) (hk : k ≠ .whitespace)
    (hc : k = .comment → ¬ "--[[".toList <+: w) : Reads w k none ('\n' :: r) := by
  generalize e : (none : Option String) = err at h
  generalize er : ([] : Text) = rest at h
  have nl : nameChar '\n' = false := by decide
  cases h with
  | keyword h1 h2 => exact .keyword h1 (by simp [nl])
  | name h1 h2 h3 h4 => exact .name h1 h2 h3 (by simp [nl])
  | space => exact absurd rfl hk
  | @operator s k rest h1 h2 h3 h4 =>
    refine .operator h1 (fun p hp hpre => ?_) (by simp) (by simp)
    refine Nat.le_of_not_lt fun hlt => ?_
    have : '\n' ∈ p.1.toList := by
      obtain ⟨t, ht⟩ := hpre
      have h5 := congrArg (fun x => x[s.toList.length]?) ht
      simp only [List.getElem?_append_left hlt] at h5
      rw [List.getElem?_append_right (Nat.le_refl _)] at h5
      simp at h5
      exact List.mem_of_getElem? (i := s.toList.length) (by simpa using h5)
    have hno : ∀ p ∈ operators, '\n' ∉ p.1.toList := by decide
    exact hno p hp this
  | tilde h1 => exact .tilde (by simp)
  | number h1 h2 =>
    refine .number h1 fun p q hpq hp hs => ?_
    cases p with
    | nil => exact hp rfl
    | cons x p =>
      simp only [List.cons_append, List.cons.injEq] at hpq
      obtain ⟨rfl, -⟩ := hpq
      exact newline_number (number_prefix (v := p) (u := w ++ ['\n']) (by simp) (by simpa using hs))
  | quoted h1 h2 h3 => exact .quoted h1 h2 h3
  | quotedEnd => cases e
  | quotedLine => cases e
  | long h1 h2 => exact .long h1 h2
  | longBad => cases e
  | longEnd => cases e
  | lineComment h1 h2 h3 => exact .lineComment h1 h2 (.inr rfl)
  | blockComment h1 h2 h3 h4 h5 => exact absurd ⟨_, rfl⟩ (hc rfl)
  | blockCommentEnd => exact absurd ⟨_, rfl⟩ (hc rfl)
  | other => cases e

/-- white space in front of a text -/
private theorem space_front {u : Text} (s : Text) (hu : u ≠ []) (hs : ∀ c ∈ u, c ∈ spaces) :
    ∃ p q B, Lexemes (u ++ s) (p ++ B) ∧ Lexemes s (q ++ B) ∧
      (∀ l ∈ p ++ q, l.kind = .whitespace ∧ l.err = none) := by
  obtain ⟨B, hB⟩ := lexemes_exists (s.dropWhile fun c => decide (c ∈ spaces))
  have hsplit : s.takeWhile (fun c => decide (c ∈ spaces)) ++ s.dropWhile (fun c => decide (c ∈ spaces)) = s :=
    List.takeWhile_append_dropWhile
  have htake : ∀ c ∈ s.takeWhile (fun c => decide (c ∈ spaces)), c ∈ spaces := by
    intro c hc
    have := List.all_takeWhile (p := fun c => decide (c ∈ spaces)) (l := s)
    rw [List.all_eq_true] at this
    exact of_decide_eq_true (this c hc)
  have hhead : ∀ c, (s.dropWhile fun c => decide (c ∈ spaces)).head? = some c → c ∉ spaces := by
    intro c hc hm
    have := List.head?_dropWhile_not (fun c => decide (c ∈ spaces)) s
    rw [hc] at this
    simp [hm] at this
  generalize s.takeWhile (fun c => decide (c ∈ spaces)) = a at *
  generalize s.dropWhile (fun c => decide (c ∈ spaces)) = b at *
  subst hsplit
  have h1 : FirstLexeme ((u ++ a) ++ b) ⟨u ++ a, .whitespace, none⟩ b :=
    firstLexeme_reads.2 ⟨by simp [hu], .space (by simp [hu]) (by
      intro c hc
      rcases List.mem_append.1 hc with hc | hc
      · exact hs c hc
      · exact htake c hc) hhead⟩
  by_cases ha : a = []
  · subst ha
    exact ⟨[_], [], B, by simpa using Lexemes.cons h1 hB, by simpa using hB, by simp⟩
  · have h2 : FirstLexeme (a ++ b) ⟨a, .whitespace, none⟩ b := firstLexeme_reads.2 ⟨ha, .space ha htake hhead⟩
    exact ⟨[_], [_], B, by simpa using Lexemes.cons h1 hB, by simpa using Lexemes.cons h2 hB, by simp⟩

/-- The tokens of two texts with a line break between them. -/
theorem lexemes_join {s1 : Text} {ls1 : List Lexeme} (s2 : Text) (h : Lexemes s1 ls1)
    (herr : ∀ l ∈ ls1, l.err = none)
    (hlast : ∀ l, ls1.getLast? = some l → l.kind = .comment → ¬ "--[[".toList <+: l.word) :
    ∃ A u p q B, ls1 = A ++ u ∧ Lexemes (s1 ++ '\n' :: s2) (A ++ (p ++ B)) ∧ Lexemes s2 (q ++ B) ∧
      ∀ l ∈ u ++ (p ++ q), l.kind = .whitespace ∧ l.err = none := by
  induction h with
  | nil =>
    obtain ⟨p, q, B, h1, h2, h3⟩ := space_front (u := ['\n']) s2 (by simp) (by decide)
    exact ⟨[], [], p, q, B, rfl, by simpa using h1, h2, by simpa using h3⟩
  | @cons s l rest ls h1 h2 ih =>
    obtain ⟨w, k, err⟩ := l
    have e := h1.append
    simp only at e
    subst e
    obtain rfl : err = none := herr ⟨w, k, err⟩ (by simp)
    obtain ⟨hw, hr⟩ := firstLexeme_reads.1 h1
    have ih' := ih (fun l hl => herr l (by simp [hl]))
    cases rest with
    | cons c r =>
      have hls : ls ≠ [] := by
        intro e; subst e; cases h2
      obtain ⟨A, u, p, q, B, e1, e2, e3, e4⟩ := ih' (fun l hl => hlast l (by
        rw [List.getLast?_cons, hl]; rfl))
      refine ⟨⟨w, k, none⟩ :: A, u, p, q, B, by simp [e1], ?_, e3, e4⟩
      have h3 : FirstLexeme (w ++ c :: (r ++ '\n' :: s2)) ⟨w, k, none⟩ (c :: (r ++ '\n' :: s2)) :=
        firstLexeme_reads.2 ⟨hw, reads_next _ hr⟩
      have := Lexemes.cons h3 (by simpa using e2)
      simpa using this
    | nil =>
      have hls : ls = [] := by
        cases h2 with
        | nil => rfl
        | cons h3 h4 => exact absurd h3.append (by simp [h3.word_ne])
      subst hls
      by_cases hk : k = .whitespace
      · subst hk
        have hsp : ∀ c ∈ w, c ∈ spaces := by
          generalize hkk : SyntaxKind.whitespace = k' at hr
          cases hr with
          | space _ h _ => exact h
          | keyword hm => 
            exfalso
            have : ∀ p ∈ keywords, p.2 ≠ .whitespace := by decide
            exact this _ hm hkk.symm
          | operator hm => 
            exfalso
            have : ∀ p ∈ operators, p.2 ≠ .whitespace := by decide
            exact this _ hm hkk.symm
          | _ => cases hkk
        obtain ⟨p, q, B, g1, g2, g3⟩ := space_front (u := w ++ ['\n']) s2 (by simp) (by
          intro c hc
          rcases List.mem_append.1 hc with hc | hc
          · exact hsp c hc
          · obtain rfl : c = '\n' := by simpa using hc
            decide)
        refine ⟨[], [⟨w, .whitespace, none⟩], p, q, B, rfl, by simpa using g1, g2, ?_⟩
        intro l hl
        rcases List.mem_append.1 hl with hl | hl
        · simp at hl; subst hl; simp
        · exact g3 l hl
      · obtain ⟨p, q, B, g1, g2, g3⟩ := space_front (u := ['\n']) s2 (by simp) (by decide)
        refine ⟨[⟨w, k, none⟩], [], p, q, B, rfl, ?_, g2, by simpa using g3⟩
        have h3 : FirstLexeme (w ++ '\n' :: s2) ⟨w, k, none⟩ ('\n' :: s2) :=
          firstLexeme_reads.2 ⟨hw, reads_newline s2 hr hk (fun hc => hlast ⟨w, k, none⟩ (by simp) hc)⟩
        have := Lexemes.cons h3 (by simpa using g1)
        simpa using this

/-! ### the grammar -/

private theorem getD_ne {o : Option SyntaxKind} {d x : SyntaxKind} (h : ¬ o = some x) (hd : ¬ d = x) : ¬ o.getD d = x := by
  cases o <;> simp_all

theorem last_not_semi {x nt ts} (h : Deriv x nt ts) : nt = .stmt ∨ nt = .expr ∨ nt = .exprTail ∨ nt = .multival ∨
    nt = .callArgs ∨ nt = .index ∨ nt = .nameTail → (yieldL ts).getLast? ≠ some .semicolon := by
  have hl : ∀ k ∈ literalKinds, ¬ k = .semicolon := by decide
  have hu : ∀ k ∈ unaryOps, ¬ k = .semicolon := by decide
  have hb : ∀ k, isBinary k → ¬ k = .semicolon := by rintro k h rfl; exact h rfl
  induction h <;> intro hn <;>
    simp_all [yieldL, PTree.yield, List.getLast?_append, List.getLast?_cons, Option.or_eq_some_iff]
  all_goals first
    | exact getD_ne ‹_› (by decide)
    | exact getD_ne ‹_› (hu _ ‹_›)
    | exact getD_ne ‹_› (hb _ ‹_›)
    | exact getD_ne ‹_› (getD_ne ‹_› (by decide))

/-- The statements of two files, one behind the other. -/
private theorem stmts_join {ts us : List PTree} (h : Deriv .accepted .stmts ts) (hu : Deriv .accepted .stmts us)
    (hk : KeepsApart (yieldL ts) (yieldL us)) : Deriv .accepted .stmts (ts ++ us) := by
  generalize hn : NT.stmts = nt at h
  induction h with
  | stmtsNil => exact hu
  | stmtsCons s ts h1 h2 h3 ih1 ih2 =>
    by_cases he : ts = []
    · subst he
      refine .stmtsCons s us h1 hu fun k' hk' => ?_
      have hs := last_not_semi h1 (by simp)
      have hsol := deriv_solid h1 (by simp) (by simp) (by simp)
      have hne := solidL_yield hsol
      simp only [yieldL, List.append_nil] at hs hk hne
      cases hl : (yield s).getLast? with
      | none => simp at hl; exact absurd hl hne
      | some k =>
        rcases hk k k' hl hk' with rfl | ⟨a, b⟩
        · exact absurd hl hs
        · refine ⟨fun e => absurd e a, ?_⟩
          rintro rfl
          exact b (by simpa [PTree.yield, yieldL] using hl.symm)
    · have hy : yieldL ts ≠ [] := solidL_yield (deriv_solid h2 (by simp) (by simp) he)
      refine .stmtsCons s _ h1 (ih2 ?_ rfl) fun k hk' => h3 k ?_
      · intro k k' a b
        refine hk k k' ?_ b
        simp only [yieldL, List.getLast?_append, a]; rfl
      · rw [show ts.append us = ts ++ us from rfl, yieldL_append] at hk'
        cases hq : yieldL ts with
        | nil => exact absurd hq hy
        | cons x xs => rw [hq] at hk'; simpa using hk'
  | stmtsSemi s ts h1 h2 ih1 ih2 =>
    refine .stmtsSemi s _ h1 (ih2 ?_ rfl)
    intro k k' a b
    refine hk k k' ?_ b
    simp only [yieldL, PTree.yield, List.getLast?_append, a, List.cons_append, List.nil_append, List.getLast?_cons]; rfl
  | _ => cases hn

/-! ### the tree -/

private theorem placeL_cat (n : Nat) (a b : List PTree) (x : List Lx) :
    (placeL n (a ++ b) x).greens = (placeL n a x).greens ++ (placeL n b (placeL n a x).rest).greens ∧
    (placeL n (a ++ b) x).rest = (placeL n b (placeL n a x).rest).rest := by
  induction a generalizing x with
  | nil => simp [placeL]
  | cons t ts ih => simp [placeL, ih]

private theorem place_lead (n : Nat) {t : PTree} (ht : errors t = []) (x : List Lx) :
    (place n t x).greens = lead x ++ (place n t (afterTriv x)).greens ∧
    (place n t x).rest = (place n t (afterTriv x)).rest := by
  have h1 := (afterTriv_idem x)
  cases t with
  | tok k => simp only [place, h1.1, h1.2]; cases afterTriv x <;> simp
  | err e => simp [errors] at ht
  | errNode cs e => simp [errors] at ht
  | node k cs => simp [place, h1.1, h1.2]

/-- the elements of a list that are not white space or comments -/
private abbrev noTriv (gs : List Green) : List Green := gs.filter fun g => !g.kind.isTrivia

private theorem noTriv_lead (x : List Lx) : noTriv (lead x) = [] := by
  induction x with
  | nil => rfl
  | cons l x ih =>
    by_cases h : isTriv l = true
    · have : lead (l :: x) = leaf l :: lead x := by simp [lead, h]
      rw [this]
      simp only [noTriv, List.filter_cons]
      have h2 : (leaf l).kind.isTrivia = true := by simpa [leaf, Green.kind, isTriv] using h
      simp [h2]; simpa [noTriv] using ih
    · simp [lead, h]

private theorem noTriv_leaves {x : List Lx} (h : realKinds x = []) : noTriv (x.map leaf) = [] := by
  simp only [noTriv, List.filter_eq_nil_iff, List.mem_map]
  rintro g ⟨l, hl, rfl⟩
  have : isTriv l = true := by
    cases e : isTriv l with
    | true => rfl
    | false =>
      have : l.1 ∈ realKinds x := by simp only [realKinds, List.mem_map, List.mem_filter]; exact ⟨l, ⟨hl, by simp [e]⟩, rfl⟩
      rw [h] at this; cases this
  simpa [leaf, Green.kind, isTriv] using this

private theorem placeL_lead (n : Nat) {ts : List PTree} (ht : errorsL ts = []) (x : List Lx) :
    ∃ l, (l = [] ∨ l = lead x) ∧ (placeL n ts x).greens = l ++ (placeL n ts (afterTriv x)).greens := by
  cases ts with
  | nil => exact ⟨[], .inl rfl, by simp [placeL]⟩
  | cons t ts =>
    simp only [errorsL, List.append_eq_nil_iff] at ht
    obtain ⟨a, b⟩ := place_lead n ht.1 x
    exact ⟨lead x, .inr rfl, by simp only [placeL, a, b, List.append_assoc]⟩

mutual
private theorem nodes_snd (off off' : Nat) (g : Green) : (g.nodes off).map (·.2) = (g.nodes off').map (·.2) := by
  cases g with
  | token k w => simp [Green.nodes]
  | node k cs => simp [Green.nodes, nodesL_snd off off' cs]
private theorem nodesL_snd (off off' : Nat) (gs : List Green) :
    (Green.nodesL off gs).map (·.2) = (Green.nodesL off' gs).map (·.2) := by
  cases gs with
  | nil => simp [Green.nodesL]
  | cons g gs =>
    simp [Green.nodesL, nodes_snd off off' g, nodesL_snd (off + g.len) (off' + g.len) gs]
end

private theorem mem_nodesL_append {x : Green} {a b : List Green} :
    x ∈ (Green.nodesL 0 (a ++ b)).map (·.2) ↔ x ∈ (Green.nodesL 0 a).map (·.2) ∨ x ∈ (Green.nodesL 0 b).map (·.2) := by
  induction a with
  | nil => simp [Green.nodesL]
  | cons g gs ih =>
    simp only [List.cons_append, Green.nodesL, List.map_append, List.mem_append, nodesL_snd (0 + g.len) 0, ih, or_assoc]

private theorem nodesL_leaves (l : List Lx) (off : Nat) : Green.nodesL off (l.map leaf) = [] := by
  induction l generalizing off with
  | nil => rfl
  | cons x l ih => simp [Green.nodesL, Green.nodes, leaf, ih]

private theorem fine_tree {gs : List Green} : (∀ p ∈ (Green.node .sourceFile [.node .block gs]).nodes 0, Fine p.2) ↔
    ∀ x ∈ (Green.nodesL 0 gs).map (·.2), Fine x := by
  have f1 : Fine (.node .sourceFile [.node .block gs]) :=
    ⟨by simp [Green.kind], by simp [Green.kind], by simp⟩
  have f2 : Fine (.node .block gs) := ⟨by simp [Green.kind], by simp [Green.kind], by simp⟩
  simp only [Green.nodes, Green.nodesL, List.append_nil, List.forall_mem_cons, f1, f2, true_and, List.forall_mem_map]

/-- **C97** Two files without errors, one behind the other on a new line, are a file without errors; its statements are
those of the first and then those of the second.  (The first must not end in a comment that may still be open, and the
second must not be readable as going on with the last statement of the first.) -/
theorem C97_join (s1 s2 : Text) (t1 t2 : Green) (k1 k2 : List SyntaxKind)
    (h1 : sourceFileParse s1 = .ok (t1, [])) (h2 : sourceFileParse s2 = .ok (t2, []))
    (hc : ¬ EndsInBlockComment s1) (hk1 : HasKinds s1 k1) (hk2 : HasKinds s2 k2) (hk : KeepsApart k1 k2) :
    ∃ t, sourceFileParse (s1 ++ '\n' :: s2) = .ok (t, []) ∧ statements t = statements t1 ++ statements t2 := by
  obtain ⟨p1, v1⟩ := (C78_accepted s1 t1).1 h1
  obtain ⟨p2, v2⟩ := (C78_accepted s2 t2).1 h2
  obtain ⟨ls1, ts1, l1, -, y1, ⟨-, d1⟩, e1⟩ := parseText_main s1
  obtain ⟨ls2, ts2, l2, -, y2, ⟨-, d2⟩, e2⟩ := parseText_main s2
  rw [p1] at e1
  rw [p2] at e2
  simp only [Except.ok.injEq, Prod.mk.injEq] at e1 e2
  obtain ⟨rfl, e1⟩ := e1
  obtain ⟨rfl, e2⟩ := e2
  obtain ⟨e1, x1⟩ := List.append_eq_nil_iff.1 e1.symm
  obtain ⟨e2, x2⟩ := List.append_eq_nil_iff.1 e2.symm
  have he1 := placeL_errs_nil _ _ _ e1
  have he2 := placeL_errs_nil _ _ _ e2
  have hd1 : Deriv .accepted .stmts ts1 := by
    obtain ⟨b, hb, hd⟩ := d1 he1
    simp at hb; subst hb
    cases hd; assumption
  have hd2 : Deriv .accepted .stmts ts2 := by
    obtain ⟨b, hb, hd⟩ := d2 he2
    simp at hb; subst hb
    cases hd; assumption
  have hkinds : ∀ {s : Text} {ls : List Lexeme} {k : List SyntaxKind}, Lexemes s ls → HasKinds s k →
      k = realKinds (ls.map lxOf) := by
    rintro s ls k hl ⟨tokens, errors, ht, rfl⟩
    rw [tokenize_eq hl] at ht
    simp only [Except.ok.injEq, Prod.mk.injEq] at ht
    obtain ⟨rfl, -⟩ := ht
    rw [← (lexemes_lx hl).2.1]; simp [toksOf, realKinds, isTriv, List.filter_map, Function.comp_def]
  have hk1' := hkinds l1 hk1
  have hk2' := hkinds l2 hk2
  have herr : ∀ {ls : List Lexeme} (pos : Nat), (attach pos ls).filterMap (·.2) = [] ↔ ∀ l ∈ ls, l.err = none := by
    intro ls
    induction ls with
    | nil => simp [attach]
    | cons l ls ih =>
      intro pos
      simp only [attach, List.filterMap_cons, List.mem_cons, forall_eq_or_imp, ← ih (pos + l.word.len)]
      cases l.err <;> simp
  obtain ⟨A, u, p, q, B, rfl, hj, hq, htriv⟩ := lexemes_join s2 l1 ((herr 0).1 x1) (by
    intro l hl hlk hpre
    obtain ⟨body, hb⟩ := hpre
    have hf := l1.flatten
    obtain ⟨ini, hini⟩ : ∃ ini, ls1 = ini ++ [l] := by
      have hne : ls1 ≠ [] := by rintro rfl; simp at hl
      rw [List.getLast?_eq_some_getLast hne] at hl
      simp only [Option.some.injEq] at hl
      exact ⟨ls1.dropLast, by rw [← hl]; exact (List.dropLast_concat_getLast hne).symm⟩
    refine hc ⟨(ini.map (·.word)).flatten, body, _, _, ?_, tokenize_eq l1, ?_⟩
    · rw [hb, ← hf, hini]; simp
    · rw [attach_tokens, hini, hb]; simp [hlk])
  obtain rfl := l2.unique hq
  have hw : ∀ l ∈ u ++ (p ++ q), isTriv (lxOf l) = true := by
    intro l hl
    obtain ⟨ha, -⟩ := htriv l hl
    simp [isTriv, lxOf, ha, SyntaxKind.isTrivia]
  have hreal : ∀ x : List Lexeme, (∀ l ∈ x, isTriv (lxOf l) = true) → realKinds (x.map lxOf) = [] := by
    intro x hx
    simp only [realKinds, List.map_eq_nil_iff, List.filter_eq_nil_iff, List.mem_map]
    rintro l ⟨y, hy, rfl⟩
    simp [hx y hy]
  have hru := hreal u fun l hl => hw l (by simp [hl])
  have hrp := hreal p fun l hl => hw l (by simp [hl])
  have hrq := hreal q fun l hl => hw l (by simp [hl])
  simp only [List.map_append, realKinds_append, hru, hrq, List.append_nil, List.nil_append] at y1 y2 hk1' hk2'
  have hj' : Deriv .accepted .stmts (ts1 ++ ts2) := stmts_join hd1 hd2 (by rw [y1, y2, ← hk1', ← hk2']; exact hk)
  have hy : yieldL (ts1 ++ ts2) = realKinds ((A ++ (p ++ B)).map lxOf) := by
    simp [realKinds_append, hrp, y1, y2]
  have hparse := parse_of_deriv hj (.block _ hj') (by simp [he1, he2]) hy 0
  rw [(herr 0).2 (by
    intro l hl
    have a1 := (herr 0).1 x1
    have a2 := (herr 0).1 x2
    simp only [List.mem_append] at hl a1 a2
    rcases hl with hl | hl | hl
    · exact a1 l (.inl hl)
    · exact (htriv l (by simp [hl])).2
    · exact a2 l (.inr hl))] at hparse
  -- the pieces of the tree
  obtain ⟨c1, c2⟩ := placeL_cat 0 ts1 ts2 ((A ++ (p ++ B)).map lxOf)
  have loc : ∀ (n n' : Nat) (S : List Lx), (placeL n ts1 (A.map lxOf ++ S)).greens = (placeL n' ts1 (A.map lxOf)).greens ∧
      (placeL n ts1 (A.map lxOf ++ S)).rest = (placeL n' ts1 (A.map lxOf)).rest ++ S := by
    intro n n' S
    by_cases hts : ts1 = []
    · subst hts; simp [placeL]
    · exact placeL_local n n' ts1 _ S [] (by simp [y1]) (.inr (.inr (deriv_solid hd1 (by simp) (by simp) hts)))
  simp only [List.map_append] at c1 c2 hparse v1 v2 ⊢
  rw [(loc 0 0 _).1, (loc 0 0 _).2] at c1
  rw [(loc 0 0 _).2] at c2
  have hr1 : realKinds (placeL 0 ts1 (A.map lxOf)).rest = [] := placeL_realKinds 0 ts1 _ [] (by simp [y1])
  have hdrop : ∀ (x y : List Lx), realKinds x = [] → afterTriv (x ++ y) = afterTriv y := by
    intro x y hx
    induction x with
    | nil => rfl
    | cons l x ih =>
      have hl : isTriv l = true := by
        cases e : isTriv l with
        | true => rfl
        | false => simp [realKinds, e] at hx
      simp only [List.cons_append, afterTriv, List.dropWhile_cons, hl, if_true]
      exact ih (by simpa [realKinds, hl] using hx)
  obtain ⟨m1, hm1, g1⟩ := placeL_lead 0 he2 ((placeL 0 ts1 (A.map lxOf)).rest ++ (p.map lxOf ++ B.map lxOf))
  obtain ⟨m2, hm2, g2⟩ := placeL_lead s2.len he2 (q.map lxOf ++ B.map lxOf)
  rw [hdrop _ _ hr1, hdrop _ _ hrp] at g1
  rw [hdrop _ _ hrq, (placeL_n s2.len 0 ts2 (afterTriv (B.map lxOf)) [] (by simp [realKinds_afterTriv, y2])).1] at g2
  have g0 := (loc s1.len 0 (u.map lxOf)).1
  have nt : ∀ {m : List Green} {x : List Lx}, m = [] ∨ m = lead x → noTriv m = [] ∧ ∀ off, Green.nodesL off m = [] := by
    rintro m x (rfl | rfl)
    · exact ⟨rfl, fun _ => by simp [Green.nodesL]⟩
    · exact ⟨noTriv_lead x, fun off => nodesL_leaves _ off⟩
  have hrest : ∀ {n : Nat} {ts : List PTree} {x : List Lx}, yieldL ts = realKinds x →
      noTriv ((placeL n ts x).rest.map leaf) = [] := by
    intro n ts x h
    exact noTriv_leaves (placeL_realKinds n ts x [] (by simp [h]))
  have r1 := hrest (n := s1.len) (ts := ts1) (x := A.map lxOf ++ u.map lxOf) (by simp [realKinds_append, hru, y1])
  have r2 := hrest (n := s2.len) (ts := ts2) (x := q.map lxOf ++ B.map lxOf) (by simp [realKinds_append, hrq, y2])
  have r0 := hrest (n := 0) (ts := ts1 ++ ts2) (x := A.map lxOf ++ (p.map lxOf ++ B.map lxOf)) (by
    simpa [realKinds_append] using hy)
  refine ⟨_, (C78_accepted _ _).2 ⟨hparse, fine_tree.2 ?_⟩, ?_⟩
  · intro x hx
    have w1 := fine_tree.1 v1
    have w2 := fine_tree.1 v2
    rw [g0] at w1
    rw [g2] at w2
    rw [c1, g1] at hx
    simp only [mem_nodesL_append, nodesL_leaves, (nt hm1).2, (nt hm2).2] at hx w1 w2
    simp only [List.map_nil, List.not_mem_nil, or_false, false_or] at hx w1 w2
    rcases hx with hx | hx
    · exact w1 x hx
    · exact w2 x hx
  · simp only [statements, Green.children, List.flatMap_cons, List.flatMap_nil, List.append_nil, c1, g0, g1, g2]
    simp only [noTriv] at r0 r1 r2 nt
    simp only [List.filter_append, r0, r1, r2, (nt hm1).1, (nt hm2).1, List.append_nil, List.nil_append]

/-- a file without errors, with its number of statements and semicolons -/
private def good (text : Text) (n : Nat) : Prop :=
  ∃ t, sourceFileParse text = .ok (t, []) ∧ (statements t).length = n

private theorem good_of {text : Text} {n : Nat}
    (h : (sourceFileParseEval text).toOption.map (fun p => (p.2.length, (statements p.1).length)) = some (0, n)) :
    good text n := by
  unfold good
  rw [sourceFileParse_eq_eval]
  cases e : sourceFileParseEval text with
  | error x => rw [e] at h; simp [Except.toOption] at h
  | ok r =>
    rw [e] at h
    obtain ⟨t, es⟩ := r
    simp [Except.toOption] at h
    exact ⟨t, by rw [h.1], h.2⟩

/-- Two files that satisfy the conditions: the first ends in a comment, the second starts with white space. -/
example : ∃ t1 t2 k1 k2, sourceFileParse "local x = {1; 2} -- c".toList = .ok (t1, []) ∧
    sourceFileParse "  f(x);".toList = .ok (t2, []) ∧ ¬ EndsInBlockComment "local x = {1; 2} -- c".toList ∧
    HasKinds "local x = {1; 2} -- c".toList k1 ∧ HasKinds "  f(x);".toList k2 ∧ KeepsApart k1 k2 := by
  obtain ⟨t1, h1, -⟩ := good_of (text := "local x = {1; 2} -- c".toList) (n := 1) (by decide +kernel)
  obtain ⟨t2, h2, -⟩ := good_of (text := "  f(x);".toList) (n := 2) (by decide +kernel)
  have e1 : tokenize "local x = {1; 2} -- c".toList = .ok ([⟨.localKw, 5⟩, ⟨.whitespace, 1⟩, ⟨.ident, 1⟩, ⟨.whitespace, 1⟩,
    ⟨.eq, 1⟩, ⟨.whitespace, 1⟩, ⟨.lBrace, 1⟩, ⟨.number, 1⟩, ⟨.semicolon, 1⟩, ⟨.whitespace, 1⟩, ⟨.number, 1⟩,
    ⟨.rBrace, 1⟩, ⟨.whitespace, 1⟩, ⟨.comment, 4⟩], []) := by decide +kernel
  have e2 : tokenize "  f(x);".toList = .ok ([⟨.whitespace, 2⟩, ⟨.ident, 1⟩, ⟨.lParen, 1⟩, ⟨.ident, 1⟩, ⟨.rParen, 1⟩,
    ⟨.semicolon, 1⟩], []) := by decide +kernel
  refine ⟨t1, t2, [.localKw, .ident, .eq, .lBrace, .number, .semicolon, .number, .rBrace],
    [.ident, .lParen, .ident, .rParen, .semicolon], h1, h2, ?_, ⟨_, _, e1, by decide⟩, ⟨_, _, e2, by decide⟩, ?_⟩
  · rintro ⟨front, body, tokens, errors, h, ht, hl⟩
    rw [e1] at ht
    simp only [Except.ok.injEq, Prod.mk.injEq] at ht
    obtain ⟨rfl, -⟩ := ht
    have hlen : Text.len body = 0 := by
      simp only [List.getLast?_cons, List.getLast?_nil, Option.getD_none, Option.getD_some, Option.some.injEq,
        Token.mk.injEq, true_and, Text.len_append] at hl
      have : Text.len "--[[".toList = 4 := by decide
      omega
    obtain rfl : body = [] := by
      cases body with
      | nil => rfl
      | cons c cs => have := Text.len_pos (s := c :: cs) (by simp); omega
    have := congrArg List.getLast? h
    simp at this
  · intro k k' h h'
    simp at h h'
    subst h h'
    right; decide

/-- **C97 fails** without the conditions: each of these files is free of errors and so are the two put together, but a
statement is lost, because it became part of the one before it or of an open comment. -/
theorem C97_join_fails : ∀ p ∈ [("x=f".toList, "(g)()".toList), ("return".toList, "f()".toList),
      ("--[[ a".toList, "f()".toList)],
    ∃ t1 t2 t, sourceFileParse p.1 = .ok (t1, []) ∧ sourceFileParse p.2 = .ok (t2, []) ∧
      sourceFileParse (p.1 ++ '\n' :: p.2) = .ok (t, []) ∧
      (statements t).length + 1 = (statements t1).length + (statements t2).length := by
  have key : ∀ {a b : Text} {n m k : Nat}, good a n → good b m → good (a ++ '\n' :: b) k → k + 1 = n + m →
      ∃ t1 t2 t, sourceFileParse a = .ok (t1, []) ∧ sourceFileParse b = .ok (t2, []) ∧
        sourceFileParse (a ++ '\n' :: b) = .ok (t, []) ∧
        (statements t).length + 1 = (statements t1).length + (statements t2).length := by
    rintro a b n m k ⟨t1, h1, rfl⟩ ⟨t2, h2, rfl⟩ ⟨t, h, rfl⟩ e
    exact ⟨t1, t2, t, h1, h2, h, e⟩
  intro p hp
  simp only [List.mem_cons, List.not_mem_nil, or_false] at hp
  rcases hp with rfl | rfl | rfl
  · exact key (n := 1) (m := 1) (k := 1) (good_of (by decide +kernel)) (good_of (by decide +kernel))
      (good_of (by decide +kernel)) rfl
  · exact key (n := 1) (m := 1) (k := 1) (good_of (by decide +kernel)) (good_of (by decide +kernel))
      (good_of (by decide +kernel)) rfl
  · exact key (n := 0) (m := 1) (k := 0) (good_of (by decide +kernel)) (good_of (by decide +kernel))
      (good_of (by decide +kernel)) rfl

end Verif
