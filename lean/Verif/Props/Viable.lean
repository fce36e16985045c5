import Verif.Proof.ViableStmt
import Verif.Proof.Spellable
import Verif.Props.Joining

/-
C99: the parser does not complain before it has to.  What comes before the first complaint is the beginning of a correct
program, except after `. :` before `(`.
-/
namespace Verif
open PTree Lua Spec Lexer Grammar Item

/-- C99: the tokens before the first complaint can be completed to a program without complaints.  The only exception:
they end with `.` and `:` and a `(` follows, and then they can be completed without that `:`. -/
theorem C99_tokens (toks : List SyntaxKind) (hne : .eof ∉ toks) : ∃ t, parseKinds toks = .ok (calls t) ∧ yield t = toks ∧
    ((∃ t' more, Program .accepted t' ∧ yield t' = beforeError t ++ more ∧ parseKinds (beforeError t ++ more) = .ok (calls t')) ∨
     ∃ front rest t' more, beforeError t = front ++ [.dot, .colon] ∧ toks = front ++ [.dot, .colon, .lParen] ++ rest ∧
      Program .accepted t' ∧ yield t' = front ++ [.dot] ++ more) := by
  have hb := (root_spec toks hne).both (root_v toks hne)
  obtain ⟨items, toks', h1, h2, ⟨rfl, ⟨p, q, af, rfl⟩, g, c⟩, v⟩ := parseKinds_of_spec (P := fun items toks' =>
    (toks' = [] ∧ (∃ p q af, items = [.node p .sourceFile [] [.node q .block [] af]]) ∧
      GP (fun ts => ∃ t, ts = [t] ∧ Program .accepted t) items) ∧
    U (fun ts => ∃ t, ts = [t] ∧ Program .accepted t) toks items) hb
  refine ⟨.node .sourceFile [.node .block (toTreeL af)], ?_, ?_, ?_⟩
  · simpa [toTreeL, toTree, callsL] using h1
  · simp at h2; rw [h2]; simp [PTree.yield, yieldL, yld]
  · have hp : pre [Item.node p .sourceFile [] [.node q .block [] af]] =
        beforeError (.node .sourceFile [.node .block (toTreeL af)]) := by
      simp [pre, toTreeL, toTree, beforeErrorL, beforeError]
    by_cases hc : clean [Item.node p .sourceFile [] [.node q .block [] af]]
    · obtain ⟨t, ht, hd⟩ := c hc
      have e : PTree.yield t = beforeError (.node .sourceFile [.node .block (toTreeL af)]) := by
        rw [← hp, pre_of_clean hc, yld, ht]; simp [yieldL]
      refine .inl ⟨t, [], hd, by simpa using e, ?_⟩
      rw [List.append_nil, ← e]
      exact parseKinds_complete hd
    · obtain ⟨ts, u, ⟨t, rfl, hd⟩, h | ⟨w, r, h3, h4, h5⟩⟩ := v hc
      · have e : PTree.yield t = beforeError (.node .sourceFile [.node .block (toTreeL af)]) ++ u := by
          rw [← hp, ← h]; simp [yieldL]
        exact .inl ⟨t, u, hd, e, by rw [← e]; exact parseKinds_complete hd⟩
      · exact .inr ⟨w, r, t, u, by rw [← hp, h3], by rw [h4]; simp, hd, by rw [← List.append_nil (PTree.yield t)]; simpa [yieldL] using h5⟩

mutual
private theorem place_first (n : Nat) (t : PTree) (todo : List Lx) (r : List SyntaxKind)
    (hk : realKinds todo = yield t ++ r) (he : errors t ≠ []) : ∃ e ∈ (place n t todo).errs, ∃ todo', todo' <:+ todo ∧
      e.range.start = n - wlen todo' ∧ realKinds todo = beforeError t ++ realKinds todo' := by
  cases t with
  | tok k => simp [errors] at he
  | err e => exact ⟨_, by simp only [place]; exact List.mem_singleton_self _, todo, List.suffix_refl _, rfl, by simp [beforeError]⟩
  | errNode cs e =>
    exact ⟨_, by simp only [place]; exact List.mem_append_right _ (List.mem_singleton_self _), afterTriv todo,
      suffix_afterTriv _, rfl, by simp [beforeError, realKinds_afterTriv]⟩
  | node k cs =>
    obtain ⟨e, h1, todo', h2, h3, h4⟩ := placeL_first n cs (afterTriv todo) r
      (by rw [realKinds_afterTriv, hk, PTree.yield]) (by simpa [errors] using he)
    exact ⟨e, by simpa only [place] using h1, todo', h2.trans (suffix_afterTriv _), h3,
      by rw [← realKinds_afterTriv, h4, beforeError]⟩
private theorem placeL_first (n : Nat) (ts : List PTree) (todo : List Lx) (r : List SyntaxKind)
    (hk : realKinds todo = yieldL ts ++ r) (he : errorsL ts ≠ []) : ∃ e ∈ (placeL n ts todo).errs, ∃ todo', todo' <:+ todo ∧
      e.range.start = n - wlen todo' ∧ realKinds todo = beforeErrorL ts ++ realKinds todo' := by
  cases ts with
  | nil => simp [errorsL] at he
  | cons t ts =>
    by_cases h : errors t = []
    · have hk' : realKinds (place n t todo).rest = yieldL ts ++ r := realKinds_suffix n (by rw [hk]; simp [yieldL])
      obtain ⟨e, h1, todo', h2, h3, h4⟩ := placeL_first n ts (place n t todo).rest r hk'
        (by simpa [errorsL, h] using he)
      refine ⟨e, by simp only [placeL]; exact List.mem_append_right _ h1, todo', h2.trans (place_rest n t todo), h3, ?_⟩
      rw [beforeErrorL, if_pos h, beforeError_clean t h, List.append_assoc, ← h4, hk', hk]
      simp [yieldL]
    · obtain ⟨e, h1, todo', h2, h3, h4⟩ := place_first n t todo (yieldL ts ++ r) (by rw [hk]; simp [yieldL]) h
      exact ⟨e, by simp only [placeL]; exact List.mem_append_left _ h1, todo', h2, h3,
        by rw [h4, beforeErrorL, if_neg h, List.append_nil]⟩
end

private theorem hasKinds_iff {text : Text} {ls : List Lexeme} (h : Lexemes text ls) (ks) :
    HasKinds text ks ↔ ks = realKinds (ls.map lxOf) := by
  have e : ((attach 0 ls).map (·.1)).map (·.kind) = ls.map (·.kind) := by rw [attach_tokens]; simp [Function.comp_def]
  have e2 : (ls.map (·.kind)).filter (fun k => !k.isTrivia) = realKinds (ls.map lxOf) := by
    simp only [realKinds, List.filter_map, List.map_map]
    rfl
  constructor
  · rintro ⟨ts, es, h1, rfl⟩
    rw [tokenize_eq h] at h1
    cases h1
    rw [e, e2]
  · rintro rfl
    exact ⟨_, _, tokenize_eq h, by rw [e, e2]⟩

private theorem attach_none : ∀ {ls : List Lexeme} {pos : Nat}, (attach pos ls).filterMap (·.2) = [] → ∀ l ∈ ls, l.err = none
  | [], _, _ => by simp
  | l :: ls, pos, h => by
    cases he : l.err with
    | some e => simp [attach, he] at h
    | none =>
      simp only [attach, he, Option.map_none, List.filterMap_cons] at h
      intro x hx
      rcases List.mem_cons.1 hx with rfl | hx
      · exact he
      · exact attach_none h x hx

private theorem attach_none' : ∀ {ls : List Lexeme} {pos : Nat}, (∀ l ∈ ls, l.err = none) → (attach pos ls).filterMap (·.2) = []
  | [], _, _ => rfl
  | l :: ls, pos, h => by
    have := attach_none' (ls := ls) (pos := pos + l.word.len) fun x hx => h x (by simp [hx])
    simp [attach, h l (by simp), this]

/-- A text whose tokens are the beginning of an accepted program can be completed. -/
private theorem complete_text {a : Text} {ls : List Lexeme} (hl : Lexemes a ls) (herr : ∀ l ∈ ls, l.err = none)
    (hc : ¬ EndsInBlockComment a) {t : PTree} {u : List SyntaxKind} (hp : Program .accepted t)
    (hy : yield t = realKinds (ls.map lxOf) ++ u) : ∃ more t', parseText (a ++ '\n' :: more) = .ok (t', []) := by
  obtain ⟨b, rfl, hd⟩ := hp
  obtain ⟨ss, rfl, hss⟩ := compl hd b rfl
  have hy' : yieldL ss = realKinds (ls.map lxOf) ++ u := by simpa [PTree.yield, yieldL] using hy
  have hterms := deriv_terms hd
  simp only [yieldL, PTree.yield, List.append_nil] at hterms
  obtain ⟨more, ls2, l2, e2, k2, -⟩ := write_tokens u (fun k hk => hterms k (by rw [hy']; simp [hk]))
  obtain ⟨A, v, p, q, B, rfl, hj, hq, htriv⟩ := lexemes_join more hl herr (by
    intro l hll hlk hpre
    obtain ⟨body, hb⟩ := hpre
    have hf := hl.flatten
    obtain ⟨ini, hini⟩ : ∃ ini, ls = ini ++ [l] := by
      have hne : ls ≠ [] := by rintro rfl; simp at hll
      rw [List.getLast?_eq_some_getLast hne] at hll
      simp only [Option.some.injEq] at hll
      exact ⟨ls.dropLast, by rw [← hll]; exact (List.dropLast_concat_getLast hne).symm⟩
    refine hc ⟨(ini.map (·.word)).flatten, body, _, _, ?_, tokenize_eq hl, ?_⟩
    · rw [hb, ← hf, hini]; simp
    · rw [attach_tokens, hini, hb]; simp [hlk])
  obtain rfl := l2.unique hq
  have hreal : ∀ x : List Lexeme, (∀ l ∈ x, l.kind = .whitespace ∧ l.err = none) → realKinds (x.map lxOf) = [] := by
    intro x hx
    simp only [realKinds, List.map_eq_nil_iff, List.filter_eq_nil_iff, List.mem_map]
    rintro l ⟨y, hy, rfl⟩
    simp [isTriv, lxOf, (hx y hy).1, SyntaxKind.isTrivia]
  have hru := hreal v fun l hl => htriv l (by simp [hl])
  have hrp := hreal p fun l hl => htriv l (by simp [hl])
  have hrq := hreal q fun l hl => htriv l (by simp [hl])
  simp only [List.map_append, realKinds_append, hru, hrq, List.append_nil, List.nil_append] at k2 hy'
  have hyy : yieldL ss = realKinds ((A ++ (p ++ B)).map lxOf) := by
    rw [hy', ← k2]
    simp [realKinds_append, hrp]
  have key := parse_of_deriv hj hd (by simpa [errorsL, errors] using deriv_errors hd) hyy 0
  rw [attach_none'] at key
  · exact ⟨more, _, key⟩
  intro l hl
  simp only [List.mem_append] at hl
  rcases hl with hl | hl | hl
  · exact herr l (by simp [hl])
  · exact (htriv l (by simp [hl])).2
  · exact e2 l (by simp [hl])

private theorem last_real : ∀ x : List Lx, realKinds x = [] ∨
    ∃ x1 l x2, x = x1 ++ l :: x2 ∧ l.1.isTrivia = false ∧ realKinds x2 = []
  | [] => .inl rfl
  | l :: x => by
    rcases last_real x with h | ⟨x1, l', x2, rfl, h2, h3⟩
    · cases hl : l.1.isTrivia with
      | true => exact .inl (by simpa [realKinds, isTriv, hl] using h)
      | false => exact .inr ⟨[], l, x, rfl, hl, h⟩
    · exact .inr ⟨l :: x1, l', x2, rfl, h2, h3⟩

private theorem placed_mem : ∀ (x1 : List Lx) (l : Lx) (x2 : List Lx) (pos : Nat),
    (l.1, pos + wlen x1, pos + wlen x1 + l.2.len) ∈ placed pos (toksOf (x1 ++ l :: x2))
  | [], l, x2, pos => by simp [placed, toksOf]
  | x :: x1, l, x2, pos => by
    have := placed_mem x1 l x2 (pos + x.2.len)
    simp only [List.cons_append, toksOf, List.map_cons, placed, List.mem_cons, wlen_cons] at this ⊢
    right
    rw [Nat.add_assoc pos] at this
    simpa [Nat.add_assoc] using this

/-- C99: if no complaint about the text `a ++ b` starts before the last token of `a` ends, the text `a` can be completed
so that there is no complaint at all.  `a` must end where a token ends, and not with `.` and `:` before a `(`. -/
theorem C99_completable (a b : Text) (t : Green) (es : List SyntaxError) (h : parseText (a ++ b) = .ok (t, es))
    (hes : ∀ e ∈ es, ∀ lo hi, RealToken a lo hi → hi ≤ e.range.start) (hcut : CutAt a b) (hc : ¬ EndsInBlockComment a) (hx : ¬ DotColonParen a b) :
    ∃ more t', parseText (a ++ '\n' :: more) = .ok (t', []) := by
  obtain ⟨ls, ts, hl, h2, h3, -, h5⟩ := parseText_main (a ++ b)
  obtain ⟨ls1, hl1⟩ := lexemes_exists a
  obtain ⟨tk, mr, er, c1, c2⟩ := hcut
  rw [tokenize_eq hl1] at c1
  rw [tokenize_eq hl] at c2
  simp only [Except.ok.injEq, Prod.mk.injEq] at c1 c2
  obtain ⟨rfl, c1⟩ := c1
  have herr := attach_none c1
  have c2 := c2.1
  rw [attach_tokens, attach_tokens] at c2
  obtain ⟨A, B, rfl, cA, -⟩ := List.map_eq_append_iff.1 c2
  have hkA : realKinds (A.map lxOf) = realKinds (ls1.map lxOf) := by
    have : A.map (·.kind) = ls1.map (·.kind) := by
      have := congrArg (List.map Token.kind) cA
      simpa [Function.comp_def] using this
    have e2 : ∀ x : List Lexeme, realKinds (x.map lxOf) = (x.map (·.kind)).filter (fun k => !k.isTrivia) := by
      intro x
      simp only [realKinds, List.filter_map, List.map_map]
      rfl
    rw [e2, e2, this]
  have hwA : wlen (A.map lxOf) = a.len := by
    have e : ∀ x : List Lexeme, wlen (x.map lxOf) = ((x.map fun l => (⟨l.kind, l.word.len⟩ : Token)).map Token.len).sum := by
      intro x
      induction x with
      | nil => rfl
      | cons l x ih => simp [ih, lxOf]
    rw [e, cA, ← e, wlen, (lexemes_lx hl1).1]
  have hwB : (a ++ b).len = wlen (A.map lxOf) + wlen (B.map lxOf) := by
    rw [← wlen_append, ← List.map_append, wlen, (lexemes_lx hl).1]
  have hne : .eof ∉ realKinds ((A ++ B).map lxOf) := by
    intro hm
    simp only [realKinds, List.mem_map] at hm
    obtain ⟨l, hl', e⟩ := hm
    exact (lexemes_lx hl).2.2.2 l (List.mem_filter.mp hl').1 e
  rw [h] at h5
  simp only [Except.ok.injEq, Prod.mk.injEq] at h5
  obtain ⟨rfl, rfl⟩ := h5
  -- the tokens of `a` are among those before the first error
  obtain ⟨M, hpre⟩ : ∃ M, beforeErrorL ts = realKinds (A.map lxOf) ++ realKinds M := by
    by_cases he : errorsL ts = []
    · refine ⟨B.map lxOf, ?_⟩
      rw [beforeErrorL_clean _ he, h3]
      simp [realKinds_append]
    · obtain ⟨e, e1, todo', s, e2, e3⟩ := placeL_first (a ++ b).len ts ((A ++ B).map lxOf) [] (by simp [h3]) he
      have hcase : (∃ x1 x2, A.map lxOf = x1 ++ x2 ∧ realKinds x2 = [] ∧ wlen x1 ≤ e.range.start) := by
        rcases last_real (A.map lxOf) with hA | ⟨x1, l, x2, hA, hl', hx2⟩
        · exact ⟨[], _, rfl, hA, by simp⟩
        · refine ⟨x1 ++ [l], x2, by simp [hA], hx2, ?_⟩
          have hm := placed_mem x1 l x2 0
          rw [← hA] at hm
          have := hes e (List.mem_append_left _ e1) _ _ ⟨_, _, l.1, tokenize_eq hl1, by
            rw [attach_tokens, ← cA]; simpa [toksOf, lxOf, Function.comp_def] using hm, hl'⟩
          simpa [Nat.add_comm] using this
      obtain ⟨x1, x2, hA, hx2, h6⟩ := hcase
      rw [e2, hwB, hA, wlen_append] at h6
      rw [List.map_append, hA, List.append_assoc] at s
      have hw := wlen_suffix s
      rw [wlen_append, wlen_append] at hw
      have h7 : wlen todo' ≤ wlen (x2 ++ B.map lxOf) := by rw [wlen_append]; omega
      have h8 : todo' <:+ x2 ++ B.map lxOf := by
        rcases List.suffix_or_suffix_of_suffix s (List.suffix_append x1 (x2 ++ B.map lxOf)) with h8 | ⟨d, h8⟩
        · exact h8
        · rw [← h8, wlen_append] at h7
          cases d with
          | nil => rw [← h8]; exact List.suffix_refl _
          | cons x d =>
            exfalso
            rw [wlen_cons] at h7
            have hx : x.2 ≠ [] := (lexemes_lx hl).2.2.1 x (by
              rw [List.map_append, hA, List.append_assoc]; exact s.subset (by rw [← h8]; simp))
            have := Text.len_pos (s := x.2) hx
            omega
      obtain ⟨M, hM⟩ := h8
      have hk : beforeErrorL ts = realKinds (A.map lxOf) ++ realKinds M := by
        rw [List.map_append, hA, List.append_assoc, ← hM, realKinds_append, realKinds_append, ← List.append_assoc] at e3
        rw [hA, realKinds_append, hx2, List.append_nil]
        exact (List.append_cancel_right e3).symm
      exact ⟨M, hk⟩
  have hL : beforeError (.node .sourceFile [.node .block ts]) = beforeErrorL ts := by
    simp [beforeError, beforeErrorL]
  obtain ⟨t, k1, k2, k3⟩ := C99_tokens _ hne
  have : t = .node .sourceFile [.node .block ts] := by
    rw [h2] at k1
    simp only [Except.ok.injEq] at k1
    exact ((calls_inj _ t [] [] [] [] (by simpa using k1) (by simp [PTree.yield, yieldL, h3, k2])).1).symm
  subst this
  rw [hL, hpre, hkA] at k3
  rcases k3 with ⟨t', more, hp, hy, -⟩ | ⟨w, r, t', more, f1, f2, hp, hy⟩
  · exact complete_text hl1 herr hc hp (by rw [hy, List.append_assoc])
  · -- the exception: `:` is behind `a`
    have hM : realKinds M ≠ [] := by
      intro hM
      rw [hM, List.append_nil] at f1
      exact hx ⟨w, r, (hasKinds_iff hl1 _).2 f1.symm, (hasKinds_iff hl _).2 f2.symm⟩
    have e : realKinds (ls1.map lxOf) ++ (realKinds M).dropLast = w ++ [.dot] := by
      have := congrArg List.dropLast f1
      rw [List.dropLast_append_of_ne_nil hM] at this
      rw [this, show w ++ [SyntaxKind.dot, .colon] = (w ++ [.dot]) ++ [.colon] by simp, List.dropLast_concat]
    exact complete_text hl1 herr hc hp (by rw [hy, ← e, List.append_assoc])

private theorem err_real {s : Text} {ls : List Lexeme} (h : Lexemes s ls) : ∀ l ∈ ls, l.err ≠ none → l.kind.isTrivia = false := by
  induction h with
  | nil => simp
  | @cons s l rest ls h1 h2 ih =>
    intro x hx he
    rcases List.mem_cons.1 hx with rfl | hx
    · obtain ⟨w, k, e⟩ := x
      have e1 := h1.append
      simp only at e1
      subst e1
      obtain ⟨-, hr⟩ := firstLexeme_reads.1 h1
      cases hr <;> first | rfl | exact absurd rfl he
    · exact ih x hx he

private theorem attach_errs : ∀ {ls : List Lexeme} {pos : Nat} {e : SyntaxError}, e ∈ (attach pos ls).filterMap (·.2) →
    ∃ l1 l l2, ls = l1 ++ l :: l2 ∧ l.err ≠ none ∧ e.range.start = pos + wlen (l1.map lxOf)
  | [], _, _, h => by simp [attach] at h
  | l :: ls, pos, e, h => by
    simp only [attach, List.filterMap_cons] at h
    have ih : e ∈ (attach (pos + l.word.len) ls).filterMap (·.2) →
        ∃ l1 l' l2, l :: ls = l1 ++ l' :: l2 ∧ l'.err ≠ none ∧ e.range.start = pos + wlen (l1.map lxOf) := by
      intro h
      obtain ⟨l1, l', l2, rfl, h1, h2⟩ := attach_errs h
      exact ⟨l :: l1, l', l2, rfl, h1, by rw [h2]; simp [lxOf, Nat.add_assoc]⟩
    cases he : l.err with
    | none =>
      simp only [he, Option.map_none] at h
      exact ih h
    | some m =>
      simp only [he, Option.map_some, List.mem_cons] at h
      rcases h with rfl | h
      · exact ⟨[], l, ls, rfl, by simp [he], by simp [Range.ofLen]⟩
      · exact ih h

/-- C99: a text that has no complaint but behind its last token is only unfinished. -/
theorem C99_unfinished (a : Text) (t : Green) (es : List SyntaxError) (h : parseText a = .ok (t, es))
    (hes : ∀ e ∈ es, ∀ lo hi, RealToken a lo hi → hi ≤ e.range.start) (hc : ¬ EndsInBlockComment a) :
    ∃ more t', parseText (a ++ '\n' :: more) = .ok (t', []) := by
  obtain ⟨ls, ts, hl, -, -, -, h5⟩ := parseText_main a
  rw [h] at h5
  simp only [Except.ok.injEq, Prod.mk.injEq] at h5
  obtain ⟨rfl, rfl⟩ := h5
  have hlex : (attach 0 ls).filterMap (·.2) = [] := by
    refine List.eq_nil_iff_forall_not_mem.2 fun e he => ?_
    obtain ⟨l1, l, l2, rfl, h1, h2⟩ := attach_errs he
    have hm := placed_mem (l1.map lxOf) (lxOf l) (l2.map lxOf) 0
    have := hes e (List.mem_append_right _ he) _ _ ⟨_, _, l.kind, tokenize_eq hl, by
      rw [attach_tokens]; simpa [toksOf, lxOf, Function.comp_def] using hm, err_real hl l (by simp) h1⟩
    have hp := Text.len_pos (s := l.word) (hl.words_ne l (by simp))
    omega
  refine C99_completable a [] _ _ (by rw [List.append_nil]; exact h) hes ?_ hc ?_
  · refine ⟨(attach 0 ls).map (·.1), [], [], ?_, ?_⟩
    · rw [tokenize_eq hl, hlex]
    · rw [List.append_nil, tokenize_eq hl, hlex, List.append_nil]
  · rintro ⟨f, r, h1, h2⟩
    rw [List.append_nil, hasKinds_iff hl] at h2
    rw [hasKinds_iff hl] at h1
    have := congrArg List.length (h1.trans h2.symm)
    simp at this

/-- C99: and a complaint with two whole tokens behind it does not go away by writing on. -/
theorem C99_wrong (a b b' : Text) (t t' : Green) (es es' : List SyntaxError) (p : Nat)
    (h : parseText (a ++ b) = .ok (t, es)) (h' : parseText (a ++ b') = .ok (t', es')) (hs : Settled (a ++ b) a.len p)
    (he : ∃ e ∈ es, e.range.stop ≤ p) : es' ≠ [] := by
  rintro rfl
  obtain ⟨e, h1, h2⟩ := he
  have := C96_errors h h' hs
  have hm : e ∈ es.filter (fun x => x.range.stop ≤ p) := List.mem_filter.2 ⟨h1, by simpa using h2⟩
  rw [this] at hm
  simp at hm

/-! ### examples -/

private def cut (a : Text) : List (SyntaxKind × Nat × Nat) :=
  match tokenize a with
  | .ok (ts, _) => (placed 0 ts).filter fun x => !x.1.isTrivia
  | .error _ => []

private theorem real_cut {a : Text} {lo hi : Nat} (h : RealToken a lo hi) : ∃ k, (k, lo, hi) ∈ cut a := by
  obtain ⟨ts, es, k, h1, h2, h3⟩ := h
  exact ⟨k, by simp only [cut, h1]; exact List.mem_filter.2 ⟨h2, by simp [h3]⟩⟩

private theorem not_comment {a : Text} {ts : List Token} {es} (h : tokenize a = .ok (ts, es))
    (hk : ∀ t, ts.getLast? = some t → t.kind ≠ .comment) : ¬ EndsInBlockComment a := by
  rintro ⟨f, b, ts', es', -, h1, h2⟩
  rw [h] at h1
  cases h1
  exact hk _ h2 rfl

/-- `x = (1 + ` is unfinished: its complaints are at its end. -/
example : ∃ t es, parseText "x = (1 + ".toList = .ok (t, es) ∧ es ≠ [] ∧
    (∀ e ∈ es, ∀ lo hi, RealToken "x = (1 + ".toList lo hi → hi ≤ e.range.start) ∧
    ¬ EndsInBlockComment "x = (1 + ".toList := by
  have h : (parseText "x = (1 + ".toList).toOption.map (·.2) = some
      [⟨"Expected an expression", ⟨9, 9⟩⟩, ⟨"Expected RParen, got Eof", ⟨9, 9⟩⟩] := by
    rw [parseText_eq_eval]; decide +kernel
  have hc : ∀ x ∈ cut "x = (1 + ".toList, x.2.2 ≤ 9 := by decide +kernel
  cases e : parseText "x = (1 + ".toList with
  | error => rw [e] at h; cases h
  | ok p =>
    rw [e] at h
    obtain ⟨t, es⟩ := p
    simp only [Except.toOption, Option.map_some, Option.some.injEq] at h
    subst h
    refine ⟨t, _, rfl, by simp, ?_, ?_⟩
    · intro e he lo hi hr
      obtain ⟨k, hk⟩ := real_cut hr
      have := hc _ hk
      simp only [List.mem_cons, List.not_mem_nil, or_false] at he
      rcases he with rfl | rfl <;> exact this
    · have : tokenize "x = (1 + ".toList = .ok ([⟨.ident, 1⟩, ⟨.whitespace, 1⟩, ⟨.eq, 1⟩, ⟨.whitespace, 1⟩, ⟨.lParen, 1⟩,
          ⟨.number, 1⟩, ⟨.whitespace, 1⟩, ⟨.plus, 1⟩, ⟨.whitespace, 1⟩], []) := by decide +kernel
      exact not_comment this (by decide)

/-- `x = if y`: the complaint starts at `if`, so `x =` can be completed. -/
example : ∃ t es, parseText ("x =".toList ++ " if y".toList) = .ok (t, es) ∧ es ≠ [] ∧
    (∀ e ∈ es, ∀ lo hi, RealToken "x =".toList lo hi → hi ≤ e.range.start) ∧
    CutAt "x =".toList " if y".toList ∧ ¬ EndsInBlockComment "x =".toList ∧ ¬ DotColonParen "x =".toList " if y".toList := by
  have h : (parseText ("x =".toList ++ " if y".toList)).toOption.map (·.2) = some
      [⟨"Expected an expression", ⟨4, 6⟩⟩] := by
    rw [parseText_eq_eval]; decide +kernel
  have hc : ∀ x ∈ cut "x =".toList, x.2.2 ≤ 4 := by decide +kernel
  have ha : tokenize "x =".toList = .ok ([⟨.ident, 1⟩, ⟨.whitespace, 1⟩, ⟨.eq, 1⟩], []) := by decide +kernel
  have hab : tokenize ("x =".toList ++ " if y".toList) = .ok ([⟨.ident, 1⟩, ⟨.whitespace, 1⟩, ⟨.eq, 1⟩] ++
      [⟨.whitespace, 1⟩, ⟨.ifKw, 2⟩, ⟨.whitespace, 1⟩, ⟨.ident, 1⟩], []) := by decide +kernel
  cases e : parseText ("x =".toList ++ " if y".toList) with
  | error => rw [e] at h; cases h
  | ok p =>
    rw [e] at h
    obtain ⟨t, es⟩ := p
    simp only [Except.toOption, Option.map_some, Option.some.injEq] at h
    subst h
    refine ⟨t, _, rfl, by simp, ?_, ⟨_, _, _, ha, hab⟩, not_comment ha (by decide), ?_⟩
    · intro e he lo hi hr
      obtain ⟨k, hk⟩ := real_cut hr
      have := hc _ hk
      simp only [List.mem_cons, List.not_mem_nil, or_false] at he
      subst he
      exact this
    · rintro ⟨f, r, ⟨ts, es, h1, h2⟩, -⟩
      rw [ha] at h1
      cases h1
      have := congrArg List.getLast? h2
      revert this
      simp
      decide

/-! ### the exception -/

private theorem no_dot_colon {t : PTree} {u : List SyntaxKind} (h : Program .accepted t) :
    yield t ≠ .functionKw :: .ident :: .dot :: .colon :: u := by
  obtain ⟨b, rfl, hd⟩ := h
  have key : ∀ (s : PTree) (v), Deriv .accepted .stmt [s] → yield s ++ v ≠ .functionKw :: .ident :: .dot :: .colon :: u := by
    intro s v hs e
    have hst : ∀ m w, startsStmt m → yield m ++ w ≠ .functionKw :: .ident :: .dot :: .colon :: u := by
      intro m w hm e
      cases hy : yield m with
      | nil => simp [startsStmt, hy] at hm
      | cons k ks =>
        rw [hy] at e
        simp only [List.cons_append, List.cons.injEq] at e
        simp [startsStmt, hy, e.1] at hm
    cases hs
    case exprStmt m h1 h2 => exact hst m _ h2 (by simpa [PTree.yield, yieldL] using e)
    case assign m m' h1 h2 h3 => exact hst m _ h2 (by simpa [PTree.yield, yieldL] using e)
    case function_ n p b h1 h2 h3 =>
      simp only [PTree.yield, yieldL, List.append_nil, List.cons_append, List.nil_append, List.cons.injEq, true_and] at e
      cases h1
      case plainName => cases h2 <;> simp [PTree.yield, yieldL] at e
      case methodName ts h => cases h <;> simp [PTree.yield, yieldL] at e
      case staticName ts h => cases h <;> simp [PTree.yield, yieldL] at e
      case staticNoDot ts h' h => cases h <;> simp [PTree.yield, yieldL] at e
    all_goals simp [PTree.yield, yieldL] at e
  cases hd with
  | block ts hs =>
    intro e
    simp only [PTree.yield, yieldL, List.append_nil] at e
    cases hs with
    | stmtsNil => simp [yieldL] at e
    | stmtsCons s ts h1 h2 h3 => exact key s _ h1 (by simpa [yieldL] using e)
    | stmtsSemi s ts h1 h2 => exact key s _ h1 (by simpa [yieldL] using e)

/-- C99 without the exception would be wrong: about `function a.:(` the parser complains only behind the `:`, although
nothing that starts with `function a.:` is correct. -/
theorem C99_completable_fails : ∃ t es, parseText ("function a.:".toList ++ "(".toList) = .ok (t, es) ∧
    (∀ e ∈ es, Text.len "function a.:".toList ≤ e.range.start) ∧ CutAt "function a.:".toList "(".toList ∧
    ¬ EndsInBlockComment "function a.:".toList ∧ DotColonParen "function a.:".toList "(".toList ∧
    ∀ more t', parseText ("function a.:".toList ++ '\n' :: more) ≠ .ok (t', []) := by
  have h : (parseText ("function a.:".toList ++ "(".toList)).toOption.map (·.2) = some
      [⟨"expected a name", ⟨12, 12⟩⟩, ⟨"Expected RParen, got Eof", ⟨13, 13⟩⟩, ⟨"Expected EndKw, got Eof", ⟨13, 13⟩⟩] := by
    rw [parseText_eq_eval]; decide +kernel
  have ha : tokenize "function a.:".toList =
      .ok ([⟨.functionKw, 8⟩, ⟨.whitespace, 1⟩, ⟨.ident, 1⟩, ⟨.dot, 1⟩, ⟨.colon, 1⟩], []) := by decide +kernel
  have hab : tokenize ("function a.:".toList ++ "(".toList) =
      .ok ([⟨.functionKw, 8⟩, ⟨.whitespace, 1⟩, ⟨.ident, 1⟩, ⟨.dot, 1⟩, ⟨.colon, 1⟩] ++ [⟨.lParen, 1⟩], []) := by decide +kernel
  cases e : parseText ("function a.:".toList ++ "(".toList) with
  | error => rw [e] at h; cases h
  | ok p =>
    rw [e] at h
    obtain ⟨t, es⟩ := p
    simp only [Except.toOption, Option.map_some, Option.some.injEq] at h
    subst h
    refine ⟨t, _, rfl, by decide, ⟨_, _, _, ha, hab⟩, not_comment ha (by decide),
      ⟨[.functionKw, .ident], [], ⟨_, _, ha, rfl⟩, ⟨_, _, hab, rfl⟩⟩, ?_⟩
    intro more t' ht
    obtain ⟨ls, ts, hl, -, h3, ⟨-, h4⟩, h5⟩ := parseText_main ("function a.:".toList ++ '\n' :: more)
    rw [ht] at h5
    simp only [Except.ok.injEq, Prod.mk.injEq] at h5
    have hp := h4 (placeL_errs_nil _ _ _ (List.append_eq_nil_iff.1 h5.2.symm).1)
    obtain ⟨ls', hl'⟩ := lexemes_exists ('\n' :: more)
    have : Lexemes ("function".toList ++ (" ".toList ++ ("a".toList ++ (".".toList ++ (":".toList ++ '\n' :: more)))))
        (⟨"function".toList, .functionKw, none⟩ :: ⟨" ".toList, .whitespace, none⟩ :: ⟨"a".toList, .ident, none⟩ ::
          ⟨".".toList, .dot, none⟩ :: ⟨":".toList, .colon, none⟩ :: ls') :=
      .cons (.mk rfl rfl) (.cons (.mk rfl rfl) (.cons (.mk rfl rfl) (.cons (.mk rfl rfl) (.cons (.mk rfl rfl) hl'))))
    obtain rfl := hl.unique this
    refine no_dot_colon hp (u := realKinds (ls'.map lxOf)) ?_
    simp only [PTree.yield, yieldL, List.append_nil, h3]
    rfl

end Verif
