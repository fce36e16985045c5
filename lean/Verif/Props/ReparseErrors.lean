import Verif.Props.Reparse

/-
C77: the errors after a reparse, and C06 for them.
-/
namespace Verif
open Spec PTree Lexer Lua Reparse

private theorem bind_ok {ε α β} {x : Except ε α} {f : α → Except ε β} {b : β} (h : x.bind f = .ok b) :
    ∃ a, x = .ok a ∧ f a = .ok b := by
  cases x with
  | error e => simp [Except.bind] at h
  | ok a => exact ⟨a, rfl, h⟩

private theorem map_ok {ε α β} {x : Except ε α} {f : α → β} {b : β} (h : x.map f = .ok b) :
    ∃ a, x = .ok a ∧ f a = b := by
  cases x with
  | error e => simp [Except.map] at h
  | ok a => exact ⟨a, rfl, by simpa [Except.map] using h⟩

/-- An error does not overlap a range. -/
def OutsideOf (r : Range) (e : SyntaxError) : Prop := e.range.stop ≤ r.start ∨ r.stop ≤ e.range.start

instance (r e) : Decidable (OutsideOf r e) := by unfold OutsideOf; infer_instance

/-- An error outside a range that contains the edit, before and after the edit: if it is before the range it is the same,
if it is after it then it is the same up to the change of the length of the text. -/
def Moved (r : Range) (edit : Indel) (before after : SyntaxError) : Prop :=
  if before.range.stop ≤ r.start then after = before
  else after.msg = before.msg ∧
    after.range.start + (edit.delete.stop - edit.delete.start) = before.range.start + edit.insert.len ∧
    after.range.stop + (edit.delete.stop - edit.delete.start) = before.range.stop + edit.insert.len

/-- An error of a part of a text, as an error of the text. -/
def movedBy (n : Nat) (e : SyntaxError) : SyntaxError := ⟨e.msg, ⟨e.range.start + n, e.range.stop + n⟩⟩

/-- The errors found in a piece of text: the one of its first token, or those of parsing it as a block. -/
def ErrorsOf (w : Text) (es : List SyntaxError) : Prop :=
  (∃ tokens errors, tokenize w = .ok (tokens, errors) ∧ es = errors.filter fun e => e.range.start = 0) ∨
  (∃ tokens errors green syntaxErrors, tokenize w = .ok (tokens, errors) ∧
      parseBlock w tokens = .ok (green, syntaxErrors) ∧ es = syntaxErrors ++ errors)

private theorem keepErrors_spec {range : Range} {edit : Indel} : ∀ {old kept : List SyntaxError},
    keepErrors range edit old = .ok kept →
    kept.length = (old.filter (OutsideOf range ·)).length ∧
      ∀ p ∈ (old.filter (OutsideOf range ·)).zip kept, Moved range edit p.1 p.2 := by
  intro old
  induction old with
  | nil => intro kept h; simp [keepErrors] at h; subst h; simp
  | cons e es ih =>
    intro kept h
    simp only [keepErrors] at h
    by_cases h1 : e.range.stop ≤ range.start
    · rw [if_pos h1] at h
      obtain ⟨k, hk, rfl⟩ := map_ok h
      obtain ⟨i1, i2⟩ := ih hk
      have ho : OutsideOf range e := .inl h1
      rw [List.filter_cons_of_pos (by simpa using ho)]
      refine ⟨by simp [i1], ?_⟩
      intro p hp
      simp only [List.zip_cons_cons, List.mem_cons] at hp
      rcases hp with rfl | hp
      · simp [Moved, h1]
      · exact i2 p hp
    · rw [if_neg h1] at h
      by_cases h2 : range.stop ≤ e.range.start
      · rw [if_pos h2] at h
        cases hn : edit.offset with
        | none => rw [hn] at h; simp at h
        | some n =>
          rw [hn] at h
          obtain ⟨k, hk, rfl⟩ := map_ok h
          obtain ⟨i1, i2⟩ := ih hk
          have ho : OutsideOf range e := .inr h2
          rw [List.filter_cons_of_pos (by simpa using ho)]
          refine ⟨by simp [i1], ?_⟩
          intro p hp
          simp only [List.zip_cons_cons, List.mem_cons] at hp
          rcases hp with rfl | hp
          · simp only [Indel.offset] at hn
            split at hn
            · simp only [Option.some.injEq] at hn
              simp only [Moved, if_neg h1, Range.shift]
              refine ⟨trivial, ?_, ?_⟩ <;> omega
            · simp at hn
          · exact i2 p hp
      · rw [if_neg h2] at h
        have ho : ¬ OutsideOf range e := by rintro (h | h) <;> contradiction
        rw [List.filter_cons_of_neg (by simpa using ho)]
        exact ih h


private theorem attach_start : ∀ (ls : List Lexeme) (n : Nat), ∀ e ∈ (attach n ls).filterMap (·.2), n ≤ e.range.start := by
  intro ls
  induction ls with
  | nil => intro n e he; simp [attach] at he
  | cons x xs ih =>
    intro n e he
    simp only [attach, List.mem_filterMap, List.mem_cons] at he
    obtain ⟨a, ha | ha, he⟩ := he
    · subst ha
      simp only [Option.map_eq_some_iff] at he
      obtain ⟨m, _, rfl⟩ := he
      simp [Range.ofLen]
    · have := ih (n + x.word.len) e (List.mem_filterMap.2 ⟨a, ha, he⟩)
      omega

private theorem first_errors {w : Text} {t : Token} {err : Option SyntaxError}
    (h : firstToken w = .ok (some (t, err))) : ErrorsOf w err.toList ∧ ∀ e ∈ err.toList, RangeOf w e.range := by
  obtain ⟨ls, hl⟩ := lexemes_exists w
  have hl' := hl
  cases hl with
  | nil => simp [firstToken] at h
  | @cons _ l' rest' ls h1 h2 =>
    rw [firstToken_eq h1] at h
    simp only [Except.ok.injEq, Option.some.injEq, Prod.mk.injEq] at h
    obtain ⟨rfl, rfl⟩ := h
    have hpos : 0 < l'.word.len := by
      exact Text.len_pos (s := l'.word) h1.word_ne
    have hnil : ((attach (0 + l'.word.len) ls).filterMap (·.2)).filter (fun e => decide (e.range.start = 0)) = [] := by
      rw [List.filter_eq_nil_iff]
      intro e he
      have := attach_start _ _ e he
      simp; omega
    refine ⟨.inl ⟨_, _, tokenize_eq (.cons h1 h2), ?_⟩, ?_⟩
    · cases he : l'.err with
      | none => simp only [attach, he, Option.map_none, List.filterMap_cons_none, hnil]; rfl
      | some m =>
        simp only [attach, he, Option.map_some, Option.toList]
        rw [show ∀ (p : Token) (e : SyntaxError) (xs : List (Token × Option SyntaxError)),
          List.filterMap (fun x => x.2) ((p, some e) :: xs) = e :: List.filterMap (fun x => x.2) xs from
            fun _ _ _ => by simp, List.filter_cons_of_pos (by simp [Range.ofLen]), hnil]
        simp [Range.upTo, Range.ofLen]
    · intro e he
      cases hm : l'.err with
      | none => simp [hm] at he
      | some m =>
        simp [hm] at he
        subst he
        have := h1.append
        exact ⟨by simp [Range.upTo], by rw [this, Text.len_append]; simp [Range.upTo],
          ⟨[], w, rfl, rfl⟩, ⟨l'.word, rest', this, rfl⟩⟩

private theorem block_errors {w : Text} {tokens : List Token} {lexErrors parseErrors : List SyntaxError} {green : Green}
    (ht : tokenize w = .ok (tokens, lexErrors)) (hp : parseBlock w tokens = .ok (green, parseErrors)) :
    ∀ e ∈ parseErrors ++ lexErrors, RangeOf w e.range := by
  obtain ⟨ls, hl⟩ := lexemes_exists w
  rw [tokenize_eq hl] at ht
  simp only [Except.ok.injEq, Prod.mk.injEq] at ht
  obtain ⟨rfl, rfl⟩ := ht
  obtain ⟨ts, rest, _, _, _, _, h5⟩ := parseBlock_main hl
  rw [hp] at h5
  obtain ⟨hw, ht, _⟩ := lexemes_lx hl
  split at h5
  · simp only [Except.ok.injEq, Prod.mk.injEq] at h5
    obtain ⟨_, rfl⟩ := h5
    intro e he
    rcases List.mem_append.1 he with he | he
    · obtain ⟨a, b, h2, h3, h4⟩ := placeL_errs w.len ts (afterTriv (ls.map lxOf)) e he
      have := rangeOf_suffix h2 (h3.trans (List.dropWhile_suffix _))
      rw [h4]
      rw [hw] at this
      simpa [wlen, hw] using this
    · have h2 := C05_errors_are_token_ranges (tokenize_eq hl)
      have h3 := h2.subset (List.mem_map_of_mem he)
      rw [← ht] at h3
      have := tokenRanges_rangeOf [] (ls.map lxOf) e.range (by simpa using h3)
      simpa [hw] using this
  · simp at h5

/-- an element whose text was replaced -/
private theorem element_range {tree : Green} {r : Red} (hin : InTree tree r) {edit : Indel} {w : Text}
    (hw : textAfterEdit r edit = .ok w) : ∃ A B O, tree.text = A ++ O ++ B ∧ edit.apply tree.text = some (A ++ w ++ B) ∧
      r.range = ⟨A.len, A.len + O.len⟩ := by
  obtain ⟨a, b, hc, ho⟩ := hin
  exact ⟨wordsOf a, wordsOf b, r.green.text, by rw [hc.text], textAfterEdit_spec hc ho hw, InTree.range hc ho⟩

/-- **C77** The errors after a reparse that is not a full parse: there is a part of the text that contains the edit (with
text `O` before and `w` after it) such that the errors are the old ones outside that part, in the same order and at the
same characters, followed by the errors found in the new text of the part, at their place. -/
theorem C77_reparse_errors (tree tree' : Green) (errors errors' : List SyntaxError) (edit : Indel)
    (h : reparse tree errors edit = .ok (tree', errors')) :
    Reparse.full tree edit = .ok (tree', errors') ∨
    ∃ A O B w r kept found, tree.text = A ++ O ++ B ∧ edit.apply tree.text = some (A ++ w ++ B) ∧
      r = (⟨A.len, A.len + O.len⟩ : Range) ∧ r.containsRange edit.delete = true ∧
      errors' = kept ++ found.map (movedBy A.len) ∧
      kept.length = (errors.filter (OutsideOf r ·)).length ∧
      (∀ p ∈ (errors.filter (OutsideOf r ·)).zip kept, Moved r edit p.1 p.2) ∧
      ErrorsOf w found ∧ ∀ e ∈ found, RangeOf w e.range := by
  have merge : ∀ {r : Red} {w : Text} {es : List SyntaxError}, InTree tree r → textAfterEdit r edit = .ok w →
      r.range.containsRange edit.delete = true →
      mergeErrors errors es r.range edit = .ok errors' → ErrorsOf w es → (∀ e ∈ es, RangeOf w e.range) →
      ∃ A O B w r kept found, tree.text = A ++ O ++ B ∧ edit.apply tree.text = some (A ++ w ++ B) ∧
      r = (⟨A.len, A.len + O.len⟩ : Range) ∧ r.containsRange edit.delete = true ∧
      errors' = kept ++ found.map (movedBy A.len) ∧
      kept.length = (errors.filter (OutsideOf r ·)).length ∧
      (∀ p ∈ (errors.filter (OutsideOf r ·)).zip kept, Moved r edit p.1 p.2) ∧
      ErrorsOf w found ∧ ∀ e ∈ found, RangeOf w e.range := by
    intro r w es hin hw hcon hm he hr
    obtain ⟨A, B, O, e1, e2, e3⟩ := element_range hin hw
    obtain ⟨kept, hk, hm⟩ := map_ok hm
    obtain ⟨k1, k2⟩ := keepErrors_spec hk
    refine ⟨A, O, B, w, r.range, kept, es, e1, e2, e3, hcon, ?_, k1, k2, he, hr⟩
    rw [← hm, e3]
    rfl
  unfold reparse at h
  obtain ⟨o, h1, h⟩ := bind_ok h
  unfold incremental at h1
  obtain ⟨rt, h2, h1⟩ := bind_ok h1
  cases rt with
  | some res =>
    obtain ⟨green, newErrors, range⟩ := res
    simp only at h1
    obtain ⟨merged, hm, h3⟩ := map_ok h1
    subst h3
    simp only [Except.ok.injEq, Prod.mk.injEq] at h
    obtain ⟨rfl, rfl⟩ := h
    right
    unfold reparseToken at h2
    obtain ⟨⟨token, above⟩, c1, h2⟩ := bind_ok h2
    simp only at h2
    split at h2
    · simp at h2
    split at h2
    · simp at h2
    obtain ⟨nl, _, h2⟩ := bind_ok h2
    split at h2
    · simp at h2
    obtain ⟨newText, hw, h2⟩ := bind_ok h2
    obtain ⟨ft, hft, h2⟩ := bind_ok h2
    cases ft with
    | none => simp at h2
    | some pr =>
      obtain ⟨newToken, err⟩ := pr
      simp only at h2
      split at h2
      · simp at h2
      obtain ⟨green', h5, h6⟩ := map_ok h2
      simp only [Option.some.injEq, Prod.mk.injEq] at h6
      obtain ⟨_, rfl, rfl⟩ := h6
      obtain ⟨hin, _, hcon, _⟩ := covering_inTree c1
      obtain ⟨f1, f2⟩ := first_errors hft
      exact merge hin hw hcon hm f1 f2
  | none =>
    simp only at h1
    obtain ⟨rb, h3, h1⟩ := bind_ok h1
    cases rb with
    | none =>
      simp only [Except.ok.injEq] at h1
      subst h1
      exact .inl h
    | some res =>
      obtain ⟨green, newErrors, range⟩ := res
      simp only at h1
      obtain ⟨merged, hm, h4⟩ := map_ok h1
      subst h4
      simp only [Except.ok.injEq, Prod.mk.injEq] at h
      obtain ⟨rfl, rfl⟩ := h
      right
      unfold reparseBlock at h3
      obtain ⟨on, g1, h3⟩ := bind_ok h3
      cases on with
      | none => simp at h3
      | some node =>
        simp only at h3
        obtain ⟨text, hw, h3⟩ := bind_ok h3
        obtain ⟨⟨tokens, lexErrs⟩, ht, h3⟩ := bind_ok h3
        simp only at h3
        split at h3
        · simp at h3
        obtain ⟨⟨green2, perrs⟩, hp, h3⟩ := bind_ok h3
        obtain ⟨newTree, h5, h6⟩ := map_ok h3
        simp only [Option.some.injEq, Prod.mk.injEq] at h6
        obtain ⟨_, rfl, rfl⟩ := h6
        have hin : InTree tree node ∧ node.range.containsRange edit.delete = true := by
          unfold reparsableNode at g1
          obtain ⟨⟨el, above⟩, h7, h8⟩ := map_ok g1
          simp only at h8
          obtain ⟨i1, i2, i3, i4⟩ := covering_inTree h7
          have := List.mem_of_find?_eq_some h8
          split at this
          · rcases List.mem_cons.1 this with e | e
            · rw [e]; exact ⟨i1, i3⟩
            · exact ⟨(i2 _ e).1, i4 _ e⟩
          · exact ⟨(i2 _ this).1, i4 _ this⟩
        exact merge hin.1 hw hin.2 hm (.inr ⟨_, _, _, _, ht, hp, rfl⟩) (block_errors ht hp)

private theorem boundary_before {A O w B : Text} {o : Nat} (h : Boundary (A ++ O ++ B) o) (ho : o ≤ A.len) :
    Boundary (A ++ w ++ B) o := by
  rw [List.append_assoc] at h ⊢
  obtain ⟨a, b, h1, h2⟩ := h
  rcases List.append_eq_append_iff.1 h1 with ⟨q, q1, q2⟩ | ⟨q, q1, q2⟩
  · have : q = [] := by
      cases q with
      | nil => rfl
      | cons c cs =>
        have := Text.len_pos (s := c :: cs) (by simp)
        rw [q1, Text.len_append] at h2
        omega
    subst this
    exact ⟨A, w ++ B, rfl, by rw [← h2, q1]; simp⟩
  · exact ⟨a, q ++ (w ++ B), by rw [q1]; simp, h2⟩

private theorem boundary_after {A O w B : Text} {o o' : Nat} (h : Boundary (A ++ O ++ B) o) (ho : A.len + O.len ≤ o)
    (he : o' + O.len = o + w.len) : Boundary (A ++ w ++ B) o' := by
  obtain ⟨a, b, h1, h2⟩ := h
  rcases List.append_eq_append_iff.1 h1 with ⟨q, q1, q2⟩ | ⟨q, q1, q2⟩
  · rw [q1] at h2
    simp only [Text.len_append] at h2
    exact ⟨A ++ w ++ q, b, by rw [q2]; simp, by simp; omega⟩
  · have : q = [] := by
      cases q with
      | nil => rfl
      | cons c cs =>
        have := Text.len_pos (s := c :: cs) (by simp)
        have := congrArg Text.len q1
        simp only [Text.len_append] at this
        omega
    subst this
    have := congrArg Text.len q1
    simp only [Text.len_append, List.append_nil] at this
    exact ⟨A ++ w, B, rfl, by simp; omega⟩

/-- **C06** after a reparse: if the old errors had ranges of the old text then the new ones have ranges of the edited
text (a full parse is `C06_error_ranges` and `C07`). -/
theorem C06_reparse_ranges (tree tree' : Green) (errors errors' : List SyntaxError) (edit : Indel) (text' : Text)
    (he : edit.apply tree.text = some text') (hold : ∀ e ∈ errors, RangeOf tree.text e.range)
    (h : reparse tree errors edit = .ok (tree', errors')) :
    Reparse.full tree edit = .ok (tree', errors') ∨ ∀ e ∈ errors', RangeOf text' e.range := by
  rcases C77_reparse_errors tree tree' errors errors' edit h with h | h
  · exact .inl h
  · right
    obtain ⟨A, O, B, w, r, kept, found, e1, e2, rfl, e4, e5, e6, e7, _, e9⟩ := h
    rw [e2] at he
    simp only [Option.some.injEq] at he
    subst he
    rw [e1] at hold
    obtain ⟨X, D, Y, x1, x2, x3, x4⟩ := indel_apply_iff.1
      (show Indel.apply ⟨edit.insert, edit.delete⟩ tree.text = some (A ++ w ++ B) from e2)
    have hlen : w.len + (edit.delete.stop - edit.delete.start) = O.len + edit.insert.len := by
      have l1 := congrArg Text.len x1
      have l2 := congrArg Text.len x2
      rw [e1] at l1
      simp only [Text.len_append] at l1 l2
      omega
    intro e he
    rw [e5] at he
    rcases List.mem_append.1 he with he | he
    · obtain ⟨i, hi, rfl⟩ := List.getElem_of_mem he
      have hi' : i < (errors.filter (OutsideOf ⟨A.len, A.len + O.len⟩ ·)).length := by omega
      have hz : ((errors.filter (OutsideOf ⟨A.len, A.len + O.len⟩ ·))[i], kept[i]) ∈
          (errors.filter (OutsideOf ⟨A.len, A.len + O.len⟩ ·)).zip kept := by
        refine List.mem_of_getElem (i := i) (h := by simp; omega) ?_
        simp
      have hm := e7 _ hz
      have hmem := List.getElem_mem hi'
      generalize (errors.filter (OutsideOf ⟨A.len, A.len + O.len⟩ ·))[i] = e0 at hm hmem
      generalize kept[i] = e0' at hm
      obtain ⟨hm1, hm2⟩ := List.mem_filter.1 hmem
      simp only [decide_eq_true_eq] at hm2
      obtain ⟨r1, r2, r3, r4⟩ := hold _ hm1
      simp only [Moved] at hm
      split at hm
      · rename_i hb
        subst hm
        refine ⟨r1, ?_, boundary_before r3 (by omega), boundary_before r4 hb⟩
        simp only [Text.len_append]; omega
      · rename_i hb
        have ha : A.len + O.len ≤ e0.range.start := by
          rcases hm2 with hm2 | hm2
          · exact absurd hm2 hb
          · exact hm2
        obtain ⟨_, m2, m3⟩ := hm
        simp only [Text.len_append] at r2
        refine ⟨by omega, by simp only [Text.len_append]; omega, ?_, ?_⟩
        · exact boundary_after r3 ha (by omega)
        · exact boundary_after r4 (by omega) (by omega)
    · obtain ⟨e0, h0, rfl⟩ := List.mem_map.1 he
      obtain ⟨r1, r2, ⟨a, b, r3, r4⟩, ⟨c, d, r5, r6⟩⟩ := e9 e0 h0
      refine ⟨by simp [movedBy]; omega, by simp [movedBy]; omega, ?_, ?_⟩
      · exact ⟨A ++ a, b ++ B, by rw [r3]; simp, by simp [movedBy]; omega⟩
      · exact ⟨A ++ c, d ++ B, by rw [r5]; simp, by simp [movedBy]; omega⟩

/-- the tree of `aa <name> c` -/
private def threeNames (w : Text) : Green := .node .sourceFile [.node .block [
    .node .exprStmt [.node .multivalExpr [.node .nameRef [.token .ident "aa".toList]]], .token .whitespace " ".toList,
    .node .exprStmt [.node .multivalExpr [.node .nameRef [.token .ident w]]], .token .whitespace " ".toList,
    .node .exprStmt [.node .multivalExpr [.node .nameRef [.token .ident "c".toList]]]]]

/-- the two errors of an expression statement that is not a call -/
private def noCall (a b : Nat) : List SyntaxError :=
  [⟨"Expression statements can only be call expressions", ⟨a, b⟩⟩, ⟨"Expected a call expression", ⟨a, b⟩⟩]

/-- A case of C77 with errors before, in and behind the part that is parsed again: `b` in `aa b c` becomes `bx`; the errors
of `aa` stay, those of `b` are dropped (the full parse would report them again), those of `c` move. -/
example : sourceFileParse "aa b c".toList = .ok (threeNames "b".toList, noCall 0 2 ++ noCall 3 4 ++ noCall 5 6) ∧
    Indel.apply ⟨['x'], ⟨4, 4⟩⟩ "aa b c".toList = some "aa bx c".toList ∧
    reparse (threeNames "b".toList) (noCall 0 2 ++ noCall 3 4 ++ noCall 5 6) ⟨['x'], ⟨4, 4⟩⟩ =
      .ok (threeNames "bx".toList, noCall 0 2 ++ noCall 6 7) := by
  refine ⟨?_, by decide +kernel, ?_⟩
  · rw [sourceFileParse_eq_eval]; decide +kernel
  · simp only [reparse, incremental, reparseBlock, parseBlock, blockKinds_eval, full, sourceFileParse_eq_eval]
    decide +kernel

end Verif
