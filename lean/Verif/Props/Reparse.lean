import Verif.Proof.BlockPlace
import Verif.Props.Walk

/-
C22 and C23: parsing again after an edit.
-/
namespace Verif
open Spec PTree Lexer Lua Reparse

/-! ### C23: the text -/

private theorem bind_ok {ε α β} {x : Except ε α} {f : α → Except ε β} {b : β} (h : x.bind f = .ok b) :
    ∃ a, x = .ok a ∧ f a = .ok b := by
  cases x with
  | error e => simp [Except.bind] at h
  | ok a => exact ⟨a, rfl, h⟩

private theorem map_ok {ε α β} {x : Except ε α} {f : α → β} {b : β} (h : x.map f = .ok b) :
    ∃ a, x = .ok a ∧ f a = b := by
  cases x with
  | error e => simp [Except.map] at h
  | ok a => exact ⟨a, rfl, by simpa [Except.map] using h⟩

theorem covering_inTree {tree : Green} {range : Range} {el : Red} {above : List Red}
    (h : Red.coveringElement tree range = .ok (el, above)) : InTree tree el ∧ (∀ p ∈ above, InTree tree p ∧ p.green.isNode = true) ∧
      el.range.containsRange range = true ∧ ∀ p ∈ above, p.range.containsRange range = true := by
  obtain ⟨el', above', e1, e2, e3, e4, _⟩ := coveringElement_spec tree range (coveringElement_range h)
  rw [h] at e1
  simp only [Except.ok.injEq, Prod.mk.injEq] at e1
  obtain ⟨rfl, rfl⟩ := e1
  exact ⟨e2.inTree.1, e2.inTree.2, e4, e3⟩

/-- reparsing a token keeps the text -/
private theorem reparseToken_text {tree tree' : Green} {edit : Indel} {es : List SyntaxError} {range : Range}
    (h : reparseToken tree edit = .ok (some (tree', es, range))) : edit.apply tree.text = some tree'.text := by
  unfold reparseToken at h
  obtain ⟨⟨token, above⟩, h1, h⟩ := bind_ok h
  simp only at h
  split at h
  · simp at h
  split at h
  · simp at h
  obtain ⟨nl, _, h⟩ := bind_ok h
  split at h
  · simp at h
  obtain ⟨newText, h3, h⟩ := bind_ok h
  obtain ⟨ft, h4, h⟩ := bind_ok h
  cases ft with
  | none => simp at h
  | some p =>
    obtain ⟨newToken, err⟩ := p
    simp only at h
    split at h
    · simp at h
    obtain ⟨green, h5, h6⟩ := map_ok h
    simp only [Option.some.injEq, Prod.mk.injEq] at h6
    obtain ⟨⟨a, b, hc, ho⟩, _⟩ := covering_inTree h1
    rw [textAfterEdit_spec hc ho h3]
    unfold Green.replaceWith at h5
    split at h5
    · simp only [Except.ok.injEq] at h5
      rw [← h6.1, ← h5, (hc.replace _).text]
      rfl
    · simp at h5

/-- A text whose first token that is not whitespace or a comment ends a block. -/
def StartsWithBlockEnd (s : Text) : Prop :=
  ∃ tokens errors, tokenize s = .ok (tokens, errors) ∧
    ∃ k, (sourceKinds tokens).head? = some k ∧ k ∈ [SyntaxKind.endKw, .elseKw, .elseifKw, .untilKw]

private theorem lexemes_suffix {s : Text} {ls : List Lexeme} (h : Lexemes s ls) : ∀ {a b : List Lx}, ls.map lxOf = a ++ b →
    ∃ lb, Lexemes (wordsOf b) lb ∧ lb.map lxOf = b := by
  induction h with
  | nil =>
    intro a b e
    have : b = [] := by
      have := congrArg List.length e
      simp at this
      exact List.length_eq_zero_iff.1 (by omega)
    subst this
    exact ⟨[], .nil, rfl⟩
  | @cons s l rest ls h1 h2 ih =>
    intro a b e
    cases a with
    | nil =>
      simp only [List.nil_append] at e
      refine ⟨l :: ls, ?_, e⟩
      have hh : Lexemes s (l :: ls) := .cons h1 h2
      have := (lexemes_lx hh).1
      rw [e] at this
      rw [this]; exact hh
    | cons x xs =>
      simp only [List.map_cons, List.cons_append, List.cons.injEq] at e
      exact ih e.2

private theorem getLast_lx {ls : List Lexeme} (h : isBalanced ((attach 0 ls).map (·.1)) = true) :
    ∃ l, (ls.map lxOf).getLast? = some l ∧ l.1 = .endKw := by
  unfold isBalanced at h
  rw [attach_tokens] at h
  rw [List.getLast?_map] at h ⊢
  cases hl : ls.getLast? with
  | none => rw [hl] at h; simp at h
  | some l => rw [hl] at h; exact ⟨lxOf l, rfl, by simpa [lxOf] using h⟩

/-- reparsing a block keeps the text up to a lost part -/
theorem reparseBlock_text {tree tree' : Green} {edit : Indel} {es : List SyntaxError} {range : Range}
    (h : reparseBlock tree edit = .ok (some (tree', es, range))) :
    ∃ a lost b, edit.apply tree.text = some (a ++ lost ++ b) ∧ tree'.text = a ++ b ∧
      (lost = [] ∨ StartsWithBlockEnd lost) := by
  unfold reparseBlock at h
  obtain ⟨on, h1, h⟩ := bind_ok h
  cases on with
  | none => simp at h
  | some node =>
    simp only at h
    obtain ⟨text, h2, h⟩ := bind_ok h
    obtain ⟨⟨tokens, lexErrs⟩, h3, h⟩ := bind_ok h
    simp only at h
    split at h
    · simp at h
    rename_i hbal
    obtain ⟨⟨green, perrs⟩, h4, h⟩ := bind_ok h
    obtain ⟨newTree, h5, h6⟩ := map_ok h
    simp only [Option.some.injEq, Prod.mk.injEq] at h6
    have hin : InTree tree node := by
      unfold reparsableNode at h1
      obtain ⟨⟨el, above⟩, h7, h8⟩ := map_ok h1
      simp only at h8
      obtain ⟨i1, i2, _⟩ := covering_inTree h7
      have := List.mem_of_find?_eq_some h8
      split at this
      · rcases List.mem_cons.1 this with e | e
        · rw [e]; exact i1
        · exact (i2 _ e).1
      · exact (i2 _ this).1
    obtain ⟨a, b, hc, ho⟩ := hin
    obtain ⟨ls, hl⟩ := lexemes_exists text
    rw [tokenize_eq hl] at h3
    simp only [Except.ok.injEq, Prod.mk.injEq] at h3
    obtain ⟨rfl, rfl⟩ := h3
    obtain ⟨ts, rest, g1, g2, _, g4, g5⟩ := parseBlock_main hl
    rw [h4] at g5
    split at g5
    · rename_i hlead
      simp only [Except.ok.injEq, Prod.mk.injEq] at g5
      obtain ⟨rfl, rfl⟩ := g5
      have hat : afterTriv (ls.map lxOf) = ls.map lxOf := by
        have := List.takeWhile_append_dropWhile (p := isTriv) (l := ls.map lxOf)
        simp only [lead, List.map_eq_nil_iff] at hlead
        rw [hlead] at this
        simpa [afterTriv] using this
      rw [hat] at h5 g4
      have hpl := placeL_leaves text.len ts (ls.map lxOf)
      have hpt := placeL_text text.len ts (ls.map lxOf)
      have hw := (lexemes_lx hl).1
      rw [hw] at hpt
      refine ⟨wordsOf a ++ Green.textL (placeL text.len ts (ls.map lxOf)).greens,
        wordsOf (placeL text.len ts (ls.map lxOf)).rest, wordsOf b, ?_, ?_, ?_⟩
      · rw [textAfterEdit_spec hc ho h2, List.append_assoc (wordsOf a) (Green.textL _), hpt]
      · rw [← h6.1]
        unfold Green.replaceWith at h5
        split at h5
        · simp only [Except.ok.injEq] at h5
          rw [← h5, (hc.replace _).text]
          simp [Green.text]
        · simp at h5
      · by_cases hr : (placeL text.len ts (ls.map lxOf)).rest = []
        · left; rw [hr]; rfl
        · right
          obtain ⟨lb, hlb, elb⟩ := lexemes_suffix hl hpl.symm
          refine ⟨_, _, tokenize_eq hlb, ?_⟩
          have hk : sourceKinds ((attach 0 lb).map (·.1)) = rest := by
            rw [← (lexemes_lx hlb).2.1, sourceKinds_toksOf, elb, g4]
          rw [hk]
          obtain ⟨l, hlast, hle⟩ := getLast_lx (by simpa using hbal)
          have hmem : l ∈ (placeL text.len ts (ls.map lxOf)).rest := by
            rw [← hpl, List.getLast?_append] at hlast
            cases hgl : (placeL text.len ts (ls.map lxOf)).rest.getLast? with
            | none => rw [List.getLast?_eq_none_iff] at hgl; exact absurd hgl hr
            | some x =>
              rw [hgl] at hlast
              simp at hlast
              rw [← hlast]
              exact List.mem_of_getLast? hgl
          have hne : rest ≠ [] := by
            rw [← g4]
            intro hnil
            simp only [realKinds, List.map_eq_nil_iff, List.filter_eq_nil_iff] at hnil
            have := hnil l hmem
            simp [isTriv, hle, SyntaxKind.isTrivia] at this
          cases rest with
          | nil => exact absurd rfl hne
          | cons k ks =>
            refine ⟨k, rfl, ?_⟩
            have hkne : k ≠ .eof := by
              have : k ∈ realKinds (placeL text.len ts (ls.map lxOf)).rest := by rw [g4]; simp
              simp only [realKinds, List.mem_map] at this
              obtain ⟨l', hl', e⟩ := this
              rw [← e]
              refine (lexemes_lx hl).2.2.2 l' ?_
              rw [← hpl]
              exact List.mem_append_right _ (List.mem_filter.1 hl').1
            simp only [Grammar.BLOCK_END, la, TokenSet.contains_new] at g2
            simp at g2 ⊢
            simp [hkne] at g2
            rcases g2 with h | h | h | h <;> simp [h]
    · simp at g5

/-- **C23** up to a lost part (missing: when a block is reparsed the part of its new text from an unmatched end of block on
is lost): the text of the tree after `reparse` is the edited text, except for a part that starts with a keyword that
ends a block. -/
theorem C23_text_partial (tree tree' : Green) (errors errors' : List SyntaxError) (edit : Indel)
    (h : reparse tree errors edit = .ok (tree', errors')) :
    ∃ a lost b, edit.apply tree.text = some (a ++ lost ++ b) ∧ tree'.text = a ++ b ∧
      (lost = [] ∨ StartsWithBlockEnd lost) := by
  unfold reparse at h
  obtain ⟨r, h1, h⟩ := bind_ok h
  unfold incremental at h1
  obtain ⟨rt, h2, h1⟩ := bind_ok h1
  cases rt with
  | some res =>
    obtain ⟨green, newErrors, range⟩ := res
    simp only at h1
    obtain ⟨merged, _, h3⟩ := map_ok h1
    subst h3
    simp only [Except.ok.injEq, Prod.mk.injEq] at h
    have := reparseToken_text h2
    refine ⟨tree'.text, [], [], ?_, by simp, .inl rfl⟩
    rw [this, h.1]; simp
  | none =>
    simp only at h1
    obtain ⟨rb, h3, h1⟩ := bind_ok h1
    cases rb with
    | some res =>
      obtain ⟨green, newErrors, range⟩ := res
      simp only at h1
      obtain ⟨merged, _, h4⟩ := map_ok h1
      subst h4
      simp only [Except.ok.injEq, Prod.mk.injEq] at h
      obtain ⟨rfl, _⟩ := h
      exact reparseBlock_text h3
    | none =>
      simp only [Except.ok.injEq] at h1
      subst h1
      simp only [full] at h
      cases hap : edit.apply tree.text with
      | none => rw [hap] at h; simp at h
      | some text' =>
        rw [hap] at h
        simp only at h
        obtain ⟨t, es, e1, e2, _⟩ := C08_source_file_parse_total text'
        rw [h] at e1
        simp only [Except.ok.injEq, Prod.mk.injEq] at e1
        refine ⟨text', [], [], by simp, ?_, .inl rfl⟩
        rw [e1.1, e2]; simp

/-! ### C23: no panic -/

private theorem Chain.belowRoot {g : Green} : ∀ {ps : List Red} {r : Red}, Chain g r ps → r.green.isNode = true →
    Below (Red.root g) r := by
  intro ps
  induction ps with
  | nil => intro r h _; rw [show r = Red.root g from h]; exact .self
  | cons p ps ih =>
    intro r h hr
    obtain ⟨h1, h2, h3⟩ := h
    exact .child (ih h3 h2) (List.mem_filter.2 ⟨h1, hr⟩)

private theorem Chain.belowAll {g : Green} : ∀ {ps : List Red} {r : Red}, Chain g r ps → ∀ p ∈ ps, Below (Red.root g) p := by
  intro ps
  induction ps with
  | nil => intro r _ p hp; simp at hp
  | cons p ps ih =>
    intro r h q hq
    obtain ⟨h1, h2, h3⟩ := h
    rcases List.mem_cons.1 hq with rfl | hq
    · exact h3.belowRoot h2
    · exact ih h3 q hq

/-- A text whose first token is whitespace or a comment. -/
def StartsWithTrivia (s : Text) : Prop :=
  ∃ (tokens : List Token) (errors : List SyntaxError) (t : Token), tokenize s = .ok (tokens, errors) ∧
    tokens.head? = some t ∧ t.kind ∈ [SyntaxKind.whitespace, .comment]

theorem lead_nil {s : Text} {ls : List Lexeme} (h : Lexemes s ls) (hs : ¬ StartsWithTrivia s) :
    lead (ls.map lxOf) = [] := by
  cases ls with
  | nil => rfl
  | cons l ls =>
    simp only [lead, List.map_cons, List.map_eq_nil_iff]
    rw [List.takeWhile_cons]
    split
    · rename_i ht
      exfalso
      refine hs ⟨_, _, ⟨l.kind, l.word.len⟩, tokenize_eq h, by simp [attach], ?_⟩
      simp only [isTriv, lxOf] at ht
      revert ht
      cases l.kind <;> simp [SyntaxKind.isTrivia]
    · rfl

theorem deletesNewline_total {el : Red} {edit : Indel} {newText : Text}
    (hn : textAfterEdit el edit = .ok newText) : ∃ b, deletesNewline el edit = .ok b := by
  unfold deletesNewline
  split
  · unfold textAfterEdit at hn
    cases hu : edit.delete.unshift el.range.start with
    | error => rw [hu] at hn; simp [Except.bind] at hn
    | ok d =>
      rw [hu] at hn
      simp only [Except.bind] at hn ⊢
      cases hap : Indel.apply ⟨edit.insert, d⟩ el.green.text with
      | none => rw [hap] at hn; simp at hn
      | some u =>
        obtain ⟨X, D, Y, e1, e2, e3, e4⟩ := indel_apply_iff.1 hap
        have := Text.slice_append X D Y
        rw [e4, e3, ← e1] at this
        rw [this]
        exact ⟨_, rfl⟩
  · exact ⟨_, rfl⟩

theorem mergeErrors_total {old new : List SyntaxError} {range : Range} {edit : Indel}
    (h : old = [] ∨ edit.delete.stop - edit.delete.start ≤ edit.insert.len) : ∃ m, mergeErrors old new range edit = .ok m := by
  have : ∃ m, keepErrors range edit old = .ok m := by
    rcases h with rfl | h
    · exact ⟨[], rfl⟩
    · induction old with
      | nil => exact ⟨[], rfl⟩
      | cons e es ih =>
        obtain ⟨m, hm⟩ := ih
        simp only [keepErrors, Indel.offset, if_pos h, hm]
        split
        · exact ⟨_, rfl⟩
        · split
          · exact ⟨_, rfl⟩
          · exact ⟨_, rfl⟩
  obtain ⟨m, hm⟩ := this
  exact ⟨_, by rw [mergeErrors, hm]; rfl⟩

/-- **C23**, no panic (missing: an edit that shortens a text with errors, and a block that begins with whitespace or a
comment after the edit, where `reparse` can panic): `reparse` does not panic. -/
theorem C23_total_partial (tree : Green) (errors : List SyntaxError) (edit : Indel) (text' : Text)
    (he : edit.apply tree.text = some text')
    (herr : errors = [] ∨ edit.delete.stop - edit.delete.start ≤ edit.insert.len)
    (hb : ∀ n, Below (Red.root tree) n → n.kind = .block → n.range.containsRange edit.delete = true →
      ∀ w, text'.slice n.range.start (n.range.stop + edit.insert.len - (edit.delete.stop - edit.delete.start)) = some w →
        ¬ StartsWithTrivia w) :
    ∃ tree' errors', reparse tree errors edit = .ok (tree', errors') := by
  obtain ⟨X, D, Y, x1, x2, x3, x4⟩ := indel_apply_iff.1 (show Indel.apply ⟨edit.insert, edit.delete⟩ tree.text = some text' from he)
  have hroot : (Red.root tree).range.containsRange edit.delete = true := by
    rw [contains_iff]
    simp only [Red.root, Red.range, Green.range, Range.ofLen, Green.len]
    rw [x1]; simp only [Text.len_append]; omega
  obtain ⟨el, above, c1, c2, c3, c4, _⟩ := coveringElement_spec tree edit.delete hroot
  obtain ⟨i1, i2⟩ := c2.inTree
  have htok : ∃ o, reparseToken tree edit = .ok o := by
    unfold reparseToken
    rw [c1]
    simp only [Except.bind]
    split
    · exact ⟨_, rfl⟩
    split
    · exact ⟨_, rfl⟩
    obtain ⟨a, b, hc, ho⟩ := i1
    obtain ⟨newText, d1, _⟩ := textAfterEdit_total hc ho c4 he
    obtain ⟨nl, hnl⟩ := deletesNewline_total d1
    rw [hnl]
    simp only
    split
    · exact ⟨_, rfl⟩
    rw [d1]
    simp only
    obtain ⟨ls, hl⟩ := lexemes_exists newText
    cases hl with
    | nil => exact ⟨_, rfl⟩
    | cons hf _ =>
      rw [firstToken_eq hf]
      simp only
      split
      · exact ⟨_, rfl⟩
      · simp only [Green.replaceWith, Green.kind, if_true, Except.map]
        exact ⟨_, rfl⟩
  obtain ⟨o, ho⟩ := htok
  unfold reparse incremental
  rw [ho]
  simp only [Except.bind]
  cases o with
  | some res =>
    obtain ⟨green, newErrors, range⟩ := res
    obtain ⟨m, hm⟩ := mergeErrors_total (new := newErrors) (range := range) herr
    simp only [hm, Except.map]
    exact ⟨_, _, rfl⟩
  | none =>
    simp only
    have hblk : ∃ o, reparseBlock tree edit = .ok o := by
      unfold reparseBlock reparsableNode
      rw [c1]
      simp only [Except.map, Except.bind]
      cases hfind : (if el.green.isNode then el :: above else above).find? (fun r => r.kind == .block) with
      | none => exact ⟨_, rfl⟩
      | some node =>
        simp only
        have hmem := List.mem_of_find?_eq_some hfind
        have hk : node.kind = .block := by simpa using List.find?_some hfind
        have hfacts : InTree tree node ∧ node.range.containsRange edit.delete = true ∧ Below (Red.root tree) node := by
          split at hmem
          · rename_i hn
            rcases List.mem_cons.1 hmem with e | e
            · rw [e]; exact ⟨i1, c4, c2.belowRoot hn⟩
            · exact ⟨(i2 _ e).1, c3 _ e, c2.belowAll _ e⟩
          · exact ⟨(i2 _ hmem).1, c3 _ hmem, c2.belowAll _ hmem⟩
        obtain ⟨⟨a, b, hc, ho⟩, hcon, hbelow⟩ := hfacts
        obtain ⟨newText, d1, d2⟩ := textAfterEdit_total hc ho hcon he
        rw [d1]
        simp only
        obtain ⟨ls, hl⟩ := lexemes_exists newText
        rw [tokenize_eq hl]
        simp only
        split
        · exact ⟨_, rfl⟩
        obtain ⟨ts, rest, _, _, _, _, g5⟩ := parseBlock_main hl
        have hr := InTree.range hc ho
        have hstart : ¬ StartsWithTrivia newText := by
          refine hb node hbelow hk hcon newText ?_
          have := Text.slice_append (wordsOf a) newText (wordsOf b)
          rw [← d2] at this
          rw [hr]
          rw [hr, contains_iff] at hcon
          simp only at hcon
          have hl1 := congrArg Text.len x1
          have hl2 := congrArg Text.len x2
          rw [hc.text] at hl1
          rw [d2] at hl2
          simp only [Text.len_append] at hl1 hl2
          have e1 : wlen a + node.green.len + edit.insert.len - (edit.delete.stop - edit.delete.start) =
              (wordsOf a).len + newText.len := by
            simp only [wlen, Green.len] at *
            omega
          simp only
          rw [e1]
          exact this
        rw [lead_nil hl hstart, if_pos rfl] at g5
        rw [g5]
        simp only [Green.replaceWith, hk, Green.kind, if_true]
        exact ⟨_, rfl⟩
    obtain ⟨o, hob⟩ := hblk
    rw [hob]
    simp only
    cases o with
    | some res =>
      obtain ⟨green, newErrors, range⟩ := res
      obtain ⟨m, hm⟩ := mergeErrors_total (new := newErrors) (range := range) herr
      simp only [hm, Except.map]
      exact ⟨_, _, rfl⟩
    | none =>
      simp only [full, he]
      obtain ⟨t, es, e1, _⟩ := C08_source_file_parse_total text'
      exact ⟨t, es, e1⟩

/-! ### C22: one token -/

private theorem toksOf_split {lx : List Lx} {tokens : List Token} {i : Nat} {t : Token} (h : toksOf lx = tokens)
    (ht : tokens[i]? = some t) : ∃ pre w post, lx = pre ++ (t.kind, w) :: post ∧ pre.length = i ∧ t.len = w.len ∧
      (tokenRanges 0 tokens)[i]? = some ⟨wlen pre, wlen pre + w.len⟩ := by
  have main : ∀ (lx : List Lx) (i o : Nat), (toksOf lx)[i]? = some t → ∃ pre w post, lx = pre ++ (t.kind, w) :: post ∧
      pre.length = i ∧ t.len = w.len ∧ (tokenRanges o (toksOf lx))[i]? = some ⟨o + wlen pre, o + wlen pre + w.len⟩ := by
    intro lx
    induction lx with
    | nil => intro i o h; simp [toksOf] at h
    | cons x xs ih =>
      intro i o h
      cases i with
      | zero =>
        simp only [toksOf, List.map_cons, List.getElem?_cons_zero, Option.some.injEq] at h
        exact ⟨[], x.2, xs, by simp [← h], rfl, by rw [← h], by simp [toksOf, tokenRanges]⟩
      | succ i =>
        simp only [toksOf, List.map_cons, List.getElem?_cons_succ] at h
        obtain ⟨pre, w, post, e1, e2, e3, e4⟩ := ih i (o + x.2.len) h
        refine ⟨x :: pre, w, post, by rw [e1]; rfl, by simp [e2], e3, ?_⟩
        simp only [toksOf, List.map_cons, tokenRanges, List.getElem?_cons_succ] at e4 ⊢
        rw [e4]
        simp; omega
  subst h
  have := main lx i 0 ht
  simpa using this

/-- The edit `delete` falls on the token with the range `r`: it deletes something of it and nothing else, or it is an
insertion inside the token, or at its end where no node of the tree is empty. -/
def FallsOn (tree : Green) (r delete : Range) : Prop :=
  r.start ≤ delete.start ∧ delete.stop ≤ r.stop ∧
  (delete.start < delete.stop ∨ (delete.start = delete.stop ∧ r.start < delete.start ∧
    (delete.start < r.stop ∨ ∀ n, Below (Red.root tree) n → n.range ≠ delete)))

private theorem under_cases {g : Green} {r d : Red} (hb : Below (Red.root g) r) (hr : r.green.isNode = true) (h : Under r d) :
    Below (Red.root g) d ∨ ∃ k w, d.green = .token k w := by
  induction h with
  | self => exact .inl hb
  | @step r c l hc _ ih =>
    cases hg : c.green with
    | token k w =>
      cases ‹Under c l› with
      | self => exact .inr ⟨k, w, hg⟩
      | step hc' _ => simp [Red.elems, hg, Green.children, Red.elemsFrom] at hc'
    | node k cs =>
      exact ih (.child hb (List.mem_filter.2 ⟨hc, by rw [hg]; rfl⟩)) (by rw [hg]; rfl)

private theorem under_inTree {g : Green} {r d : Red} (hb : InTree g r) (h : Under r d) : InTree g d := by
  induction h with
  | self => exact hb
  | step hc _ ih => exact ih (hb.elem hc)

/-- the covering element of an edit that falls on a token is the token -/
private theorem covering_token {tree : Green} (hroot : tree.isNode = true) {pre post : List Lx} {k : SyntaxKind} {w : Text}
    (hl : tree.leaves = pre ++ (k, w) :: post) (hne : ∀ l ∈ tree.leaves, l.2 ≠ []) {delete : Range}
    (hf : FallsOn tree ⟨wlen pre, wlen pre + w.len⟩ delete) :
    ∃ el above, Red.coveringElement tree delete = .ok (el, above) ∧ el.green = .token k w ∧
      Ctx el.green tree el.path pre post ∧ el.off = wlen pre := by
  obtain ⟨l, h1, h2, h3⟩ := under_leaf [] 0 tree hl
  have hin := under_inTree (inTree_root tree) h1
  have hrange : l.range = ⟨wlen pre, wlen pre + w.len⟩ := by
    simp [Red.range, Green.range, Range.ofLen, h3, h2, Green.len, Green.text]
  obtain ⟨f1, f2, f3⟩ := hf
  simp only at f1 f2 f3
  have hle : delete.start ≤ delete.stop := by omega
  obtain ⟨above, e⟩ := coverLoop_leaf delete (l := l) (by rw [h2]; rfl)
    (by rw [hrange, contains_iff]; exact ⟨f1, f2⟩) hle (r := Red.root tree) (by
      by_cases ho : delete.start < delete.stop ∨ delete.start < wlen pre + w.len
      · left
        rw [hrange]
        simp only [Range.ordering]
        rw [if_neg (by omega), if_neg (by omega)]
      · right
        have hd : delete = ⟨delete.start, delete.start⟩ := by
          have : delete = ⟨delete.start, delete.stop⟩ := rfl
          rw [this, Range.mk.injEq]; simp; omega
        refine ⟨delete.start, hd, by rw [hrange]; simp only; omega, by rw [hrange]; simp only; omega, ?_⟩
        intro d hdu hdr
        rcases under_cases .self hroot hdu with hb | ⟨k', w', hg⟩
        · rcases f3 with h | ⟨_, _, h | h⟩
          · omega
          · omega
          · exact h d hb (by rw [hdr, ← hd])
        · obtain ⟨a, b, hc, _⟩ := under_inTree (inTree_root tree) hdu
          have hmem : (k', w') ∈ tree.leaves := by rw [hc.leaves, hg]; simp [Green.leaves]
          have := Text.len_pos (hne _ hmem)
          simp only [Red.range, Green.range, Range.ofLen, hg, Green.len, Green.text, Range.mk.injEq] at hdr
          simp only at this
          omega) h1 ((tree.nodes 0).length + 2) [] (by
        show tree.count + 1 < _
        simp only [Green.count]; omega)
  refine ⟨l, above, e, h2, ?_⟩
  obtain ⟨a, b, hc, ho⟩ := hin
  have hlv := hc.leaves
  rw [h2] at hlv
  simp only [Green.leaves] at hlv
  rw [hl] at hlv
  have hlen : wlen pre = wlen a := by rw [← ho, h3]; simp
  obtain ⟨rfl, hpost⟩ := prefix_unique (pre := pre) (post := (k, w) :: post) (a := a) (b := (k, w) :: b)
    (by simpa using hlv) (by rw [← hl]; exact hne) hlen
  simp at hpost
  subst hpost
  exact ⟨hc, ho⟩

/-- the facts about an edit that changes one token -/
private theorem token_edit {text text' : Text} {tree : Green} {errors lexErrors lexErrors' : List SyntaxError} {edit : Indel}
    {tokens : List Token} {i : Nat} {t : Token} {n : Nat} {r : Range}
    (hp : sourceFileParse text = .ok (tree, errors)) (he : edit.apply text = some text')
    (htok : tokenize text = .ok (tokens, lexErrors)) (hi : tokens[i]? = some t) (hr : (tokenRanges 0 tokens)[i]? = some r)
    (htok' : tokenize text' = .ok (tokens.set i ⟨t.kind, n⟩, lexErrors')) (hf : FallsOn tree r edit.delete) :
    ∃ el above newText e, Red.coveringElement tree edit.delete = .ok (el, above) ∧ el.kind = t.kind ∧
      el.green.isNode = false ∧ el.range = r ∧ textAfterEdit el edit = .ok newText ∧
      firstToken newText = .ok (some (⟨t.kind, n⟩, e)) ∧ (e.isSome = true → lexErrors' ≠ []) ∧
      (∃ es, sourceFileParse text' = .ok (Green.replaceAt (.token t.kind newText) el.path tree, es)) ∧
      (∃ D, el.green.text.slice (edit.delete.start - r.start) (edit.delete.stop - r.start) = some D ∧
        text.slice edit.delete.start edit.delete.stop = some D) := by
  obtain ⟨ls, ts, more, l1, l2, l3, l4, l5⟩ := sourceFileParse_shape text
  obtain ⟨ls', ts', more', m1, m2, m3, m4, m5⟩ := sourceFileParse_shape text'
  rw [tokenize_eq l1] at htok
  rw [tokenize_eq m1] at htok'
  simp only [Except.ok.injEq, Prod.mk.injEq] at htok htok'
  obtain ⟨htok, rfl⟩ := htok
  obtain ⟨htok', hlex'⟩ := htok'
  obtain ⟨w1, w2, w3, w4⟩ := lexemes_lx l1
  obtain ⟨v1, v2, v3, v4⟩ := lexemes_lx m1
  rw [← w2] at htok
  rw [← v2] at htok'
  obtain ⟨pre, w, post, s1, s2, s3, s4⟩ := toksOf_split htok hi
  rw [s4] at hr
  simp only [Option.some.injEq] at hr
  subst hr
  rw [l5] at hp
  simp only [Except.ok.injEq, Prod.mk.injEq] at hp
  obtain ⟨htree, _⟩ := hp
  have hlv : tree.leaves = ls.map lxOf := by
    rw [← htree]
    simp [Green.leaves, Green.leavesL, placeL_leaves]
  have htext : tree.text = text := by rw [text_leaves, hlv, w1]
  obtain ⟨el, above, c1, c2, c3, c4⟩ := covering_token (by rw [← htree]; rfl) (hlv.trans s1) (by rw [hlv]; exact w3) hf
  have helr : el.range = ⟨wlen pre, wlen pre + w.len⟩ := by
    simp [Red.range, Green.range, Range.ofLen, c4, c2, Green.len, Green.text]
  obtain ⟨newText, d1, d2⟩ := textAfterEdit_total c3 c4
    (by rw [helr, contains_iff]; exact ⟨hf.1, hf.2.1⟩) (by rw [htext]; exact he)
  -- the tokens of the new text
  have hset : tokens.set i ⟨t.kind, n⟩ = toksOf pre ++ ⟨t.kind, n⟩ :: toksOf post := by
    rw [← htok, s1, ← s2]
    have : toksOf (pre ++ (t.kind, w) :: post) = toksOf pre ++ ⟨t.kind, w.len⟩ :: toksOf post := by simp [toksOf]
    rw [this, List.set_append_right _ _ (by simp [toksOf])]
    simp [toksOf]
  rw [hset] at htok'
  obtain ⟨pre', lx2, g1, g2, g3⟩ := List.map_eq_append_iff.1 htok'
  obtain ⟨x, post', g4, g5, g6⟩ := List.map_eq_cons_iff.1 g3
  have hword : wordsOf pre' ++ (x.2 ++ wordsOf post') = wordsOf pre ++ (newText ++ wordsOf post) := by
    rw [← List.append_assoc (wordsOf pre), ← d2, ← v1, g1, g4]; simp
  obtain ⟨rfl, hword2⟩ := lx_inj (by exact g2) hword
  have hx : x.2 = newText ∧ post' = post := by
    have e1 : x.2.len = n := by have := g5; simp at this; exact this.2
    have e2 : wlen post' = wlen post := by
      have : (toksOf post').map (·.len) = (toksOf post).map (·.len) := by rw [show toksOf post' = _ from g6]
      have key : ∀ l : List Lx, wlen l = ((toksOf l).map (·.len)).sum := by
        intro l; induction l with
        | nil => rfl
        | cons y ys ih => simp [toksOf] at ih ⊢; rw [ih]
      rw [key, key, this]
    have e3 : x.2.len = newText.len := by
      have := congrArg Text.len hword2
      simp only [Text.len_append] at this
      simp only [wlen] at e2
      omega
    obtain ⟨e4, e5⟩ := Text.append_inj_len hword2 e3
    have := lx_inj (l1 := post') (l2 := post) (x := []) (y := []) (by exact g6) (by simpa using e5)
    exact ⟨e4, this.1⟩
  obtain ⟨hx1, rfl⟩ := hx
  have hxk : x.1 = t.kind := by have := g5; simp at this; exact this.1
  have hxn : newText.len = n := by rw [← hx1]; have := g5; simp at this; exact this.2
  have hlx' : ls'.map lxOf = pre' ++ (t.kind, newText) :: post' := by
    rw [g1, g4]
    congr 2
    exact Prod.ext hxk hx1
  -- the changed lexeme
  obtain ⟨lpre, lrest, q1, q2, q3⟩ := List.map_eq_append_iff.1 hlx'
  obtain ⟨lm, lpost, q4, q5, q6⟩ := List.map_eq_cons_iff.1 q3
  obtain ⟨s', rest', hfl⟩ := Lexemes.first_of_mem m1 (l := lm) (by rw [q1, q4]; simp)
  obtain ⟨e', hle, hee⟩ := relex_first hfl
  have hw' : lm.word = newText := by have := congrArg Prod.snd q5; exact this
  have hk' : lm.kind = t.kind := by have := congrArg Prod.fst q5; exact this
  have hft : firstToken newText = .ok (some (⟨t.kind, n⟩, e'.map fun e => ⟨e, Range.upTo newText.len⟩)) := by
    rw [hw', hk'] at hle
    cases hle with
    | cons hf' _ =>
      have := firstToken_eq hf'
      rw [this]
      simp [hxn]
  -- the new tree
  have hsame : SameKinds (ls.map lxOf) (ls'.map lxOf) := by
    rw [s1, hlx']; simp [SameKinds]
  have hreal : realKinds (ls.map lxOf) = realKinds (ls'.map lxOf) := by
    rw [s1, hlx']; cases hk : t.kind.isTrivia <;> simp [realKinds, isTriv, List.filter_append, hk]
  have hts : ts = ts' := by
    rw [← hreal] at m2 m3
    exact parseKinds_ts l2 l3 m2 m3
  subst hts
  have hskelrest : ∀ {a b : List Lx}, SameKinds a b → skelL (a.map leaf) = skelL (b.map leaf) := by
    intro a
    induction a with
    | nil => intro b h; cases b with
      | nil => rfl
      | cons => simp [SameKinds] at h
    | cons x xs ih =>
      intro b h
      cases b with
      | nil => simp [SameKinds] at h
      | cons y ys =>
        simp only [SameKinds, List.map_cons, List.cons.injEq] at h
        simp only [List.map_cons, skelL, leaf, skel, h.1]
        rw [ih (b := ys) h.2]
  have hnewtree : Green.replaceAt (.token t.kind newText) el.path tree =
      .node .sourceFile [.node .block ((placeL text'.len ts (ls'.map lxOf)).greens ++
          (placeL text'.len ts (ls'.map lxOf)).rest.map leaf)] := by
    refine (skel_inj (x := []) (x' := []) ?_ ?_).1
    · rw [c3.skel (by rw [c2]; simp [skel]), ← htree]
      obtain ⟨p1, p2⟩ := placeL_skel text.len text'.len ts hsame
      simp [skel, skelL, p1, hskelrest p2]
    · rw [(c3.replace (.token t.kind newText)).leaves]
      simp [Green.leaves, Green.leavesL, placeL_leaves, hlx']
  refine ⟨el, above, newText, _, c1, by rw [Red.kind, c2]; rfl, by rw [c2]; rfl, helr, d1, hft, ?_, ⟨_, m5.trans (by rw [hnewtree])⟩, ?_⟩
  · intro hs hnil
    rw [Option.isSome_map, hee] at hs
    rw [← hlex', q1, q4] at hnil
    have key : ∀ (pos : Nat) (l : List Lexeme), lm ∈ l → (attach pos l).filterMap (·.2) ≠ [] := by
      intro pos l
      induction l generalizing pos with
      | nil => intro h; simp at h
      | cons y ys ih =>
        intro h
        simp only [attach, List.filterMap_cons]
        rcases List.mem_cons.1 h with e | h
        · rw [← e]
          obtain ⟨m, hm⟩ := Option.isSome_iff_exists.1 hs
          simp [hm]
        · cases y.err with
          | none => simpa using ih _ h
          | some m => simp
    exact key 0 _ (by simp) hnil
  · have hrs : (⟨wlen pre', wlen pre' + w.len⟩ : Range).start = wlen pre' := rfl
    simp only [Reparse.textAfterEdit, helr, Range.unshift] at d1
    have hle1 : wlen pre' ≤ edit.delete.start := hf.1
    have hle2 : edit.delete.start ≤ edit.delete.stop := by
      have := hf.2.2; omega
    rw [if_pos ⟨hle1, by omega⟩] at d1
    simp only [Except.bind, c2, Green.text] at d1
    cases hap : Indel.apply ⟨edit.insert, ⟨edit.delete.start - wlen pre', edit.delete.stop - wlen pre'⟩⟩ w with
    | none => rw [hap] at d1; simp at d1
    | some u =>
      obtain ⟨X, D, Y, e1, e2, e3, e4⟩ := indel_apply_iff.1 hap
      simp only at e3 e4
      refine ⟨D, ?_, ?_⟩
      · simp only [c2, Green.text]
        have := Text.slice_append X D Y
        rw [e4, e3, ← e1] at this
        exact this
      · have := Text.slice_append (wordsOf pre' ++ X) D (Y ++ wordsOf post')
        have e5 : wordsOf pre' ++ X ++ D ++ (Y ++ wordsOf post') = text := by
          rw [← w1, s1, wordsOf_append, wordsOf_cons]
          simp only
          rw [e1]; simp
        rw [e5] at this
        simp only [Text.len_append] at this
        rw [show (wordsOf pre').len = wlen pre' from rfl] at this
        rw [show wlen pre' + X.len = edit.delete.start from by omega,
          show edit.delete.start + D.len = edit.delete.stop from by omega] at this
        exact this

/-- An edit that changes the text of one token only: `text'` has the same tokens as `text`, except for the length of
the `i`-th one, which is whitespace, a comment, an identifier or a string; the edit falls on that token, and deletes no
line break if it is whitespace or a comment. -/
structure OneToken (text text' : Text) (tree : Green) (edit : Indel) (lexErrors' : List SyntaxError) : Prop where
  edited : edit.apply text = some text'
  token : ∃ (tokens : List Token) (lexErrors : List SyntaxError) (i : Nat) (t : Token) (r : Range) (n : Nat),
    tokenize text = .ok (tokens, lexErrors) ∧ tokens[i]? = some t ∧ (tokenRanges 0 tokens)[i]? = some r ∧
    tokenize text' = .ok (tokens.set i ⟨t.kind, n⟩, lexErrors') ∧
    t.kind ∈ [SyntaxKind.whitespace, .comment, .ident, .str] ∧ FallsOn tree r edit.delete ∧
    (t.kind = .whitespace ∨ t.kind = .comment →
      ∀ D, text.slice edit.delete.start edit.delete.stop = some D → '\n' ∉ D)

private theorem reparseToken_oneToken {text text' : Text} {tree : Green} {errors lexErrors' : List SyntaxError}
    {edit : Indel} (hp : sourceFileParse text = .ok (tree, errors)) (h : OneToken text text' tree edit lexErrors') :
    ∃ (tree' : Green) (es newErrors : List SyntaxError) (range : Range), sourceFileParse text' = .ok (tree', es) ∧
      reparseToken tree edit = .ok (some (tree', newErrors, range)) ∧ (newErrors ≠ [] → lexErrors' ≠ []) := by
  obtain ⟨he, tokens, lexErrors, i, t, r, n, h1, h2, h3, h4, h5, h6, h7⟩ := h
  obtain ⟨el, above, newText, e, c1, c2, c3, c4, c5, c6, c7, ⟨es, c8⟩, D, c9, c10⟩ := token_edit hp he h1 h2 h3 h4 h6
  refine ⟨_, es, e.toList, el.range, c8, ?_, ?_⟩
  · unfold reparseToken
    rw [c1]
    simp only [Except.bind, c3, c2, Bool.false_eq_true, if_false]
    rw [if_neg (not_not_intro (show t.kind ∈ tokenKinds from h5))]
    have hnl : deletesNewline el edit = .ok false := by
      unfold deletesNewline
      rw [c2]
      split
      · rename_i hk
        rw [c4]
        simp only [Range.unshift]
        have hle1 : r.start ≤ edit.delete.start := h6.1
        have hle2 : edit.delete.start ≤ edit.delete.stop := by
          have := h6.2.2; omega
        rw [if_pos ⟨hle1, by omega⟩]
        simp only [Except.bind, c9]
        have := h7 hk D c10
        simpa using this
      · rfl
    rw [hnl]
    simp only [Bool.false_eq_true, if_false, c5, c6]
    simp [Green.replaceWith, c2, Green.kind, Except.map]
  · intro hne
    refine c7 ?_
    cases e with
    | none => simp at hne
    | some e => rfl

/-- **C22** for edits of one token, tree only (missing: edits that change other tokens; the errors): the tree after
`reparse` is the tree of the edited text. -/
theorem C22_token_tree_partial (text text' : Text) (tree tree' : Green) (errors errors' lexErrors' : List SyntaxError)
    (edit : Indel) (hp : sourceFileParse text = .ok (tree, errors)) (h : OneToken text text' tree edit lexErrors')
    (hr : reparse tree errors edit = .ok (tree', errors')) : ∃ es, sourceFileParse text' = .ok (tree', es) := by
  obtain ⟨tree2, es, newErrors, range, e1, e2, _⟩ := reparseToken_oneToken hp h
  unfold reparse incremental at hr
  rw [e2] at hr
  simp only [Except.bind] at hr
  cases hm : mergeErrors errors newErrors range edit with
  | error => rw [hm] at hr; simp [Except.map] at hr
  | ok m =>
    rw [hm] at hr
    simp only [Except.map, Except.ok.injEq, Prod.mk.injEq] at hr
    exact ⟨es, by rw [e1, hr.1]⟩

/-- **C22** for edits of one token where neither text has an error (missing: edits that change other tokens, texts with
errors): `reparse` returns what parsing the edited text returns. -/
theorem C22_token_partial (text text' : Text) (tree tree' : Green) (lexErrors' : List SyntaxError)
    (edit : Indel) (hp : sourceFileParse text = .ok (tree, [])) (h : OneToken text text' tree edit lexErrors')
    (hr : sourceFileParse text' = .ok (tree', [])) : reparse tree [] edit = sourceFileParse text' := by
  obtain ⟨tree2, es, newErrors, range, e1, e2, e3⟩ := reparseToken_oneToken hp h
  have hlex : lexErrors' = [] := by
    obtain ⟨_, tokens, lexErrors, i, t, r, n, h1, h2, h3, h4, _⟩ := h
    obtain ⟨ls, ts, more, m1, m2, m3, m4, m5⟩ := sourceFileParse_shape text'
    rw [tokenize_eq m1] at h4
    rw [hr] at m5
    simp only [Except.ok.injEq, Prod.mk.injEq] at m5 h4
    rw [← h4.2]
    have := m5.2
    simp at this
    simpa using this.2.1
  have hne : newErrors = [] := by
    cases newErrors with
    | nil => rfl
    | cons a l => exact absurd hlex (e3 (by simp))
  subst hne
  unfold reparse incremental
  rw [e2, hr]
  rw [hr] at e1
  simp only [Except.ok.injEq, Prod.mk.injEq] at e1
  simp [Except.bind, mergeErrors, keepErrors, Except.map, e1.1]

/-! ### C22: no errors -/

mutual
private theorem place_no_errs (n : Nat) (t : PTree) (todo : List Lx) (h : errors t = []) : (place n t todo).errs = [] := by
  cases t with
  | tok k => simp only [place]; split <;> rfl
  | err e => simp [errors] at h
  | errNode cs e => simp [errors] at h
  | node k cs => simp only [place]; exact placeL_no_errs n cs _ (by simpa [errors] using h)
private theorem placeL_no_errs (n : Nat) (ts : List PTree) (todo : List Lx) (h : errorsL ts = []) : (placeL n ts todo).errs = [] := by
  cases ts with
  | nil => rfl
  | cons t ts =>
    simp only [errorsL, List.append_eq_nil_iff] at h
    simp only [placeL, place_no_errs n t todo h.1, placeL_no_errs n ts _ h.2, List.append_nil]
end

/-- a derivation over the tokens of a text is what the parser finds -/
theorem parse_of_deriv {text : Text} {ls : List Lexeme} (hl : Lexemes text ls) {ts : List PTree}
    (hd : Deriv .accepted .block [.node .block ts]) (he : errorsL ts = []) (hy : yieldL ts = realKinds (ls.map lxOf)) (m : Nat) :
    parseText text = .ok (.node .sourceFile [.node .block ((placeL m ts (ls.map lxOf)).greens ++
        (placeL m ts (ls.map lxOf)).rest.map leaf)], (attach 0 ls).filterMap (·.2)) := by
  obtain ⟨ls', ts', h1, h2, h3, _, h5⟩ := parseText_main text
  have := h1.unique hl
  subst this
  have hk := parseKinds_complete (t := .node .sourceFile [.node .block ts]) ⟨_, rfl, hd⟩
  rw [show yield (.node .sourceFile [.node .block ts]) = yieldL ts by simp [PTree.yield, yieldL], hy] at hk
  have := parseKinds_ts h2 h3 hk hy
  subst this
  obtain ⟨p1, p2⟩ := placeL_n text.len m ts' (ls'.map lxOf) [] (by simp [hy])
  simp only at h5
  rw [h5, placeL_no_errs _ _ _ he, p1, p2]
  simp

private theorem errs_nil_of_lexemes {a b : List SyntaxError} (h : a ++ b = []) : a = [] ∧ b = [] := List.append_eq_nil_iff.1 h

/-- the parse of the new text, if the text of one token changed -/
private theorem token_swap {text' : Text} {tree : Green} {ls ls' : List Lexeme} {ts : List PTree} {n : Nat}
    (hd : Deriv .accepted .block [.node .block ts]) (he : errorsL ts = []) (hy : yieldL ts = realKinds (ls.map lxOf))
    (htree : tree = .node .sourceFile [.node .block ((placeL n ts (ls.map lxOf)).greens ++
        (placeL n ts (ls.map lxOf)).rest.map leaf)])
    (hl' : Lexemes text' ls') {k : SyntaxKind} {w newText : Text} {p a b}
    (hc : Ctx (.token k w) tree p a b) (hlv : ls.map lxOf = a ++ (k, w) :: b)
    (hlv' : ls'.map lxOf = a ++ (k, newText) :: b) :
    parseText text' = .ok (Green.replaceAt (.token k newText) p tree, (attach 0 ls').filterMap (·.2)) := by
  have hsame : SameKinds (ls.map lxOf) (ls'.map lxOf) := by rw [hlv, hlv']; simp [SameKinds]
  have hreal : realKinds (ls.map lxOf) = realKinds (ls'.map lxOf) := by
    rw [hlv, hlv']; cases hk : k.isTrivia <;> simp [realKinds, isTriv, List.filter_append, hk]
  rw [parse_of_deriv hl' hd he (by rw [hy, hreal]) n]
  have hskelrest : ∀ {a b : List Lx}, SameKinds a b → skelL (a.map leaf) = skelL (b.map leaf) := by
    intro a
    induction a with
    | nil => intro b h; cases b with
      | nil => rfl
      | cons => simp [SameKinds] at h
    | cons x xs ih =>
      intro b h
      cases b with
      | nil => simp [SameKinds] at h
      | cons y ys =>
        simp only [SameKinds, List.map_cons, List.cons.injEq] at h
        simp only [List.map_cons, skelL, leaf, skel, h.1]
        rw [ih (b := ys) h.2]
  have : Green.replaceAt (.token k newText) p tree =
      .node .sourceFile [.node .block ((placeL n ts (ls'.map lxOf)).greens ++
          (placeL n ts (ls'.map lxOf)).rest.map leaf)] := by
    refine (skel_inj (x := []) (x' := []) ?_ ?_).1
    · rw [hc.skel (by simp [skel]), htree]
      obtain ⟨p1, p2⟩ := placeL_skel n n ts hsame
      simp [skel, skelL, p1, hskelrest p2]
    · rw [(hc.replace (.token k newText)).leaves]
      simp [Green.leaves, Green.leavesL, placeL_leaves, hlv']
  rw [this]

private theorem leavesL_map_leaf (l : List Lx) : Green.leavesL (l.map leaf) = l := by
  induction l with
  | nil => rfl
  | cons a l ih => simp [Green.leavesL, leaf, Green.leaves]

/-- the parse of the new text, if a block was replaced by another block -/
private theorem block_swap {text' : Text} {tree : Green} {ls ls' : List Lexeme} {ts : List PTree} {n : Nat}
    (hd : Deriv .accepted .block [.node .block ts]) (he : errorsL ts = []) (hy : yieldL ts = realKinds (ls.map lxOf))
    (htree : tree = .node .sourceFile [.node .block ((placeL n ts (ls.map lxOf)).greens ++
        (placeL n ts (ls.map lxOf)).rest.map leaf)])
    (hl' : Lexemes text' ls') {us : List PTree} {m : Nat} {X : List Lx} (hb : NewBlock us m X)
    (hdu : Deriv .accepted .block [.node .block us]) (heu : errorsL us = []) {gs : List Green} {p a b}
    (hc : Ctx (.node .block gs) tree p a b) (hlv' : ls'.map lxOf = a ++ X ++ b) :
    parseText text' = .ok (Green.replaceAt (.node .block (placeL m us X).greens) p tree,
      (attach 0 ls').filterMap (·.2)) := by
  have hs := hc.swap (y := .node .block (placeL m us X).greens)
  generalize Green.replaceAt (.node .block (placeL m us X).greens) p tree = tree' at hs ⊢
  rw [htree] at hs
  generalize htr : Green.node .sourceFile [.node .block ((placeL n ts (ls.map lxOf)).greens ++
        (placeL n ts (ls.map lxOf)).rest.map leaf)] = tr at hs
  cases hs with
  | here => simp at htr
  | @down k pre c c' post a1 b1 hs1 =>
    simp only [Green.node.injEq] at htr
    obtain ⟨rfl, htr⟩ := htr
    cases pre with
    | cons z zs => simp at htr
    | nil =>
      simp only [List.nil_append, List.cons.injEq] at htr
      obtain ⟨rfl, rfl⟩ := htr
      generalize hblk : Green.node SyntaxKind.block ((placeL n ts (ls.map lxOf)).greens ++
        (placeL n ts (ls.map lxOf)).rest.map leaf) = blk at hs1
      cases hs1 with
      | here =>
        have hX : ls'.map lxOf = X := by simpa [Green.leavesL] using hlv'
        rw [parse_of_deriv hl' hdu heu (by rw [hX, hb.kinds]) m, hX, hb.rest]
        simp
      | @down k2 pre2 c2 c2' post2 a2 b2 hs2 =>
        simp only [Green.node.injEq] at hblk
        obtain ⟨rfl, hblk⟩ := hblk
        -- the element is not one of the trailing trivia
        have hcase : ∃ q, (placeL n ts (ls.map lxOf)).greens = pre2 ++ c2 :: q ∧
            post2 = q ++ (placeL n ts (ls.map lxOf)).rest.map leaf := by
          rcases List.append_eq_append_iff.1 hblk with ⟨q, e1, e2⟩ | ⟨q, e1, e2⟩
          · exfalso
            have : c2 ∈ (placeL n ts (ls.map lxOf)).rest.map leaf := by rw [e2]; simp
            rw [List.mem_map] at this
            obtain ⟨x, _, rfl⟩ := this
            exact swap_token rfl hs2
          · cases q with
            | nil =>
              exfalso
              have : c2 ∈ (placeL n ts (ls.map lxOf)).rest.map leaf := by
                simp only [List.nil_append] at e2; rw [← e2]; simp
              rw [List.mem_map] at this
              obtain ⟨x, _, rfl⟩ := this
              exact swap_token rfl hs2
            | cons z q =>
              simp only [List.cons_append, List.cons.injEq] at e2
              obtain ⟨rfl, rfl⟩ := e2
              exact ⟨q, e1, rfl⟩
        obtain ⟨q, e1, rfl⟩ := hcase
        obtain ⟨ts2, i1, i2, i3, i4, _⟩ := placeL_swap hb n n ts (T := ls.map lxOf) (r := []) (by simp [hy]) he e1 hs2
        have hT' : ls'.map lxOf = Green.leavesL pre2 ++ a2 ++ X ++ b2 ++ Green.leavesL q ++ (placeL n ts (ls.map lxOf)).rest := by
          rw [hlv']
          simp [Green.leavesL, leavesL_append, leavesL_map_leaf]
        rw [← hT'] at i2 i3 i4
        have hd2 := (deriv_rep hdu hd (RepL.down (k := .block) (ts := []) i1)).1
        have he2 : errorsL ts2 = [] := by
          have key : ∀ {us ts ts' : List PTree}, RepL us ts ts' → errorsL us = [] → errorsL ts = [] → errorsL ts' = [] := by
            intro us ts ts' h h1
            induction h with
            | here => intro h2; simp [errorsL, errors, h1] at h2 ⊢; exact h2.2
            | down _ ih => intro h2; simp [errorsL, errors] at h2 ⊢; exact ⟨ih h2.1, h2.2⟩
            | tail _ ih => intro h2; simp [errorsL] at h2 ⊢; exact ⟨h2.1, ih h2.2⟩
          exact key i1 heu he
        rw [parse_of_deriv hl' hd2 he2 (by rw [i4]; simp) n, i2, i3]
        simp

/-- **C22** for files without errors (missing: files with errors, before or after the edit, and edits after which the
leaves of the new tree are not the tokens of the edited text): if the file had no errors, `reparse` reports none, and the
leaves of the tree it returns are the tokens of the edited text, then that tree is the tree of the edited text, and
parsing the edited text reports its lexical errors and what validation finds, nothing else. -/
theorem C22_no_errors_partial (text text' : Text) (tree tree' : Green) (edit : Indel) (lexErrors : List SyntaxError)
    (hp : sourceFileParse text = .ok (tree, [])) (he : edit.apply text = some text')
    (hr : reparse tree [] edit = .ok (tree', []))
    (htok : tokenize text' = .ok (tree'.leaves.map fun l => ⟨l.1, l.2.len⟩, lexErrors)) :
    ∃ es, Validation.validate tree' = .ok es ∧ sourceFileParse text' = .ok (tree', lexErrors ++ es) := by
  obtain ⟨ls, ts, more, l1, l2, l3, l4, l5⟩ := sourceFileParse_shape text
  obtain ⟨ls', hl'⟩ := lexemes_exists text'
  obtain ⟨w1, w2, w3, w4⟩ := lexemes_lx l1
  obtain ⟨v1, v2, v3, v4⟩ := lexemes_lx hl'
  rw [hp] at l5
  simp only [Except.ok.injEq, Prod.mk.injEq] at l5
  obtain ⟨htree, hnil⟩ := l5
  obtain ⟨hnil1, _⟩ := List.append_eq_nil_iff.1 hnil.symm
  obtain ⟨hnil2, _⟩ := List.append_eq_nil_iff.1 hnil1
  have herr := placeL_errs_nil _ _ _ hnil2
  have hd : Deriv .accepted .block [.node .block ts] := by
    obtain ⟨b, e, d⟩ := l4 herr
    simp only [PTree.node.injEq, true_and, List.cons.injEq, and_true] at e
    rw [e]; exact d
  have hlv : tree.leaves = ls.map lxOf := by
    rw [htree]
    simp [Green.leaves, Green.leavesL, placeL_leaves]
  have htext : tree.text = text := by rw [text_leaves, hlv, w1]
  rw [tokenize_eq hl', ← v2] at htok
  simp only [Except.ok.injEq, Prod.mk.injEq] at htok
  obtain ⟨htk, rfl⟩ := htok
  have hwlen : tree'.text.len = text'.len := by
    rw [text_leaves, ← v1]
    have key : ∀ l : List Lx, Text.len (wordsOf l) = ((toksOf l).map (·.len)).sum := by
      intro l; induction l with
      | nil => rfl
      | cons y ys ih => simp [toksOf] at ih ⊢; rw [ih]
    rw [key, key, htk]
    rfl
  -- it is enough to know the parse without validation
  suffices h : parseText text' = .ok (tree', (attach 0 ls').filterMap (·.2)) by
    obtain ⟨tr, es, more', h1, h2, _⟩ := sourceFileParse_eq text'
    rw [h] at h1
    simp only [Except.ok.injEq, Prod.mk.injEq] at h1
    obtain ⟨rfl, rfl⟩ := h1
    refine ⟨more', ?_, h2⟩
    unfold sourceFileParse at h2
    rw [h] at h2
    simp only at h2
    cases hv : Validation.validate tree' with
    | error e => rw [hv] at h2; simp at h2
    | ok m =>
      rw [hv] at h2
      simp only at h2
      split at h2
      · simp only [Except.ok.injEq, Prod.mk.injEq, true_and, List.append_cancel_left_eq] at h2
        rw [h2]
      · simp at h2
  have hleaves : tree'.text = text' → ls'.map lxOf = tree'.leaves := by
    intro ht
    refine (lx_inj (l1 := ls'.map lxOf) (l2 := tree'.leaves) (x := []) (y := []) htk ?_).1
    rw [v1, ← text_leaves, ht]
  rw [← htext] at he
  unfold reparse at hr
  obtain ⟨o, h1, hr⟩ := bind_ok hr
  unfold incremental at h1
  obtain ⟨rt, h2, h1⟩ := bind_ok h1
  cases rt with
  | some res =>
    obtain ⟨green, newErrors, range⟩ := res
    simp only at h1
    obtain ⟨merged, hm, h3⟩ := map_ok h1
    subst h3
    simp only [Except.ok.injEq, Prod.mk.injEq] at hr
    obtain ⟨rfl, rfl⟩ := hr
    have ht := reparseToken_text h2
    rw [he] at ht
    simp only [Option.some.injEq] at ht
    have hlvs := hleaves ht.symm
    -- the token that was replaced
    unfold reparseToken at h2
    obtain ⟨⟨token, above⟩, c1, h2⟩ := bind_ok h2
    simp only at h2
    split at h2
    · simp at h2
    rename_i hnode
    split at h2
    · simp at h2
    obtain ⟨nl, _, h2⟩ := bind_ok h2
    split at h2
    · simp at h2
    obtain ⟨newText, _, h2⟩ := bind_ok h2
    obtain ⟨ft, _, h2⟩ := bind_ok h2
    cases ft with
    | none => simp at h2
    | some pr =>
      obtain ⟨newToken, err⟩ := pr
      simp only at h2
      split at h2
      · simp at h2
      obtain ⟨green', h5, h6⟩ := map_ok h2
      simp only [Option.some.injEq, Prod.mk.injEq] at h6
      obtain ⟨rfl, _⟩ := h6
      obtain ⟨⟨a, b, hc, ho⟩, _⟩ := covering_inTree c1
      unfold Green.replaceWith at h5
      split at h5
      · simp only [Except.ok.injEq] at h5
        subst h5
        cases hg : token.green with
        | node k cs => rw [hg] at hnode; simp [Green.isNode] at hnode
        | token k w =>
          have hk : token.kind = k := by simp [Red.kind, hg, Green.kind]
          rw [hg] at hc
          rw [hk] at hlvs ⊢
          rw [(hc.replace (.token k newText)).leaves] at hlvs
          have hlo := hc.leaves
          rw [hlv] at hlo
          exact token_swap hd herr l3 htree hl' hc (by simpa [Green.leaves] using hlo)
            (by simpa [Green.leaves] using hlvs)
      · simp at h5
  | none =>
    simp only at h1
    obtain ⟨rb, h3, h1⟩ := bind_ok h1
    cases rb with
    | some res =>
      obtain ⟨green, newErrors, range⟩ := res
      simp only at h1
      obtain ⟨merged, hm, h4⟩ := map_ok h1
      subst h4
      simp only [Except.ok.injEq, Prod.mk.injEq] at hr
      obtain ⟨rfl, rfl⟩ := hr
      -- no new errors
      have hne : newErrors = [] := by
        unfold mergeErrors at hm
        simp only [keepErrors, Except.map, Except.ok.injEq, List.nil_append, List.map_eq_nil_iff] at hm
        exact hm
      subst hne
      -- nothing is lost
      obtain ⟨x, lost, y, t1, t2, _⟩ := reparseBlock_text h3
      rw [he] at t1
      simp only [Option.some.injEq] at t1
      have hlost : lost = [] := by
        rw [t2, t1] at hwlen
        simp only [Text.len_append] at hwlen
        cases lost with
        | nil => rfl
        | cons z zs =>
          have := Text.len_pos (s := z :: zs) (by simp)
          omega
      subst hlost
      have ht : green.text = text' := by rw [t2, t1]; simp
      have hlvs := hleaves ht
      -- the block that was replaced
      unfold reparseBlock at h3
      obtain ⟨on, c1, h3⟩ := bind_ok h3
      cases on with
      | none => simp at h3
      | some node =>
        simp only at h3
        obtain ⟨btext, c2, h3⟩ := bind_ok h3
        obtain ⟨⟨tokens, lexErrs⟩, c3, h3⟩ := bind_ok h3
        simp only at h3
        split at h3
        · simp at h3
        rename_i hbal
        obtain ⟨⟨bgreen, perrs⟩, c4, h3⟩ := bind_ok h3
        obtain ⟨newTree, c5, c6⟩ := map_ok h3
        simp only [Option.some.injEq, Prod.mk.injEq] at c6
        obtain ⟨rfl, c7, _⟩ := c6
        obtain ⟨rfl, rfl⟩ := List.append_eq_nil_iff.1 c7
        have hin : InTree tree node ∧ node.kind = .block ∧ node.green.isNode = true := by
          unfold reparsableNode at c1
          obtain ⟨⟨el, above⟩, h7, h8⟩ := map_ok c1
          simp only at h8
          obtain ⟨i1, i2, _⟩ := covering_inTree h7
          have hm := List.mem_of_find?_eq_some h8
          have hk : node.kind = .block := by simpa using List.find?_some h8
          split at hm
          · rename_i hn
            rcases List.mem_cons.1 hm with e | e
            · rw [e] at hk ⊢; exact ⟨i1, hk, hn⟩
            · exact ⟨(i2 _ e).1, hk, (i2 _ e).2⟩
          · exact ⟨(i2 _ hm).1, hk, (i2 _ hm).2⟩
        obtain ⟨⟨a, b, hc, ho⟩, hkind, hisNode⟩ := hin
        obtain ⟨bls, hbl⟩ := lexemes_exists btext
        rw [tokenize_eq hbl] at c3
        simp only [Except.ok.injEq, Prod.mk.injEq] at c3
        obtain ⟨rfl, _⟩ := c3
        obtain ⟨us, rest, g1, g2, g3, g4, g5⟩ := parseBlock_main hbl
        rw [c4] at g5
        split at g5
        · rename_i hlead
          simp only [Except.ok.injEq, Prod.mk.injEq] at g5
          obtain ⟨rfl, gerr⟩ := g5
          have hat : afterTriv (bls.map lxOf) = bls.map lxOf := by
            have := List.takeWhile_append_dropWhile (p := isTriv) (l := bls.map lxOf)
            simp only [lead, List.map_eq_nil_iff] at hlead
            rw [hlead] at this
            simpa [afterTriv] using this
          rw [hat] at c5 g4 gerr
          have heu := placeL_errs_nil _ _ _ gerr.symm
          have hdu := g3 heu
          unfold Green.replaceWith at c5
          split at c5
          · simp only [Except.ok.injEq] at c5
            -- the whole text of the block is consumed
            have hrest : (placeL btext.len us (bls.map lxOf)).rest = [] := by
              have e1 := textAfterEdit_spec hc ho c2
              rw [he] at e1
              simp only [Option.some.injEq] at e1
              have e2 := (hc.replace (.node .block (placeL btext.len us (bls.map lxOf)).greens)).text
              rw [c5, ht, e1] at e2
              have e3 := congrArg Text.len e2
              have e4 := placeL_text btext.len us (bls.map lxOf)
              rw [(lexemes_lx hbl).1] at e4
              have e5 := congrArg Text.len e4
              simp only [Text.len_append, Green.text] at e3 e5
              have e6 : Text.len (wordsOf (placeL btext.len us (bls.map lxOf)).rest) = 0 := by omega
              cases hrst : (placeL btext.len us (bls.map lxOf)).rest with
              | nil => rfl
              | cons z zs =>
                exfalso
                have hz : z ∈ bls.map lxOf := by
                  rw [← placeL_leaves btext.len us (bls.map lxOf), hrst]; simp
                have := Text.len_pos ((lexemes_lx hbl).2.2.1 z hz)
                rw [hrst] at e6
                simp only [wordsOf_cons, Text.len_append] at e6
                omega
            have hreal : realKinds (bls.map lxOf) = yieldL us := by
              rw [g1, ← g4, hrest]; simp [realKinds]
            have hne : us ≠ [] := by
              rintro rfl
              obtain ⟨l, hlast, hle⟩ := getLast_lx (by simpa using hbal)
              have hmem := List.mem_of_getLast? hlast
              simp only [realKinds, yieldL, List.map_eq_nil_iff, List.filter_eq_nil_iff] at hreal
              have := hreal l hmem
              simp [isTriv, hle, SyntaxKind.isTrivia] at this
            have hsolid : solidL us = true := by
              cases hdu with
              | block _ h => exact deriv_solid h (by simp) (by simp) hne
            have hb : NewBlock us btext.len (bls.map lxOf) :=
              ⟨hrest, hreal, hsolid, by rw [← hat]; exact startsReal_afterTriv _⟩
            cases hg : node.green with
            | token k w =>
              rw [hg] at hisNode; simp [Green.isNode] at hisNode
            | node k gs =>
              have hk : k = .block := by
                have : (node.green).kind = .block := hkind
                rw [hg] at this
                simpa [Green.kind] using this
              subst hk
              rw [hg] at hc
              rw [← c5]
              refine block_swap hd herr l3 htree hl' hb hdu heu hc ?_
              rw [hlvs, ← c5, (hc.replace _).leaves]
              simp [Green.leaves, hb.leaves]
          · simp at c5
        · simp at g5
    | none =>
      simp only [Except.ok.injEq] at h1
      subst h1
      simp only [full, he] at hr
      obtain ⟨tr, es, more', p1, p2, _⟩ := sourceFileParse_eq text'
      rw [hr] at p2
      simp only [Except.ok.injEq, Prod.mk.injEq] at p2
      obtain ⟨rfl, p3⟩ := p2
      obtain ⟨rfl, _⟩ := List.append_eq_nil_iff.1 p3.symm
      obtain ⟨ls2, ts2, q1, _, _, _, q5⟩ := parseText_main text'
      have := q1.unique hl'
      subst this
      rw [p1] at q5
      simp only [Except.ok.injEq, Prod.mk.injEq] at q5
      obtain ⟨_, q6⟩ := List.append_eq_nil_iff.1 q5.2.symm
      rw [q6]
      exact p1

/-! ### concrete cases -/

theorem blockKinds_eval (toks : List SyntaxKind) : blockKinds toks =
    match (Grammar.block (2 * toks.length + 4)).run { toks := toks, events := [] } with
    | .error e => .error e
    | .ok (_, s) => processFuel s.events.length s.events := by
  unfold blockKinds
  split
  · simp_all
  · rename_i h; rw [h]; simp only []; rw [processFuel_eq _ _ (Nat.le_refl _)]

/-- the tree of `x=<name>` -/
private def assignName (w : Text) : Green :=
  .node .sourceFile [.node .block [.node .assignStmt [
    .node .multivalExpr [.node .nameRef [.token .ident ['x']]],
    .token .eq ['='],
    .node .multivalExpr [.node .nameRef [.token .ident w]]]]]

/-- The hypotheses of the theorems about one token are met: the name in `x=foo` becomes `fooo`. -/
example : ∃ tree tree' lexErrors', sourceFileParse "x=foo".toList = .ok (tree, []) ∧
    OneToken "x=foo".toList "x=fooo".toList tree ⟨['o'], ⟨4, 4⟩⟩ lexErrors' ∧
    sourceFileParse "x=fooo".toList = .ok (tree', []) := by
  refine ⟨assignName "foo".toList, assignName "fooo".toList, [], ?_, ⟨by decide +kernel, ?_⟩, ?_⟩
  · rw [sourceFileParse_eq_eval]; decide +kernel
  · refine ⟨[⟨.ident, 1⟩, ⟨.eq, 1⟩, ⟨.ident, 3⟩], [], 2, ⟨.ident, 3⟩, ⟨2, 5⟩, 4, by decide +kernel, rfl, by decide +kernel,
      by decide +kernel, by decide, ⟨by decide, by decide, .inr ⟨rfl, by decide, .inl (by decide)⟩⟩, by decide⟩
  · rw [sourceFileParse_eq_eval]; decide +kernel

/-- the tree of `do x=1 end` -/
private def doTree : Green :=
  .node .sourceFile [.node .block [.node .doStmt [.token .doKw "do".toList, .token .whitespace " ".toList,
    .node .block [.node .assignStmt [.node .multivalExpr [.node .nameRef [.token .ident "x".toList]],
      .token .eq "=".toList, .node .multivalExpr [.node .literal [.token .number "1".toList]]]],
    .token .whitespace " ".toList, .token .endKw "end".toList]]]

/-- The hypotheses of `C23_total_partial` are met: `2` is inserted behind the `1` in `do x=1 end`, inside two blocks. -/
example : ∃ tree' errors', reparse doTree [] ⟨['2'], ⟨6, 6⟩⟩ = .ok (tree', errors') := by
  refine C23_total_partial doTree [] _ "do x=12 end".toList (by decide +kernel) (.inl rfl) ?_
  obtain ⟨visited, h1, _, h2, _⟩ := C52_walk (fun _ => true) (Red.root doTree) rfl
  intro n hn hk hc w hw hs
  have key : ∀ vs, bdfs (fun _ => true) (Red.root doTree) = some vs → ∀ n ∈ vs, n.kind = .block →
      n.range.containsRange ⟨6, 6⟩ = true → n.range = ⟨3, 6⟩ ∨ n.range = ⟨0, 10⟩ := by
    intro vs hvs
    have : (bdfs (fun _ => true) (Red.root doTree)).all (fun vs => vs.all fun n => !(n.kind == .block) ||
        !(n.range.containsRange ⟨6, 6⟩) || n.range == ⟨3, 6⟩ || n.range == ⟨0, 10⟩) = true := by decide +kernel
    rw [hvs] at this
    simp only [Option.all_some, List.all_eq_true] at this
    intro n hn h1 h2
    have := this n hn
    simpa [h1, h2] using this
  obtain ⟨tokens, errs, t, s1, s2, s3⟩ := hs
  rcases key visited h1 n ((h2 n).2 hn) hk hc with h | h
  · rw [h] at hw
    have hw' : some "x=12".toList = some w := hw ▸ (by decide +kernel)
    have : tokenize "x=12".toList = .ok ([⟨.ident, 1⟩, ⟨.eq, 1⟩, ⟨.number, 2⟩], []) := by decide +kernel
    simp only [Option.some.injEq] at hw'
    rw [← hw', this] at s1
    simp only [Except.ok.injEq, Prod.mk.injEq] at s1
    rw [← s1.1] at s2
    simp at s2
    rw [← s2] at s3
    simp at s3
  · rw [h] at hw
    have hw' : some "do x=12 end".toList = some w := hw ▸ (by decide +kernel)
    have : ∃ rest errs, tokenize "do x=12 end".toList = .ok (⟨.doKw, 2⟩ :: rest, errs) :=
      ⟨[⟨.whitespace, 1⟩, ⟨.ident, 1⟩, ⟨.eq, 1⟩, ⟨.number, 2⟩, ⟨.whitespace, 1⟩, ⟨.endKw, 3⟩], [], by decide +kernel⟩
    obtain ⟨rest, es, this⟩ := this
    simp only [Option.some.injEq] at hw'
    rw [← hw', this] at s1
    simp only [Except.ok.injEq, Prod.mk.injEq] at s1
    rw [← s1.1] at s2
    simp at s2
    rw [← s2] at s3
    simp at s3

/-- the tree of `do x=<number> do end end` -/
private def doDoTree (w : Text) : Green :=
  .node .sourceFile [.node .block [.node .doStmt [.token .doKw "do".toList, .token .whitespace " ".toList,
    .node .block [.node .assignStmt [.node .multivalExpr [.node .nameRef [.token .ident "x".toList]],
      .token .eq "=".toList, .node .multivalExpr [.node .literal [.token .number w]]],
      .token .whitespace " ".toList, .node .doStmt [.token .doKw "do".toList, .token .whitespace " ".toList,
        .node .block [], .token .endKw "end".toList]],
    .token .whitespace " ".toList, .token .endKw "end".toList]]]

/-- The hypotheses of `C22_no_errors_partial` are met: `2` is inserted behind the `1` in `do x=1 do end end`, and the
block inside the outer `do` is parsed again. -/
example : sourceFileParse "do x=1 do end end".toList = .ok (doDoTree "1".toList, []) ∧
    Indel.apply ⟨['2'], ⟨6, 6⟩⟩ "do x=1 do end end".toList = some "do x=12 do end end".toList ∧
    (reparseBlock (doDoTree "1".toList) ⟨['2'], ⟨6, 6⟩⟩) = .ok (some (doDoTree "12".toList, [], ⟨3, 13⟩)) ∧
    reparse (doDoTree "1".toList) [] ⟨['2'], ⟨6, 6⟩⟩ = .ok (doDoTree "12".toList, []) ∧
    tokenize "do x=12 do end end".toList = .ok ((doDoTree "12".toList).leaves.map fun l => ⟨l.1, l.2.len⟩, []) := by
  refine ⟨?_, by decide +kernel, ?_, ?_, by decide +kernel⟩
  · rw [sourceFileParse_eq_eval]; decide +kernel
  · simp only [reparseBlock, parseBlock, blockKinds_eval]
    decide +kernel
  · simp only [reparse, incremental, reparseBlock, parseBlock, blockKinds_eval, full, sourceFileParse_eq_eval]
    decide +kernel

/-- **C22 fails** for whole tokens: inserting ` y=1` behind `x=foo` makes one identifier with the text `foo y=1`, because
only the first token of the new text is looked at. -/
theorem C22_reparse_fails_token : ∃ text tree errors edit text' tree' errors',
    sourceFileParse text = .ok (tree, errors) ∧ edit.apply text = some text' ∧
    reparse tree errors edit = .ok (tree', errors') ∧ ¬ ∃ es, sourceFileParse text' = .ok (tree', es) := by
  refine ⟨"x=foo".toList, assignName "foo".toList, [], ⟨" y=1".toList, ⟨5, 5⟩⟩, "x=foo y=1".toList,
    assignName "foo y=1".toList, [], ?_, by decide +kernel, ?_, ?_⟩
  · rw [sourceFileParse_eq_eval]; decide +kernel
  · simp only [reparse, incremental, reparseBlock, parseBlock, blockKinds_eval, full, sourceFileParse_eq_eval]
    decide +kernel
  · rintro ⟨es, h⟩
    have h2 : sourceFileParse "x=foo y=1".toList = .ok (.node .sourceFile [.node .block [.node .assignStmt [
        .node .multivalExpr [.node .nameRef [.token .ident "x".toList]], .token .eq "=".toList,
        .node .multivalExpr [.node .nameRef [.token .ident "foo".toList]]], .token .whitespace " ".toList,
        .node .assignStmt [.node .multivalExpr [.node .nameRef [.token .ident "y".toList]], .token .eq "=".toList,
          .node .multivalExpr [.node .literal [.token .number "1".toList]]]]], []) := by
      rw [sourceFileParse_eq_eval]; decide +kernel
    rw [h2] at h
    simp [assignName] at h

/-- **C22 fails** for errors: the edited text of a string is not validated again. -/
theorem C22_reparse_fails_validation : ∃ text tree errors edit text' tree' errors',
    sourceFileParse text = .ok (tree, errors) ∧ edit.apply text = some text' ∧
    sourceFileParse text' = .ok (tree', errors') ∧ errors' ≠ [] ∧ reparse tree errors edit = .ok (tree', []) := by
  refine ⟨"x=\"a\"".toList, assignTree .str "\"a\"".toList, [], ⟨"\\q".toList, ⟨3, 3⟩⟩, "x=\"\\qa\"".toList,
    assignTree .str "\"\\qa\"".toList, [⟨"Invalid escape sequence", ⟨3, 5⟩⟩], ?_, by decide +kernel, ?_, by simp, ?_⟩
  · rw [sourceFileParse_eq_eval]; decide +kernel
  · rw [sourceFileParse_eq_eval]; decide +kernel
  · simp only [reparse, incremental, reparseBlock, parseBlock, blockKinds_eval, full, sourceFileParse_eq_eval]
    decide +kernel

/-- the tree of `repeat do end until a` -/
private def repeatTree : Green :=
  .node .sourceFile [.node .block [.node .repeatUntilStmt [.token .repeatKw "repeat".toList, .token .whitespace " ".toList,
    .node .block [.node .doStmt [.token .doKw "do".toList, .token .whitespace " ".toList, .node .block [],
      .token .endKw "end".toList]],
    .token .whitespace " ".toList, .token .untilKw "until".toList, .token .whitespace " ".toList,
    .node .nameRef [.token .ident "a".toList]]]]

/-- **C23 fails**: inserting ` end until b repeat do` into `repeat do end until a`, behind the `do`, changes nothing: the
tree is the old one, without the new text, and no error is reported. -/
theorem C23_text_fails : ∃ text tree edit text', sourceFileParse text = .ok (tree, []) ∧ edit.apply text = some text' ∧
    text' ≠ text ∧ reparse tree [] edit = .ok (tree, []) := by
  refine ⟨"repeat do end until a".toList, repeatTree, ⟨" end until b repeat do".toList, ⟨9, 9⟩⟩,
    "repeat do end until b repeat do end until a".toList, ?_, by decide +kernel, by decide +kernel, ?_⟩
  · rw [sourceFileParse_eq_eval]; decide +kernel
  · simp only [reparse, incremental, reparseBlock, parseBlock, blockKinds_eval, full, sourceFileParse_eq_eval]
    decide +kernel

/-- **C23 fails**: `reparse` panics when a blank is inserted behind the `do` of ` do end`: the text of the block begins with
a blank. -/
theorem C23_panics_trivia : ∃ text tree edit text', sourceFileParse text = .ok (tree, []) ∧ edit.apply text = some text' ∧
    reparse tree [] edit = .error .panic := by
  refine ⟨" do end".toList, .node .sourceFile [.node .block [.token .whitespace " ".toList, .node .doStmt [
    .token .doKw "do".toList, .token .whitespace " ".toList, .node .block [], .token .endKw "end".toList]]],
    ⟨" ".toList, ⟨3, 3⟩⟩, " do  end".toList, ?_, by decide +kernel, ?_⟩
  · rw [sourceFileParse_eq_eval]; decide +kernel
  · simp only [reparse, incremental, reparseBlock, parseBlock, blockKinds_eval, full, sourceFileParse_eq_eval]
    decide +kernel

/-- **C23 fails**: `reparse` panics when the first letter of `aa b` is deleted: the ranges of the errors behind the edit are
moved by a negative amount. -/
theorem C23_panics_errors : ∃ text tree errors edit text', sourceFileParse text = .ok (tree, errors) ∧
    edit.apply text = some text' ∧ reparse tree errors edit = .error .panic := by
  refine ⟨"aa b".toList, .node .sourceFile [.node .block [
    .node .exprStmt [.node .multivalExpr [.node .nameRef [.token .ident "aa".toList]]], .token .whitespace " ".toList,
    .node .exprStmt [.node .multivalExpr [.node .nameRef [.token .ident "b".toList]]]]],
    [⟨"Expression statements can only be call expressions", ⟨0, 2⟩⟩, ⟨"Expected a call expression", ⟨0, 2⟩⟩,
     ⟨"Expression statements can only be call expressions", ⟨3, 4⟩⟩, ⟨"Expected a call expression", ⟨3, 4⟩⟩],
    ⟨[], ⟨0, 1⟩⟩, "a b".toList, ?_, by decide +kernel, ?_⟩
  · rw [sourceFileParse_eq_eval]; decide +kernel
  · simp only [reparse, incremental, reparseBlock, parseBlock, blockKinds_eval, full, sourceFileParse_eq_eval]
    decide +kernel

end Verif
