import Verif.Spec.Reparsing
import Verif.Props.Reparse

/-
C95: what `reparse` does, in every case.
-/
namespace Verif
open Spec PTree Lexer Lua Reparse

private theorem keepErrors_iff (range : Range) (edit : Indel) (errors : List SyntaxError) :
    (ErrorBehind edit range errors → keepErrors range edit errors = .error .panic) ∧
    (¬ ErrorBehind edit range errors → ∃ m, keepErrors range edit errors = .ok m) := by
  induction errors with
  | nil => exact ⟨fun ⟨_, _, h, _⟩ => (by cases h), fun _ => ⟨[], rfl⟩⟩
  | cons e es ih =>
    obtain ⟨ih1, ih2⟩ := ih
    unfold keepErrors
    by_cases h1 : e.range.stop ≤ range.start
    · rw [if_pos h1]
      have hiff : ErrorBehind edit range (e :: es) ↔ ErrorBehind edit range es := by
        unfold ErrorBehind
        constructor
        · rintro ⟨h, x, hx, h2, h3⟩
          rcases List.mem_cons.1 hx with rfl | hx
          · omega
          · exact ⟨h, x, hx, h2, h3⟩
        · rintro ⟨h, x, hx, h2, h3⟩
          exact ⟨h, x, List.mem_cons_of_mem _ hx, h2, h3⟩
      rw [hiff]
      refine ⟨fun h => by rw [ih1 h]; rfl, fun h => ?_⟩
      obtain ⟨m, hm⟩ := ih2 h
      exact ⟨_, by rw [hm]; rfl⟩
    · rw [if_neg h1]
      by_cases h2 : range.stop ≤ e.range.start
      · rw [if_pos h2]
        unfold Indel.offset
        by_cases h3 : edit.delete.stop - edit.delete.start ≤ edit.insert.len
        · rw [if_pos h3]
          have hno : ∀ l, ¬ ErrorBehind edit range l := fun l h => by have := h.1; omega
          obtain ⟨m, hm⟩ := ih2 (hno _)
          exact ⟨fun h => absurd h (hno _), fun _ => ⟨_, by simp only [hm]; rfl⟩⟩
        · rw [if_neg h3]
          exact ⟨fun _ => rfl, fun h => absurd ⟨by omega, e, by simp, by omega, h2⟩ h⟩
      · rw [if_neg h2]
        have hiff : ErrorBehind edit range (e :: es) ↔ ErrorBehind edit range es := by
          unfold ErrorBehind
          constructor
          · rintro ⟨h, x, hx, h3, h4⟩
            rcases List.mem_cons.1 hx with rfl | hx
            · omega
            · exact ⟨h, x, hx, h3, h4⟩
          · rintro ⟨h, x, hx, h3, h4⟩
            exact ⟨h, x, List.mem_cons_of_mem _ hx, h3, h4⟩
        rw [hiff]
        exact ⟨ih1, ih2⟩

private theorem mergeErrors_iff (range : Range) (edit : Indel) (errors new : List SyntaxError) :
    (ErrorBehind edit range errors → mergeErrors errors new range edit = .error .panic) ∧
    (¬ ErrorBehind edit range errors → ∃ m, mergeErrors errors new range edit = .ok m) := by
  obtain ⟨h1, h2⟩ := keepErrors_iff range edit errors
  refine ⟨fun h => by rw [mergeErrors, h1 h]; rfl, fun h => ?_⟩
  obtain ⟨m, hm⟩ := h2 h
  exact ⟨_, by rw [mergeErrors, hm]; rfl⟩

/-- The edited text of an element around the edit. -/
private theorem edited_iff {tree : Green} {edit : Indel} {el : Red} {text' : Text} (hin : InTree tree el)
    (hcon : el.range.containsRange edit.delete = true) (he : edit.apply tree.text = some text') :
    ∃ w, textAfterEdit el edit = .ok w ∧ ∀ w', EditedTo tree edit el w' ↔ w' = w := by
  obtain ⟨a, b, hc, ho⟩ := hin
  obtain ⟨w, h1, h2⟩ := textAfterEdit_total hc ho hcon he
  refine ⟨w, h1, fun w' => ⟨?_, ?_⟩⟩
  · rintro ⟨A, B, e1, e2, e3⟩
    rw [he, h2] at e3
    have hr := InTree.range hc ho
    have ht := hc.text
    rw [ht] at e1
    rw [hr] at e2
    obtain ⟨rfl, e4⟩ := Text.append_inj_len (a := A) (b := el.green.text ++ B) (c := wordsOf a)
      (d := el.green.text ++ wordsOf b) (by simpa using e1.symm) (by simpa [wlen] using e2)
    obtain ⟨-, rfl⟩ := Text.append_inj_len e4 rfl
    have := Option.some.inj e3
    simpa using this.symm
  · rintro rfl
    refine ⟨wordsOf a, wordsOf b, hc.text, ?_, by rw [he, h2]⟩
    rw [InTree.range hc ho]; rfl

private theorem newline_iff {tree : Green} {edit : Indel} {el : Red} {w : Text} (hin : InTree tree el)
    (hw : textAfterEdit el edit = .ok w) : ∃ b, deletesNewline el edit = .ok b ∧
      (b = false ↔ (el.kind = .whitespace ∨ el.kind = .comment →
        ∀ D, tree.text.slice edit.delete.start edit.delete.stop = some D → '\n' ∉ D)) := by
  obtain ⟨a, b, hc, ho⟩ := hin
  unfold deletesNewline
  by_cases hk : el.kind = .whitespace ∨ el.kind = .comment
  · rw [if_pos hk]
    have hr := InTree.range hc ho
    simp only [textAfterEdit, hr, Range.unshift] at hw ⊢
    by_cases hle : wlen a ≤ edit.delete.start ∧ wlen a ≤ edit.delete.stop
    · rw [if_pos hle] at hw ⊢
      simp only [Except.bind] at hw ⊢
      cases hap : Indel.apply ⟨edit.insert, ⟨edit.delete.start - wlen a, edit.delete.stop - wlen a⟩⟩ el.green.text with
      | none => rw [hap] at hw; simp at hw
      | some u =>
        obtain ⟨X, D, Y, e1, e2, e3, e4⟩ := indel_apply_iff.1 hap
        simp only at e3 e4
        have h1 := Text.slice_append X D Y
        rw [e4, e3, ← e1] at h1
        have h2 := Text.slice_append (wordsOf a ++ X) D (Y ++ wordsOf b)
        have e5 : wordsOf a ++ X ++ D ++ (Y ++ wordsOf b) = tree.text := by
          rw [hc.text, e1]; simp
        rw [e5] at h2
        simp only [Text.len_append] at h2
        rw [show (wordsOf a).len = wlen a from rfl] at h2
        rw [show wlen a + X.len = edit.delete.start from by omega,
          show edit.delete.start + D.len = edit.delete.stop from by omega] at h2
        rw [h1, h2]
        refine ⟨_, rfl, ?_⟩
        simp [hk]
    · rw [if_neg hle] at hw
      simp [Except.bind] at hw
  · rw [if_neg hk]
    exact ⟨false, rfl, by simp [hk]⟩

private theorem covering {tree : Green} {edit : Indel} {text' : Text} (he : edit.apply tree.text = some text') :
    ∃ el above, Red.coveringElement tree edit.delete = .ok (el, above) := by
  obtain ⟨X, D, Y, x1, x2, x3, x4⟩ := indel_apply_iff.1 (show Indel.apply ⟨edit.insert, edit.delete⟩ tree.text = some text' from he)
  have hroot : (Red.root tree).range.containsRange edit.delete = true := by
    rw [contains_iff]
    simp only [Red.root, Red.range, Green.range, Range.ofLen, Green.len]
    rw [x1]; simp only [Text.len_append]; omega
  obtain ⟨el, above, c1, -⟩ := coveringElement_spec tree edit.delete hroot
  exact ⟨el, above, c1⟩

private theorem token_none {tree : Green} {edit : Indel} {text' : Text} (he : edit.apply tree.text = some text')
    (hno : ¬ ∃ el w, OnToken tree edit el w) : reparseToken tree edit = .ok none := by
  obtain ⟨el, above, c1⟩ := covering he
  obtain ⟨i1, -, c4, -⟩ := covering_inTree c1
  obtain ⟨w, d1, d2⟩ := edited_iff i1 c4 he
  obtain ⟨nl, n1, n2⟩ := newline_iff i1 d1
  unfold reparseToken
  rw [c1]
  simp only [Except.bind]
  split
  · rfl
  rename_i hnode
  split
  · rfl
  rename_i hkind
  rw [n1]
  simp only
  split
  · rfl
  rename_i hnl
  rw [d1]
  simp only
  obtain ⟨ls, hl⟩ := lexemes_exists w
  have htk := tokenize_eq hl
  cases hl with
  | nil => rfl
  | cons hf hl' =>
    rw [firstToken_eq hf]
    simp only
    split
    · rfl
    · rename_i hk
      exfalso
      refine hno ⟨el, w, ⟨above, c1⟩, by simpa using hnode, ?_, n2.1 (by simpa using hnl), (d2 w).2 rfl, ?_⟩
      · simpa [tokenKinds] using Classical.not_not.1 hkind
      · exact ⟨_, _, _, htk, by simpa [attach] using hk⟩

private theorem token_some {tree : Green} {edit : Indel} {el : Red} {w : Text} (h : OnToken tree edit el w) :
    ∃ new, reparseToken tree edit = .ok (some (Green.replaceAt (.token el.kind w) el.path tree, new, el.range)) := by
  obtain ⟨⟨above, c1⟩, hnode, hkind, hlines, hed, t, ts, errs, htk, hk⟩ := h
  have hed' := hed
  obtain ⟨A, B, e1, e2, he⟩ := hed'
  obtain ⟨i1, -, c4, -⟩ := covering_inTree c1
  obtain ⟨w', d1, d2⟩ := edited_iff i1 c4 he
  have := (d2 w).1 hed
  subst this
  obtain ⟨nl, n1, n2⟩ := newline_iff i1 d1
  have hnl : nl = false := n2.2 hlines
  subst hnl
  unfold reparseToken
  rw [c1]
  simp only [Except.bind, hnode, Bool.false_eq_true, if_false]
  rw [if_neg (not_not_intro (show el.kind ∈ tokenKinds from hkind)), n1]
  simp only [Bool.false_eq_true, if_false, d1]
  obtain ⟨ls, hl⟩ := lexemes_exists w
  rw [tokenize_eq hl] at htk
  cases hl with
  | nil => simp [attach] at htk
  | cons hf hl' =>
    simp only [attach, List.map_cons, Except.ok.injEq, Prod.mk.injEq, List.cons.injEq] at htk
    obtain ⟨⟨ht, -⟩, -⟩ := htk
    rw [firstToken_eq hf]
    simp only
    rw [if_neg (not_not_intro (by rw [← ht] at hk; exact hk))]
    simp only [Green.replaceWith, Green.kind, if_true, Except.map]
    exact ⟨_, rfl⟩

/-- **C95**: an edit that does not fit the text of the tree makes `reparse` panic. -/
theorem C95_unfit (tree : Green) (errors : List SyntaxError) (edit : Indel) (he : edit.apply tree.text = none) :
    reparse tree errors edit = .error .panic := by
  have hpanic : ∀ {el : Red} {w : Text}, InTree tree el → textAfterEdit el edit ≠ .ok w := by
    rintro el w ⟨a, b, hc, ho⟩ h
    have := textAfterEdit_spec hc ho h
    rw [he] at this
    cases this
  have hta : ∀ {el : Red}, InTree tree el → textAfterEdit el edit = .error .panic := by
    intro el hin
    cases h : textAfterEdit el edit with
    | ok w => exact absurd h (hpanic hin)
    | error e =>
      cases e with
      | panic => rfl
      | fuel =>
        exfalso
        unfold textAfterEdit Range.unshift at h
        split at h
        · simp only [Except.bind] at h
          split at h <;> cases h
        · cases h
  unfold reparse incremental
  by_cases hroot : (Red.root tree).range.containsRange edit.delete = true
  · obtain ⟨el, above, c1, -⟩ := coveringElement_spec tree edit.delete hroot
    obtain ⟨i1, i2, c4, -⟩ := covering_inTree c1
    have hblock : reparseBlock tree edit = .error .panic ∨ reparseBlock tree edit = .ok none := by
      unfold reparseBlock reparsableNode
      rw [c1]
      simp only [Except.map, Except.bind]
      cases hfind : (if el.green.isNode then el :: above else above).find? (fun r => r.kind == .block) with
      | none => exact .inr rfl
      | some node =>
        left
        have hmem := List.mem_of_find?_eq_some hfind
        have hin : InTree tree node := by
          split at hmem
          · rcases List.mem_cons.1 hmem with e | e
            · rw [e]; exact i1
            · exact (i2 _ e).1
          · exact (i2 _ hmem).1
        simp only [hta hin]
    have htoken : reparseToken tree edit = .error .panic ∨ reparseToken tree edit = .ok none := by
      unfold reparseToken
      rw [c1]
      simp only [Except.bind]
      split
      · exact .inr rfl
      split
      · exact .inr rfl
      have hnl : deletesNewline el edit = .error .panic ∨ ∃ b, deletesNewline el edit = .ok b := by
        unfold deletesNewline Range.unshift
        split
        · split
          · simp only [Except.bind]
            split
            · exact .inr ⟨_, rfl⟩
            · exact .inl rfl
          · exact .inl rfl
        · exact .inr ⟨_, rfl⟩
      rcases hnl with hnl | ⟨b, hnl⟩
      · rw [hnl]; exact .inl rfl
      · rw [hnl]
        simp only [hta i1]
        split
        · exact .inr rfl
        · exact .inl rfl
    rcases htoken with h | h
    · rw [h]; rfl
    · rw [h]
      simp only [Except.bind]
      rcases hblock with h | h
      · rw [h]
      · rw [h]
        simp only [full, he]
  · have : Red.coveringElement tree edit.delete = .error .panic := by
      unfold Red.coveringElement
      rw [Red.coverLoop]
      simp [hroot]
    unfold reparseToken
    rw [this]
    rfl

/-- **C95**, one token: `reparse` puts the edited token, whatever it now contains, into the old tree; it panics exactly
if there is an error behind the token and the edit shortens the text. -/
theorem C95_token (tree : Green) (errors : List SyntaxError) (edit : Indel) (el : Red) (w : Text)
    (h : OnToken tree edit el w) :
    (ErrorBehind edit el.range errors → reparse tree errors edit = .error .panic) ∧
    (¬ ErrorBehind edit el.range errors → ∃ errors',
      reparse tree errors edit = .ok (Green.replaceAt (.token el.kind w) el.path tree, errors')) := by
  obtain ⟨new, hr⟩ := token_some h
  obtain ⟨h1, h2⟩ := mergeErrors_iff el.range edit errors new
  unfold reparse incremental
  rw [hr]
  simp only [Except.bind]
  refine ⟨fun hb => by rw [h1 hb]; rfl, fun hb => ?_⟩
  obtain ⟨m, hm⟩ := h2 hb
  exact ⟨m, by rw [hm]; rfl⟩

private theorem trivia_lead {s : Text} {ls : List Lexeme} (h : Lexemes s ls) (hs : StartsWithTrivia s) :
    lead (ls.map lxOf) ≠ [] := by
  obtain ⟨tokens, errors, t, h1, h2, h3⟩ := hs
  rw [tokenize_eq h] at h1
  cases ls with
  | nil =>
    simp only [attach, List.map_nil, Except.ok.injEq, Prod.mk.injEq] at h1
    rw [← h1.1] at h2; simp at h2
  | cons l ls =>
    simp only [attach, List.map_cons, Except.ok.injEq, Prod.mk.injEq] at h1
    rw [← h1.1] at h2
    simp only [List.head?_cons, Option.some.injEq] at h2
    subst h2
    simp only [lead, List.map_cons, ne_eq, List.map_eq_nil_iff]
    rw [List.takeWhile_cons, if_pos]
    · simp
    · simp only [isTriv, lxOf]
      simp only [List.mem_cons, List.not_mem_nil, or_false] at h3
      rcases h3 with h3 | h3 <;> rw [h3] <;> rfl

private theorem block_facts {tree : Green} {edit : Indel} {el : Red} {above : List Red} {node : Red}
    (c1 : Red.coveringElement tree edit.delete = .ok (el, above))
    (hfind : (if el.green.isNode then el :: above else above).find? (·.kind == .block) = some node) :
    InTree tree node ∧ node.range.containsRange edit.delete = true ∧ node.kind = .block := by
  obtain ⟨i1, i2, c4, c3⟩ := covering_inTree c1
  have hmem := List.mem_of_find?_eq_some hfind
  have hk : node.kind = .block := by simpa using List.find?_some hfind
  split at hmem
  · rename_i hn
    rcases List.mem_cons.1 hmem with e | e
    · rw [e] at hk ⊢; exact ⟨i1, c4, hk⟩
    · exact ⟨(i2 _ e).1, c3 _ e, hk⟩
  · exact ⟨(i2 _ hmem).1, c3 _ hmem, hk⟩

private theorem balanced_iff {w : Text} {ls : List Lexeme} (hl : Lexemes w ls) :
    isBalanced ((attach 0 ls).map (·.1)) = true ↔ ∃ ts errors t, tokenize w = .ok (ts, errors) ∧ ts.getLast? = some t ∧
      t.kind = .endKw := by
  unfold isBalanced
  rw [tokenize_eq hl]
  cases h : ((attach 0 ls).map (·.1)).getLast? with
  | none =>
    constructor
    · intro h; cases h
    · rintro ⟨ts, errs, t, h1, h2, -⟩
      simp only [Except.ok.injEq, Prod.mk.injEq] at h1
      rw [← h1.1, h] at h2
      cases h2
  | some t =>
    constructor
    · intro hk; exact ⟨_, _, t, rfl, h, by simpa using hk⟩
    · rintro ⟨ts, errs, t', h1, h2, h3⟩
      simp only [Except.ok.injEq, Prod.mk.injEq] at h1
      rw [← h1.1, h] at h2
      cases h2
      simpa using h3

private theorem block_none {tree : Green} {edit : Indel} {text' : Text} (he : edit.apply tree.text = some text')
    (hno : ¬ ∃ node w, OnBlock tree edit node w) : reparseBlock tree edit = .ok none := by
  obtain ⟨el, above, c1⟩ := covering he
  unfold reparseBlock reparsableNode
  rw [c1]
  simp only [Except.map, Except.bind]
  cases hfind : (if el.green.isNode then el :: above else above).find? (fun r => r.kind == .block) with
  | none => rfl
  | some node =>
    simp only
    obtain ⟨hin, hcon, hk⟩ := block_facts c1 hfind
    obtain ⟨w, d1, d2⟩ := edited_iff hin hcon he
    rw [d1]
    simp only
    obtain ⟨ls, hl⟩ := lexemes_exists w
    rw [tokenize_eq hl]
    simp only
    split
    · rfl
    · rename_i hb
      exfalso
      refine hno ⟨node, w, ⟨el, above, c1, hfind⟩, (d2 w).2 rfl, ?_⟩
      exact (balanced_iff hl).1 (by simpa using hb)

private theorem block_some {tree : Green} {edit : Indel} {node : Red} {w : Text} (h : OnBlock tree edit node w) :
    (StartsWithTrivia w → reparseBlock tree edit = .error .panic) ∧
    (¬ StartsWithTrivia w → ∃ cs new, reparseBlock tree edit =
      .ok (some (Green.replaceAt (.node .block cs) node.path tree, new, node.range))) := by
  obtain ⟨⟨el, above, c1, hfind⟩, hed, hends⟩ := h
  have hed' := hed
  obtain ⟨A, B, e1, e2, he⟩ := hed'
  obtain ⟨hin, hcon, hk⟩ := block_facts c1 hfind
  obtain ⟨w', d1, d2⟩ := edited_iff hin hcon he
  have := (d2 w).1 hed
  subst this
  obtain ⟨ls, hl⟩ := lexemes_exists w
  have hbal := (balanced_iff hl).2 hends
  obtain ⟨ts, rest, -, -, -, -, g5⟩ := parseBlock_main hl
  unfold reparseBlock reparsableNode
  rw [c1]
  simp only [Except.map, Except.bind, hfind, d1, tokenize_eq hl, hbal, Bool.not_true, Bool.false_eq_true, if_false, g5]
  constructor
  · intro ht
    rw [if_neg (trivia_lead hl ht)]
  · intro ht
    rw [if_pos (lead_nil hl ht)]
    simp only [Green.replaceWith, hk, Green.kind, if_true]
    exact ⟨_, _, rfl⟩

/-- **C95**, one block: if the edit is not on one token, and the innermost block around it ends with `end` after the
edit, `reparse` puts a new block in the place of the old one (by `C23_text_partial` its text is the edited text of
the block up to a lost part); it panics exactly if the edited text of the block begins with whitespace or a comment, or there is an
error behind the block and the edit shortens the text. -/
theorem C95_block (tree : Green) (errors : List SyntaxError) (edit : Indel) (block : Red) (w : Text)
    (hno : ¬ ∃ el w, OnToken tree edit el w) (h : OnBlock tree edit block w) :
    (StartsWithTrivia w ∨ ErrorBehind edit block.range errors → reparse tree errors edit = .error .panic) ∧
    (¬ StartsWithTrivia w ∧ ¬ ErrorBehind edit block.range errors → ∃ cs errors',
      reparse tree errors edit = .ok (Green.replaceAt (.node .block cs) block.path tree, errors')) := by
  obtain ⟨A, B, e1, e2, he⟩ := h.edited
  obtain ⟨b1, b2⟩ := block_some h
  unfold reparse incremental
  rw [token_none he hno]
  simp only [Except.bind]
  by_cases ht : StartsWithTrivia w
  · rw [b1 ht]
    exact ⟨fun _ => rfl, fun hh => absurd ht hh.1⟩
  · obtain ⟨cs, new, hr⟩ := b2 ht
    rw [hr]
    simp only
    obtain ⟨h1, h2⟩ := mergeErrors_iff block.range edit errors new
    refine ⟨fun hb => ?_, fun hb => ?_⟩
    · rw [h1 (hb.resolve_left ht)]; rfl
    · obtain ⟨m, hm⟩ := h2 hb.2
      exact ⟨cs, m, by rw [hm]; rfl⟩

/-- **C95**, otherwise: `reparse` parses the edited text. -/
theorem C95_full (tree : Green) (errors : List SyntaxError) (edit : Indel) (text' : Text)
    (he : edit.apply tree.text = some text') (hno : ¬ ∃ el w, OnToken tree edit el w)
    (hno' : ¬ ∃ block w, OnBlock tree edit block w) : reparse tree errors edit = sourceFileParse text' := by
  unfold reparse incremental
  rw [token_none he hno]
  simp only [Except.bind]
  rw [block_none he hno']
  simp only [full, he]


private theorem skel_rest : ∀ {a b : List Lx}, SameKinds a b → skelL (a.map leaf) = skelL (b.map leaf) := by
  intro a
  induction a with
  | nil => intro b h; cases b with
    | nil => rfl
    | cons => simp [SameKinds] at h
  | cons x xs ih =>
    intro b h
    cases b with
    | nil => simp [SameKinds] at h
    | cons y ys =>
      simp only [SameKinds, List.map_cons, List.cons.injEq] at h
      simp only [List.map_cons, skelL, leaf, skel, h.1]
      rw [ih (b := ys) h.2]

/-- **C95**, when the result for one token is right: the tree with the edited token is the tree of the edited text exactly
if lexing the edited text gives the tokens of that tree, i.e. the edited token is still one token and its neighbours are
unchanged. -/
theorem C95_agree (text text' : Text) (tree : Green) (errors : List SyntaxError) (edit : Indel) (el : Red) (w : Text)
    (hp : sourceFileParse text = .ok (tree, errors)) (h : OnToken tree edit el w) (he : edit.apply text = some text') :
    (∃ es, sourceFileParse text' = .ok (Green.replaceAt (.token el.kind w) el.path tree, es)) ↔
    ∃ lexErrors, tokenize text' =
      .ok ((Green.replaceAt (.token el.kind w) el.path tree).leaves.map fun l => ⟨l.1, l.2.len⟩, lexErrors) := by
  obtain ⟨ls, ts, more, l1, l2, l3, l4, l5⟩ := sourceFileParse_shape text
  obtain ⟨ls', ts', more', m1, m2, m3, m4, m5⟩ := sourceFileParse_shape text'
  obtain ⟨w1, w2, w3, w4⟩ := lexemes_lx l1
  obtain ⟨v1, v2, v3, v4⟩ := lexemes_lx m1
  rw [l5] at hp
  simp only [Except.ok.injEq, Prod.mk.injEq] at hp
  obtain ⟨htree, _⟩ := hp
  have hlv : tree.leaves = ls.map lxOf := by
    rw [← htree]
    simp [Green.leaves, Green.leavesL, placeL_leaves]
  have htext : tree.text = text := by rw [text_leaves, hlv, w1]
  have hlv' : ∀ tree' es, sourceFileParse text' = .ok (tree', es) → tree'.leaves = ls'.map lxOf := by
    intro tree' es h
    rw [m5] at h
    simp only [Except.ok.injEq, Prod.mk.injEq] at h
    rw [← h.1]
    simp [Green.leaves, Green.leavesL, placeL_leaves]
  constructor
  · rintro ⟨es, h'⟩
    refine ⟨(attach 0 ls').filterMap (·.2), ?_⟩
    rw [hlv' _ _ h', tokenize_eq m1, ← v2]
    rfl
  · rintro ⟨lexErrors, ht⟩
    obtain ⟨⟨above, c1⟩, hnode, -, -, ⟨A, B, a1, a2, a3⟩, -⟩ := h
    obtain ⟨⟨a, b, hc, ho⟩, -, -, -⟩ := covering_inTree c1
    obtain ⟨u, hu⟩ : ∃ u, el.green = .token el.kind u := by
      cases hg : el.green with
      | token k u => exact ⟨u, by rw [Red.kind, hg]; rfl⟩
      | node k cs => rw [hg] at hnode; cases hnode
    have hold : ls.map lxOf = a ++ (el.kind, u) :: b := by
      rw [← hlv, hc.leaves, hu]; simp [Green.leaves]
    have hnew : (Green.replaceAt (.token el.kind w) el.path tree).leaves = a ++ (el.kind, w) :: b := by
      rw [(hc.replace (.token el.kind w)).leaves]; simp [Green.leaves]
    -- the text of the new tree
    have hw : text' = wordsOf (a ++ (el.kind, w) :: b) := by
      rw [htext, he] at a3
      have hr := InTree.range hc ho
      rw [hc.text] at a1
      rw [hr] at a2
      obtain ⟨rfl, e4⟩ := Text.append_inj_len (a := A) (b := el.green.text ++ B) (c := wordsOf a)
        (d := el.green.text ++ wordsOf b) (by simpa using a1.symm) (by simpa [wlen] using a2)
      obtain ⟨-, rfl⟩ := Text.append_inj_len e4 rfl
      have := Option.some.inj a3
      rw [this]; simp
    rw [tokenize_eq m1, ← v2] at ht
    simp only [Except.ok.injEq, Prod.mk.injEq] at ht
    rw [hnew] at ht
    obtain ⟨hlx', -⟩ := lx_inj (l1 := ls'.map lxOf) (l2 := a ++ (el.kind, w) :: b) (x := []) (y := []) ht.1
      (by rw [v1, ← hw])
    have hsame : SameKinds (ls.map lxOf) (ls'.map lxOf) := by rw [hold, hlx']; simp [SameKinds]
    have hreal : realKinds (ls.map lxOf) = realKinds (ls'.map lxOf) := by
      rw [hold, hlx']; cases hk : el.kind.isTrivia <;> simp [realKinds, isTriv, List.filter_append, hk]
    have hts : ts = ts' := by
      rw [← hreal] at m2 m3
      exact parseKinds_ts l2 l3 m2 m3
    subst hts
    have hnewtree : Green.replaceAt (.token el.kind w) el.path tree =
        .node .sourceFile [.node .block ((placeL text'.len ts (ls'.map lxOf)).greens ++
            (placeL text'.len ts (ls'.map lxOf)).rest.map leaf)] := by
      refine (skel_inj (x := []) (x' := []) ?_ ?_).1
      · rw [hc.skel (by rw [hu]; simp [skel]), ← htree]
        obtain ⟨p1, p2⟩ := placeL_skel text.len text'.len ts hsame
        simp [skel, skelL, p1, skel_rest p2]
      · rw [hnew]
        simp [Green.leaves, Green.leavesL, placeL_leaves, hlx']
    exact ⟨_, by rw [hnewtree]; exact m5⟩

/-- the tree of `x=<name>` -/
private def assignTo (w : Text) : Green :=
  .node .sourceFile [.node .block [.node .assignStmt [
    .node .multivalExpr [.node .nameRef [.token .ident ['x']]],
    .token .eq ['='],
    .node .multivalExpr [.node .nameRef [.token .ident w]]]]]

/-- A case of `C95_token` and `C95_agree`: `o` is inserted into the name in `x=foo`. -/
example : sourceFileParse "x=foo".toList = .ok (assignTo "foo".toList, []) ∧
    OnToken (assignTo "foo".toList) ⟨['o'], ⟨4, 4⟩⟩ ⟨[0, 0, 2, 0, 0], 2, .token .ident "foo".toList⟩ "fooo".toList ∧
    tokenize "x=fooo".toList = .ok ((assignTo "fooo".toList).leaves.map fun l => ⟨l.1, l.2.len⟩, []) := by
  refine ⟨?_, ?_, by decide +kernel⟩
  · rw [sourceFileParse_eq_eval]; decide +kernel
  · refine ⟨?_, rfl, by decide, by decide, ⟨"x=".toList, [], by decide +kernel, by decide +kernel, by decide +kernel⟩,
      ⟨.ident, 4⟩, [], [], by decide +kernel, rfl⟩
    cases h : Red.coveringElement (assignTo "foo".toList) ⟨4, 4⟩ with
    | error e =>
      have : (Red.coveringElement (assignTo "foo".toList) ⟨4, 4⟩).isOk = true := by decide +kernel
      rw [h] at this; cases this
    | ok r =>
      refine ⟨r.2, ?_⟩
      have : (Red.coveringElement (assignTo "foo".toList) ⟨4, 4⟩).toOption.all (fun r =>
          r.1.path == [0, 0, 2, 0, 0] && r.1.off == 2 && r.1.green == .token .ident "foo".toList) = true := by decide +kernel
      rw [h] at this
      rcases r with ⟨⟨p, o, g⟩, above⟩
      simp only [Except.toOption, Option.all_some, Bool.and_eq_true, beq_iff_eq] at this
      obtain ⟨⟨rfl, rfl⟩, rfl⟩ := this
      rfl

/-- A case of `C95_agree` where the tree is not the tree of the edited text: ` y=1` behind the name. -/
example : OnToken (assignTo "foo".toList) ⟨" y=1".toList, ⟨5, 5⟩⟩ ⟨[0, 0, 2, 0, 0], 2, .token .ident "foo".toList⟩
      "foo y=1".toList ∧
    tokenize "x=foo y=1".toList ≠ .ok ((assignTo "foo y=1".toList).leaves.map fun l => ⟨l.1, l.2.len⟩, []) := by
  refine ⟨?_, by decide +kernel⟩
  refine ⟨?_, rfl, by decide, by decide, ⟨"x=".toList, [], by decide +kernel, by decide +kernel, by decide +kernel⟩,
      ⟨.ident, 3⟩, [⟨.whitespace, 1⟩, ⟨.ident, 1⟩, ⟨.eq, 1⟩, ⟨.number, 1⟩], [], by decide +kernel, rfl⟩
  cases h : Red.coveringElement (assignTo "foo".toList) ⟨5, 5⟩ with
  | error e =>
    have : (Red.coveringElement (assignTo "foo".toList) ⟨5, 5⟩).isOk = true := by decide +kernel
    rw [h] at this; cases this
  | ok r =>
    refine ⟨r.2, ?_⟩
    have : (Red.coveringElement (assignTo "foo".toList) ⟨5, 5⟩).toOption.all (fun r =>
        r.1.path == [0, 0, 2, 0, 0] && r.1.off == 2 && r.1.green == .token .ident "foo".toList) = true := by decide +kernel
    rw [h] at this
    rcases r with ⟨⟨p, o, g⟩, above⟩
    simp only [Except.toOption, Option.all_some, Bool.and_eq_true, beq_iff_eq] at this
    obtain ⟨⟨rfl, rfl⟩, rfl⟩ := this
    rfl

/-- the tree of `do x=<number> do end end` -/
private def doDo (w : Text) : Green :=
  .node .sourceFile [.node .block [.node .doStmt [.token .doKw "do".toList, .token .whitespace " ".toList,
    .node .block [.node .assignStmt [.node .multivalExpr [.node .nameRef [.token .ident "x".toList]],
      .token .eq "=".toList, .node .multivalExpr [.node .literal [.token .number w]]],
      .token .whitespace " ".toList, .node .doStmt [.token .doKw "do".toList, .token .whitespace " ".toList,
        .node .block [], .token .endKw "end".toList]],
    .token .whitespace " ".toList, .token .endKw "end".toList]]]

private theorem not_onToken {tree : Green} {edit : Indel}
    (h : (Red.coveringElement tree edit.delete).toOption.all
      (fun r => !([SyntaxKind.whitespace, .comment, .ident, .str].contains r.1.kind)) = true) :
    ¬ ∃ el w, OnToken tree edit el w := by
  rintro ⟨el, w, ⟨above, c⟩, -, hk, -⟩
  rw [c] at h
  simp only [Except.toOption, Option.all_some, Bool.not_eq_true', List.contains_eq_mem, decide_eq_false_iff_not] at h
  exact h hk

/-- A case of `C95_block`: `2` is inserted behind the `1` in `do x=1 do end end`. -/
example : (¬ ∃ el w, OnToken (doDo ['1']) ⟨['2'], ⟨6, 6⟩⟩ el w) ∧
    ∃ block, OnBlock (doDo ['1']) ⟨['2'], ⟨6, 6⟩⟩ block "x=12 do end".toList ∧ block.range = ⟨3, 13⟩ ∧
      ¬ StartsWithTrivia "x=12 do end".toList ∧ ¬ ErrorBehind ⟨['2'], ⟨6, 6⟩⟩ block.range [] := by
  refine ⟨not_onToken (by decide +kernel), ?_⟩
  cases h : Red.coveringElement (doDo ['1']) ⟨6, 6⟩ with
  | error e =>
    have : (Red.coveringElement (doDo ['1']) ⟨6, 6⟩).isOk = true := by decide +kernel
    rw [h] at this; cases this
  | ok r =>
    rcases r with ⟨el, above⟩
    have key : (Red.coveringElement (doDo ['1']) ⟨6, 6⟩).toOption.all (fun r =>
        match (if r.1.green.isNode then r.1 :: r.2 else r.2).find? (·.kind == .block) with
        | none => false
        | some b => b.range == ⟨3, 13⟩ && b.green.text == "x=1 do end".toList) = true := by decide +kernel
    rw [h] at key
    simp only [Except.toOption, Option.all_some] at key
    cases hf : (if el.green.isNode then el :: above else above).find? (·.kind == .block) with
    | none => rw [hf] at key; cases key
    | some b =>
      rw [hf] at key
      simp only [Bool.and_eq_true, beq_iff_eq] at key
      refine ⟨b, ⟨⟨el, above, h, hf⟩, ⟨"do ".toList, " end".toList, ?_, ?_, by decide +kernel⟩, ?_⟩, key.1, ?_, ?_⟩
      · rw [key.2]; decide +kernel
      · rw [key.1]; decide +kernel
      · exact ⟨[⟨.ident, 1⟩, ⟨.eq, 1⟩, ⟨.number, 2⟩, ⟨.whitespace, 1⟩, ⟨.doKw, 2⟩, ⟨.whitespace, 1⟩, ⟨.endKw, 3⟩], [],
          ⟨.endKw, 3⟩, by decide +kernel, rfl, rfl⟩
      · rintro ⟨ts, es, t, h1, h2, h3⟩
        rw [show tokenize "x=12 do end".toList = .ok ([⟨.ident, 1⟩, ⟨.eq, 1⟩, ⟨.number, 2⟩, ⟨.whitespace, 1⟩, ⟨.doKw, 2⟩,
          ⟨.whitespace, 1⟩, ⟨.endKw, 3⟩], []) from by decide +kernel] at h1
        simp only [Except.ok.injEq, Prod.mk.injEq] at h1
        rw [← h1.1] at h2
        cases h2
        exact absurd h3 (by decide)
      · rintro ⟨h, -⟩; exact absurd h (by decide)

/-- A case of `C95_full`: `2` is inserted behind `x=1`: the block is the whole text and does not end with `end`. -/
example : (¬ ∃ el w, OnToken (assignTree .number ['1']) ⟨['2'], ⟨3, 3⟩⟩ el w) ∧
    (¬ ∃ block w, OnBlock (assignTree .number ['1']) ⟨['2'], ⟨3, 3⟩⟩ block w) ∧
    Indel.apply ⟨['2'], ⟨3, 3⟩⟩ (assignTree .number ['1']).text = some "x=12".toList := by
  refine ⟨not_onToken (by decide +kernel), ?_, by decide +kernel⟩
  rintro ⟨block, w, ⟨el, above, c, hf⟩, ⟨A, B, e1, e2, e3⟩, ts, es, t, h1, h2, h3⟩
  have key : (Red.coveringElement (assignTree .number ['1']) ⟨3, 3⟩).toOption.all (fun r =>
        match (if r.1.green.isNode then r.1 :: r.2 else r.2).find? (·.kind == .block) with
        | none => false
        | some b => b.range == ⟨0, 3⟩ && b.green.text == "x=1".toList) = true := by decide +kernel
  rw [c] at key
  simp only [Except.toOption, Option.all_some, hf, Bool.and_eq_true, beq_iff_eq] at key
  rw [key.1] at e2
  have hA : A = [] := by
    cases A with
    | nil => rfl
    | cons a A => have := Text.len_pos (s := a :: A) (by simp); simp only at e2; omega
  subst hA
  rw [key.2] at e1
  have hB : B = [] := by
    have : (assignTree .number ['1']).text = "x=1".toList := by decide +kernel
    rw [this] at e1
    simpa using e1
  subst hB
  have : Indel.apply ⟨['2'], ⟨3, 3⟩⟩ (assignTree .number ['1']).text = some "x=12".toList := by decide +kernel
  rw [this] at e3
  have hw : w = "x=12".toList := by simpa using e3.symm
  subst hw
  rw [show tokenize "x=12".toList = .ok ([⟨.ident, 1⟩, ⟨.eq, 1⟩, ⟨.number, 2⟩], []) from by decide +kernel] at h1
  simp only [Except.ok.injEq, Prod.mk.injEq] at h1
  rw [← h1.1] at h2
  cases h2
  exact absurd h3 (by decide)

end Verif
