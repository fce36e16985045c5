import Verif.Proof.TreeContext
import Verif.Proof.ParseText
import Verif.Props.Parse
import Verif.Proof.TextEditProof
import Verif.Proof.LspProof
import Verif.Props.ParseText
import Verif.Props.Validation
import Verif.Props.LexerRelex

/-
Lemmas about reparsing.
-/
namespace Verif
open Spec PTree Lexer Lua P Grammar Item

/-! ### The block grammar on its own -/

theorem blockKinds_main (toks : List SyntaxKind) (hne : NE toks) :
    ∃ ts rest, Reparse.blockKinds toks = .ok (calls (.node .block ts)) ∧ toks = yieldL ts ++ rest ∧
      BLOCK_END.contains (la rest) = true ∧
      (errorsL ts = [] → Deriv .accepted .block [.node .block ts]) := by
  have h : Spec (Grammar.block (2 * toks.length + 4)) toks _ :=
    blockRaw_spec (recN_ok (2 * toks.length + 3)) (2 * toks.length + 3) BLOCK_END
      (by simp [BLOCK_END, TokenSet.contains_new]) toks hne (by omega) (by omega)
  have := h 0 [] []
  rw [wpF_iff] at this
  obtain ⟨a, s', h1, items, toks', ev', rfl, h2, ⟨h3, h5⟩, h4, p, af, rfl⟩ := this
  obtain ⟨s2, h6, _, h7⟩ := run_process _ _ _ _ h1 rfl
  refine ⟨toTreeL af, toks', ?_, (by simp at h2; rw [h2]; rfl), h4, ?_⟩
  · simp only [Reparse.blockKinds, h6]
    simpa [toTreeL, toTree, callsL] using h7
  · intro he
    obtain ⟨b, hb, d⟩ := h5 (by simp; exact he)
    have : b = .node .block (toTreeL af) := by simpa [toTreeL, toTree] using hb.symm
    rw [← this]; exact d

/-- Parsing the text of a block: a panic if it starts with trivia, else one `Block` node over what the block grammar
consumed. -/
theorem parseBlock_main {text : Text} {ls : List Lexeme} (h : Lexemes text ls) :
    ∃ ts rest, realKinds (ls.map lxOf) = yieldL ts ++ rest ∧ BLOCK_END.contains (la rest) = true ∧
      (errorsL ts = [] → Deriv .accepted .block [.node .block ts]) ∧
      realKinds (placeL text.len ts (afterTriv (ls.map lxOf))).rest = rest ∧
      Reparse.parseBlock text ((attach 0 ls).map (·.1)) =
        if lead (ls.map lxOf) = [] then
          .ok (.node .block (placeL text.len ts (afterTriv (ls.map lxOf))).greens,
            (placeL text.len ts (afterTriv (ls.map lxOf))).errs)
        else .error .panic := by
  obtain ⟨h1, h2, h3, h4⟩ := lexemes_lx h
  have hne : NE (realKinds (ls.map lxOf)) := by
    intro hm
    simp only [realKinds, List.mem_map] at hm
    obtain ⟨l, hl, e⟩ := hm
    exact h4 l (List.mem_filter.mp hl).1 e
  obtain ⟨ts, rest, h5, h6, h7, h8⟩ := blockKinds_main _ hne
  have hhere : Here text (toksOf (ls.map lxOf)) (ls.map lxOf) {} :=
    ⟨rfl, ⟨[], by simp [h1], rfl⟩, by simp⟩
  obtain ⟨s', e1, e2, e3⟩ := run_calls (.node .block ts) (ls.map lxOf) {} rest hhere (by simpa [PTree.yield] using h6)
  have h10 : sourceKinds ((attach 0 ls).map (·.1)) = realKinds (ls.map lxOf) := by
    rw [← h2, sourceKinds_toksOf]
  rw [h2] at e1
  have hch := e2.children
  have herr := e2.errors
  simp only [place] at hch herr e3
  refine ⟨ts, rest, h6, h7, h8, e3, ?_⟩
  simp only [Reparse.parseBlock, h10, h5, Except.bind, e1, Sink.finish, Builder.finish, hch, herr, List.nil_append]
  cases lead (ls.map lxOf) with
  | nil => simp [Except.map]
  | cons x xs => cases xs <;> simp [Except.map]

/-! ### Edits inside an element -/

theorem indel_apply_iff {ins text new : Text} {r : Range} : Indel.apply ⟨ins, r⟩ text = some new ↔
    ∃ X D Y, text = X ++ D ++ Y ∧ new = X ++ ins ++ Y ∧ X.len = r.start ∧ X.len + D.len = r.stop := by
  constructor
  · exact Lsp.indel_apply_some
  · rintro ⟨X, D, Y, rfl, rfl, h1, h2⟩
    have e1 := Text.sliceTo_append X (D ++ Y)
    have e2 := Text.sliceFrom_append (X ++ D) Y
    rw [Text.len_append, h2] at e2
    rw [h1, ← List.append_assoc] at e1
    unfold Indel.apply
    simp only
    rw [if_pos (by omega), e1, e2]

theorem contains_iff {a b : Range} : a.containsRange b = true ↔ a.start ≤ b.start ∧ b.stop ≤ a.stop := by
  simp [Range.containsRange]

theorem InTree.range {g : Green} {r : Red} {a b : List Lx} (_h : Ctx r.green g r.path a b) (ho : r.off = wlen a) :
    r.range = ⟨wlen a, wlen a + r.green.len⟩ := by
  simp [Red.range, Green.range, Range.ofLen, ho]

/-- what the edit does to the text of an element that contains it -/
theorem textAfterEdit_spec {g : Green} {r : Red} {a b : List Lx} {edit : Indel} {newText : Text}
    (h : Ctx r.green g r.path a b) (ho : r.off = wlen a) (he : Reparse.textAfterEdit r edit = .ok newText) :
    edit.apply g.text = some (wordsOf a ++ newText ++ wordsOf b) := by
  rw [h.text]
  simp only [Reparse.textAfterEdit, InTree.range h ho, Range.unshift] at he
  by_cases hc : wlen a ≤ edit.delete.start ∧ wlen a ≤ edit.delete.stop
  · rw [if_pos hc] at he
    simp only [Except.bind] at he
    cases hap : Indel.apply ⟨edit.insert, ⟨edit.delete.start - wlen a, edit.delete.stop - wlen a⟩⟩ r.green.text with
    | none => rw [hap] at he; simp at he
    | some t =>
      rw [hap] at he
      simp only [Except.ok.injEq] at he
      subst he
      obtain ⟨X, D, Y, e1, e2, e3, e4⟩ := indel_apply_iff.1 hap
      refine indel_apply_iff.2 ⟨wordsOf a ++ X, D, Y ++ wordsOf b, by rw [e1]; simp, by rw [e2]; simp, ?_, ?_⟩
      · simp only [Text.len_append] at e3 ⊢; simp only [wlen] at *; omega
      · simp only [Text.len_append] at e4 ⊢; simp only [wlen] at *; omega
  · rw [if_neg hc] at he; simp [Except.bind] at he

theorem textAfterEdit_total {g : Green} {r : Red} {a b : List Lx} {edit : Indel} {t' : Text}
    (h : Ctx r.green g r.path a b) (ho : r.off = wlen a) (hc : r.range.containsRange edit.delete = true)
    (he : edit.apply g.text = some t') : ∃ newText, Reparse.textAfterEdit r edit = .ok newText ∧
      t' = wordsOf a ++ newText ++ wordsOf b := by
  rw [InTree.range h ho, contains_iff] at hc
  rw [h.text] at he
  obtain ⟨X, D, Y, e1, e2, e3, e4⟩ := indel_apply_iff.1 he
  simp only at hc
  obtain ⟨m, hm1, hm2⟩ := TextEdit.append_split (a := wordsOf a) (b := r.green.text ++ wordsOf b) (c := X) (d := D ++ Y)
    (by simpa using e1) (by simp only [wlen] at hc; omega)
  obtain ⟨n, hn1, hn2⟩ := TextEdit.append_split (a := X ++ D) (b := Y) (c := wordsOf a ++ r.green.text) (d := wordsOf b)
    (by rw [← e1]) (by simp only [Text.len_append, Green.len, wlen] at *; omega)
  have hr : r.green.text = m ++ D ++ n := by
    rw [hm1] at hn1
    simpa using hn1
  have hX : X.len = wlen a + m.len := by rw [hm1]; simp [wlen]
  refine ⟨m ++ edit.insert ++ n, ?_, by rw [e2, hm1, hn2]; simp⟩
  simp only [Reparse.textAfterEdit, InTree.range h ho, Range.unshift]
  rw [if_pos (by omega)]
  simp only [Except.bind]
  rw [indel_apply_iff.2 ⟨m, D, n, hr, rfl, by simp only; omega, by simp only; omega⟩]

/-! ### Finding a leaf -/

/-- `l` is an element at or under `r`. -/
inductive Under : Red → Red → Prop
  | self {r} : Under r r
  | step {r c l} : c ∈ r.elems → Under c l → Under r l

theorem Under.contains {r l} (h : Under r l) : r.range.containsRange l.range = true := by
  induction h with
  | self => simp [Range.containsRange]
  | step hc _ ih =>
    have := child_range hc
    rw [contains_iff] at *
    omega

theorem range_le (r : Red) : r.range.start ≤ r.range.stop := by
  simp [Red.range, Green.range, Range.ofLen]

theorem elems_pairwise (r : Red) : r.elems.Pairwise fun a b => a.range.stop ≤ b.range.start :=
  (elemsFrom_ranges r.path r.green.children 0 r.off).1

mutual
theorem under_leaf (p : List Nat) (o : Nat) (g : Green) {a b : List Lx} {k w} (h : g.leaves = a ++ (k, w) :: b) :
    ∃ l, Under ⟨p, o, g⟩ l ∧ l.green = .token k w ∧ l.off = o + wlen a := by
  cases g with
  | token k' t =>
    simp only [Green.leaves] at h
    cases a with
    | nil => simp at h; exact ⟨_, .self, by simp [h], by simp⟩
    | cons x xs => simp at h
  | node k' cs =>
    obtain ⟨c, hc, l, h1, h2, h3⟩ := under_leafL p 0 o cs (by simpa [Green.leaves] using h)
    exact ⟨l, .step hc h1, h2, h3⟩
theorem under_leafL (p : List Nat) (i o : Nat) (cs : List Green) {a b : List Lx} {k w}
    (h : Green.leavesL cs = a ++ (k, w) :: b) :
    ∃ c ∈ Red.elemsFrom p i o cs, ∃ l, Under c l ∧ l.green = .token k w ∧ l.off = o + wlen a := by
  cases cs with
  | nil => simp [Green.leavesL] at h
  | cons g gs =>
    simp only [Green.leavesL] at h
    rw [List.append_eq_append_iff] at h
    have hgl : g.len = wlen g.leaves := by simp [Green.len, text_leaves, wlen]
    rcases h with ⟨m, h1, h2⟩ | ⟨m, h1, h2⟩
    · obtain ⟨c, hc, l, e1, e2, e3⟩ := under_leafL p (i + 1) (o + g.len) gs h2
      refine ⟨c, List.mem_cons_of_mem _ hc, l, e1, e2, ?_⟩
      rw [e3, h1, wlen_append, hgl]; omega
    · cases m with
      | nil =>
        simp only [List.nil_append] at h2
        simp only [List.append_nil] at h1
        obtain ⟨c, hc, l, e1, e2, e3⟩ := under_leafL p (i + 1) (o + g.len) gs (a := []) h2.symm
        refine ⟨c, List.mem_cons_of_mem _ hc, l, e1, e2, ?_⟩
        rw [e3, ← h1, hgl]; simp
      | cons x xs =>
        simp only [List.cons_append, List.cons.injEq] at h2
        rw [← h2.1] at h1
        obtain ⟨l, e1, e2, e3⟩ := under_leaf (p ++ [i]) o g h1
        exact ⟨_, List.mem_cons_self, l, e1, e2, e3⟩
end

private theorem findIdx?_unique {α} {l : List α} {q : α → Bool} {c : α} (hc : c ∈ l) (hq : q c = true)
    {R : α → α → Prop} (hR : l.Pairwise R) (h1 : ∀ x, R x c → q x = false) :
    ∃ i, l.findIdx? q = some i ∧ l[i]? = some c := by
  induction l with
  | nil => simp at hc
  | cons x xs ih =>
    rw [List.pairwise_cons] at hR
    rcases List.mem_cons.1 hc with rfl | hc
    · exact ⟨0, by simp [List.findIdx?_cons, hq], rfl⟩
    · obtain ⟨i, e1, e2⟩ := ih hc hR.2
      refine ⟨i + 1, ?_, by simpa using e2⟩
      simp [List.findIdx?_cons, h1 x (hR.1 c hc), e1]

/-- a child that overlaps the range and contains it is found -/
theorem childAtRange_overlap {r c : Red} {range : Range} (hc : c ∈ r.elems) (hcon : c.range.containsRange range = true)
    (hov : c.range.ordering range = .eq) : r.childAtRange range = some c := by
  obtain ⟨i, e1, e2⟩ := findIdx?_unique (q := fun (c : Red) => c.range.ordering range == Ordering.eq) hc (by simp [hov])
    (elems_pairwise r) (by
      intro x hx
      rw [contains_iff] at hcon
      have : x.range.ordering range = .lt := by simp only [Range.ordering]; rw [if_pos (by omega)]
      simp [this])
  simp only [Red.childAtRange]
  rw [e1]
  simp only [e2]
  simp [hcon]

private theorem countP_of_split {α} {l : List α} {q : α → Bool} {c : α} {R : α → α → Prop} (hc : c ∈ l)
    (hR : l.Pairwise R) (hq : q c = true) (h1 : ∀ x, R x c → q x = true) (h2 : ∀ x ∈ l, R c x → q x = false) :
    l[l.countP q - 1]? = some c ∧ 0 < l.countP q := by
  obtain ⟨x, y, rfl⟩ := List.append_of_mem hc
  rw [List.pairwise_append] at hR
  obtain ⟨_, h4, h5⟩ := hR
  rw [List.pairwise_cons] at h4
  have hx : x.countP q = x.length := by
    rw [List.countP_eq_length]
    intro z hz
    exact h1 z (h5 z hz c (by simp))
  have hy : y.countP q = 0 := by
    rw [List.countP_eq_zero]
    intro z hz
    simp [h2 z (by simp [hz]) (h4.1 z hz)]
  have : (x ++ c :: y).countP q = x.length + 1 := by
    rw [List.countP_append, List.countP_cons, hx, hy]; simp [hq]
  rw [this]
  simp

/-- at the end of a child, with nothing empty after it -/
theorem childAtRange_end {r c : Red} {x : Nat} (hc : c ∈ r.elems) (hlt : c.range.start < x) (he : c.range.stop = x)
    (hempty : ∀ d ∈ r.elems, d.range ≠ ⟨x, x⟩) : r.childAtRange ⟨x, x⟩ = some c := by
  have hord : ∀ d ∈ r.elems, d.range.ordering ⟨x, x⟩ = .eq → False := by
    intro d hd h
    simp only [Range.ordering] at h
    split at h
    · simp at h
    · split at h
      · simp at h
      · have hp := elems_pairwise r
        obtain ⟨y, z, e⟩ := List.append_of_mem hc
        rw [e] at hp hd
        rw [List.pairwise_append, List.pairwise_cons] at hp
        rcases List.mem_append.1 hd with hd | hd
        · have := hp.2.2 d hd c (by simp); omega
        · rcases List.mem_cons.1 hd with rfl | hd
          · omega
          · have := hp.2.1.1 d hd; omega
  have hnone : r.elems.findIdx? (fun (c : Red) => c.range.ordering ⟨x, x⟩ == Ordering.eq) = none := by
    rw [List.findIdx?_eq_none_iff]
    intro d hd
    cases hb : (d.range.ordering ⟨x, x⟩ == Ordering.eq) with
    | false => rfl
    | true => exact (hord d hd (by simpa using hb)).elim
  obtain ⟨e1, _⟩ := countP_of_split (q := fun (c : Red) => (c.range.ordering ⟨x, x⟩ == Ordering.lt)) hc (elems_pairwise r)
    (by simp [Range.ordering, he])
    (by
      intro y hy
      have : y.range.ordering ⟨x, x⟩ = .lt := by simp only [Range.ordering]; rw [if_pos (by omega)]
      simp [this])
    (by
      intro y hy hcy
      have h1 := range_le y
      have : y.range.ordering ⟨x, x⟩ ≠ .lt := by
        simp only [Range.ordering]
        split
        · exfalso
          apply hempty y hy
          have : y.range = ⟨y.range.start, y.range.stop⟩ := rfl
          rw [this, Range.mk.injEq]; omega
        · split <;> simp
      simpa using this)
  simp only [Red.childAtRange]
  rw [hnone]
  simp only [e1]
  simp [Range.containsRange, he]
  omega

/-- `covering_element` from a node above a leaf finds the leaf -/
theorem coverLoop_leaf (range : Range) {l : Red} (hl : l.green.isNode = false) (hcon : l.range.containsRange range = true)
    (hle : range.start ≤ range.stop) {r : Red}
    (hhit : l.range.ordering range = .eq ∨ (∃ x, range = ⟨x, x⟩ ∧ l.range.start < x ∧ l.range.stop = x ∧
      ∀ d, Under r d → d.range ≠ ⟨x, x⟩)) (h : Under r l) :
    ∀ (fuel : Nat) (ps : List Red), r.green.count + 1 < fuel → ∃ above, Red.coverLoop range fuel r ps = .ok (l, above) := by
  induction h with
  | self =>
    intro fuel ps hf
    cases fuel with
    | zero => omega
    | succ n =>
      exact ⟨ps, by simp [Red.coverLoop, hcon, hl]⟩
  | @step r c l hc hu ih =>
    intro fuel ps hf
    cases fuel with
    | zero => omega
    | succ n =>
      have hn : r.green.isNode = true := by
        cases hg : r.green with
        | token => simp [Red.elems, hg, Green.children, Red.elemsFrom] at hc
        | node => rfl
      have h1 := hu.contains
      have h2 := child_range hc
      have h3 := range_le l
      rw [contains_iff] at h1 h2 hcon
      have hch : r.childAtRange range = some c := by
        rcases hhit with hh | ⟨x, rfl, hx1, hx2, hx3⟩
        · refine childAtRange_overlap hc (contains_iff.2 (by omega)) ?_
          simp only [Range.ordering] at hh ⊢
          split at hh
          · simp at hh
          · split at hh
            · simp at hh
            · rw [if_neg (by omega), if_neg (by omega)]
        · by_cases hcx : c.range.stop = x
          · exact childAtRange_end hc (by omega) hcx (fun d hd => hx3 d (.step hd .self))
          · refine childAtRange_overlap hc (contains_iff.2 (by simp only at *; omega)) ?_
            simp only [Range.ordering]
            rw [if_neg (by omega), if_neg (by omega)]
      have hcount : c.green.count + 1 < n := by
        cases hcn : c.green.isNode with
        | true =>
          have := count_child (List.mem_filter.2 ⟨hc, hcn⟩)
          omega
        | false =>
          have : c.green.count = 0 := by
            cases hg : c.green with
            | token => simp [Green.count, Green.nodes]
            | node => rw [hg] at hcn; simp [Green.isNode] at hcn
          have := count_pos hn
          omega
      obtain ⟨above, e⟩ := ih hl (contains_iff.2 hcon) (hhit.imp id (by
        rintro ⟨x, e1, e2, e3, e4⟩
        exact ⟨x, e1, e2, e3, fun d hd => e4 d (.step hc hd)⟩)) n (r :: ps) hcount
      refine ⟨above, ?_⟩
      simp only [Red.coverLoop]
      rw [if_neg (by rw [contains_iff.2 (by omega)]; simp), if_neg (by simp [hn]), hch]
      exact e

/-! ### Parsed files -/

theorem sourceFileParse_shape (text : Text) : ∃ ls ts more, Lexemes text ls ∧
    parseKinds (realKinds (ls.map lxOf)) = .ok (calls (.node .sourceFile [.node .block ts])) ∧
    yieldL ts = realKinds (ls.map lxOf) ∧
    (errorsL ts = [] → Lua.Program .accepted (.node .sourceFile [.node .block ts])) ∧
    sourceFileParse text = .ok
      (.node .sourceFile [.node .block ((placeL text.len ts (ls.map lxOf)).greens ++
          (placeL text.len ts (ls.map lxOf)).rest.map leaf)],
        ((placeL text.len ts (ls.map lxOf)).errs ++ (attach 0 ls).filterMap (·.2)) ++ more) := by
  obtain ⟨ls, ts, h1, h2, h3, ⟨_, h4⟩, h5⟩ := parseText_main text
  obtain ⟨tree, errors, more, h6, h7, _⟩ := sourceFileParse_eq text
  rw [h5] at h6
  simp only [Except.ok.injEq, Prod.mk.injEq] at h6
  obtain ⟨rfl, rfl⟩ := h6
  exact ⟨ls, ts, more, h1, h2, h3, h4, h7⟩

theorem Lexemes.unique {s : Text} {ls ls' : List Lexeme} (h : Lexemes s ls) (h' : Lexemes s ls') : ls = ls' := by
  induction h generalizing ls' with
  | nil => cases h' with
    | nil => rfl
    | cons h _ => have := h.length_lt; simp at this
  | cons h _ ih =>
    cases h' with
    | nil => have := h.length_lt; simp at this
    | cons h' ht' =>
      cases h with
      | mk e1 e2 =>
        cases h' with
        | mk e3 e4 =>
          rw [e1] at e3
          simp only [Prod.mk.injEq] at e3
          obtain ⟨⟨rfl, rfl⟩, rfl⟩ := e3
          rw [e2] at e4
          have hw := List.append_cancel_right e4
          subst hw
          rw [ih ht']

/-- Two trees over the same kinds of tokens. -/
theorem parseKinds_ts {ks : List SyntaxKind} {ts ts' : List PTree}
    (h : parseKinds ks = .ok (calls (.node .sourceFile [.node .block ts]))) (hy : yieldL ts = ks)
    (h' : parseKinds ks = .ok (calls (.node .sourceFile [.node .block ts']))) (hy' : yieldL ts' = ks) : ts = ts' := by
  rw [h] at h'
  have hc := (calls_inj (.node .sourceFile [.node .block ts]) (.node .sourceFile [.node .block ts']) [] [] [] []
    (by simpa using h') (by simp [PTree.yield, yieldL, hy, hy'])).1
  simpa using hc

theorem lx_inj {l1 l2 : List Lx} (h : toksOf l1 = toksOf l2) {x y : Text} (hw : wordsOf l1 ++ x = wordsOf l2 ++ y) :
    l1 = l2 ∧ x = y := by
  induction l1 generalizing l2 with
  | nil => cases l2 with
    | nil => simpa using hw
    | cons => simp [toksOf] at h
  | cons a l1 ih =>
    cases l2 with
    | nil => simp [toksOf] at h
    | cons b l2 =>
      simp only [toksOf, List.map_cons, List.cons.injEq, Token.mk.injEq] at h
      simp only [wordsOf_cons, List.append_assoc] at hw
      obtain ⟨e1, e2⟩ := Text.append_inj_len hw h.1.2
      obtain ⟨e3, e4⟩ := ih h.2 e2
      exact ⟨by rw [e3, show a = b from Prod.ext h.1.1 e1], e4⟩

/-- prefixes of a list of tokens are told apart by their length in bytes -/
theorem prefix_unique {pre a b post : List Lx} (h : pre ++ post = a ++ b)
    (hne : ∀ l ∈ pre ++ post, l.2 ≠ []) (hl : wlen pre = wlen a) : pre = a ∧ post = b := by
  rw [List.append_eq_append_iff] at h
  rcases h with ⟨x, rfl, h2⟩ | ⟨x, rfl, h2⟩
  · cases x with
    | nil => simp at h2 ⊢; exact h2
    | cons y ys =>
      have := Text.len_pos (hne y (by rw [h2]; simp))
      simp at hl; omega
  · cases x with
    | nil => simp at h2 ⊢; exact h2.symm
    | cons y ys =>
      have := Text.len_pos (hne y (by simp))
      simp at hl; omega

theorem relex_first {s rest : Text} {l : Lexeme} (h : FirstLexeme s l rest) :
    ∃ e, Lexemes l.word [⟨l.word, l.kind, e⟩] ∧ e.isSome = l.err.isSome := by
  cases h with
  | @mk c cs w k e rest h1 h2 =>
    have hne := (FirstLexeme.mk h1 h2).word_ne
    obtain ⟨x, xs, rfl⟩ : ∃ x xs, w = x :: xs := by
      cases w with
      | nil => exact absurd rfl hne
      | cons x xs => exact ⟨x, xs, rfl⟩
    simp only [List.cons_append, List.cons.injEq] at h2
    obtain ⟨rfl, rfl⟩ := h2
    obtain ⟨e', he1, he2⟩ := lexForm_trunc c xs rest (by rw [h1])
    rw [h1] at he1 he2
    exact ⟨e', .cons (.mk he1 (by simp)) .nil, he2⟩

theorem Lexemes.first_of_mem {s : Text} {ls : List Lexeme} (h : Lexemes s ls) {l : Lexeme} (hl : l ∈ ls) :
    ∃ s' rest, FirstLexeme s' l rest := by
  induction h with
  | nil => simp at hl
  | cons h1 _ ih =>
    rcases List.mem_cons.1 hl with rfl | hl
    · exact ⟨_, _, h1⟩
    · exact ih hl

end Verif
