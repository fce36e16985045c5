import Verif.Spec.TreeShape
import Verif.Proof.ParseText
import Verif.Props.Lexer
import Verif.Props.Parse

/-
C01, C02, C03, C06, C09: the tree and the errors `parse_text` builds.
-/
namespace Verif
open PTree Lexer

/-! ### C01, C02, C03 -/

/-- **C01** and **C02** for `parse_text`: it returns normally on every text, with a tree whose text is
the input. -/
theorem C01_lossless (text : Text) : ∃ tree errors, parseText text = .ok (tree, errors) ∧ tree.text = text := by
  obtain ⟨ls, ts, h1, -, -, -, h5⟩ := parseText_main text
  refine ⟨_, _, h5, ?_⟩
  have := placeL_text text.len ts (ls.map lxOf)
  simp [Green.text, Green.textL, this, (lexemes_lx h1).1]

/-- **C02**: lexing, parsing and tree building return normally on every text: none of the panics and
no exhaustion of the recursion budget of the model. -/
theorem C02_total (text : Text) : ∃ result, parseText text = .ok result := by
  obtain ⟨tree, errors, h, -⟩ := C01_lossless text
  exact ⟨_, h⟩

/-- **C03**: the root is a `SourceFile` with a single child, a `Block`, which holds the whole text. -/
theorem C03_root (text : Text) : ∃ children errors,
    parseText text = .ok (.node .sourceFile [.node .block children], errors) ∧
    Green.text (.node .block children) = text := by
  obtain ⟨tree, errors, h1, h2⟩ := C01_lossless text
  obtain ⟨ls, ts, -, -, -, -, h5⟩ := parseText_main text
  rw [h5] at h1
  simp only [Except.ok.injEq, Prod.mk.injEq] at h1
  obtain ⟨rfl, -⟩ := h1
  refine ⟨_, _, h5, ?_⟩
  simpa [Green.text, Green.textL] using h2

/-! ### C06 -/

theorem rangeOf_suffix {lexs a b : List Lx} (h1 : b <:+ a) (h2 : a <:+ lexs) :
    RangeOf (wordsOf lexs) ⟨wlen lexs - wlen a, wlen lexs - wlen b⟩ := by
  obtain ⟨x, rfl⟩ := h2
  obtain ⟨y, rfl⟩ := h1
  refine ⟨?_, ?_, ⟨wordsOf x, wordsOf (y ++ b), ?_, ?_⟩, ⟨wordsOf (x ++ y), wordsOf b, ?_, ?_⟩⟩
  · simp; omega
  · simp [wlen]
  · simp
  · simp [wlen]
  · simp
  · simp [wlen]; omega

/-- token ranges are ranges of the text -/
theorem tokenRanges_rangeOf (pre : Text) (lexs : List Lx) : ∀ r ∈ tokenRanges (Text.len pre) (toksOf lexs),
    RangeOf (pre ++ wordsOf lexs) r := by
  induction lexs generalizing pre with
  | nil => simp [toksOf, tokenRanges]
  | cons l ls ih =>
    intro r hr
    simp only [toksOf, List.map_cons, tokenRanges, List.mem_cons] at hr
    rcases hr with rfl | hr
    · refine ⟨by simp, by simp, ⟨pre, _, rfl, rfl⟩, ⟨pre ++ l.2, wordsOf ls, by simp, by simp⟩⟩
    · have := ih (pre ++ l.2) r (by simpa [toksOf] using hr)
      simpa using this

/-- **C06**: every lexer or parser error of every text has a range of that text. -/
theorem C06_error_ranges (text : Text) (tree : Green) (errors : List SyntaxError)
    (h : parseText text = .ok (tree, errors)) : ∀ e ∈ errors, RangeOf text e.range := by
  obtain ⟨ls, ts, h1, -, -, -, h5⟩ := parseText_main text
  rw [h] at h5
  simp only [Except.ok.injEq, Prod.mk.injEq] at h5
  obtain ⟨-, rfl⟩ := h5
  obtain ⟨hw, ht, -⟩ := lexemes_lx h1
  intro e he
  rw [List.mem_append] at he
  rcases he with he | he
  · obtain ⟨a, b, h2, h3, h4⟩ := placeL_errs text.len ts (ls.map lxOf) e he
    have := rangeOf_suffix h2 h3
    rw [h4]
    simpa [wlen, hw] using this
  · have h2 := C05_errors_are_token_ranges (tokenize_eq h1)
    have h3 := h2.subset (List.mem_map_of_mem he)
    rw [← ht] at h3
    have := tokenRanges_rangeOf [] (ls.map lxOf) e.range (by simpa using h3)
    simpa [hw] using this

/-! ### C09 -/

@[simp] theorem shapeL_append (a b : List Green) : Green.shapeL (a ++ b) = Green.shapeL a ++ Green.shapeL b := by
  induction a with
  | nil => simp [Green.shapeL]
  | cons x xs ih => simp [Green.shapeL, ih]

theorem shapeL_lead (ls : List Lx) : Green.shapeL (lead ls) = [] := by
  induction ls with
  | nil => rfl
  | cons l ls ih =>
    by_cases h : isTriv l = true
    · have : lead (l :: ls) = leaf l :: lead ls := by simp [lead, h]
      rw [this]
      simp only [isTriv] at h
      simp [Green.shapeL, leaf, Green.shape, ih, h]
    · have : lead (l :: ls) = [] := by simp [lead, h]
      rw [this]; rfl

mutual
/-- the shape of the parser's tree -/
def PTree.shape : PTree → List Shape
  | .tok k => [.leaf k]
  | .err _ => []
  | .errNode cs _ => [.node .error (shapeL cs)]
  | .node k cs => [.node k (shapeL cs)]
def PTree.shapeL : List PTree → List Shape
  | [] => []
  | t :: ts => PTree.shape t ++ PTree.shapeL ts
end

mutual
theorem place_shape (n : Nat) (t : PTree) (todo : List Lx) (ks : List SyntaxKind)
    (h : realKinds todo = yield t ++ ks) : Green.shapeL (place n t todo).greens = PTree.shape t := by
  cases t with
  | tok k =>
    obtain ⟨w, r, h1, h2⟩ := afterTriv_of_kinds (ls := todo) (by simpa [PTree.yield] using h)
    have h3 := afterTriv_head h1
    simp only [isTriv] at h3
    simp [place, h1, shapeL_lead, Green.shapeL, leaf, Green.shape, PTree.shape, h3]
  | err e => simp [place, Green.shapeL, PTree.shape]
  | node k cs =>
    have := placeL_shape n cs (afterTriv todo) ks (by rw [realKinds_afterTriv]; simpa [PTree.yield] using h)
    simp [place, shapeL_lead, Green.shapeL, Green.shape, PTree.shape, this]
  | errNode cs e =>
    have := placeL_shape n cs (afterTriv todo) ks (by rw [realKinds_afterTriv]; simpa [PTree.yield] using h)
    simp [place, shapeL_lead, Green.shapeL, Green.shape, PTree.shape, this]
theorem placeL_shape (n : Nat) (ts : List PTree) (todo : List Lx) (ks : List SyntaxKind)
    (h : realKinds todo = yieldL ts ++ ks) : Green.shapeL (placeL n ts todo).greens = PTree.shapeL ts := by
  cases ts with
  | nil => rfl
  | cons t ts =>
    have h1 := place_shape n t todo (yieldL ts ++ ks) (by simpa [yieldL] using h)
    have h2 := realKinds_suffix n (t := t) (ks := yieldL ts ++ ks) (by simpa [yieldL] using h)
    have h3 := placeL_shape n ts _ ks h2
    simp [placeL, PTree.shapeL, h1, h3]
end

/-- the number of real tokens before the point where `a` remains -/
theorem count_ends (pos : Nat) (x a : List Lx) (hne : ∀ l ∈ x ++ a, l.2 ≠ []) :
    (realEnds pos (toksOf (x ++ a))).countP (· ≤ pos + wlen x) = (realKinds x).length := by
  induction x generalizing pos with
  | nil =>
    simp only [List.nil_append, wlen_nil, Nat.add_zero, realKinds, List.filter_nil, List.map_nil, List.length_nil]
    have : ∀ (p : Nat) (ls : List Lx), pos ≤ p → (∀ l ∈ ls, l.2 ≠ []) →
        (realEnds p (toksOf ls)).countP (· ≤ pos) = 0 := by
      intro p ls hp hls
      induction ls generalizing p with
      | nil => rfl
      | cons l ls ih =>
        have hl := Text.len_pos (hls l (by simp))
        simp only [toksOf, List.map_cons, realEnds, List.countP_append]
        have h1 := ih (p + l.2.len) (by omega) (fun l hl => hls l (by simp [hl]))
        simp only [toksOf] at h1
        rw [h1]
        split <;> simp; omega
    exact this pos a (Nat.le_refl _) (by simpa using hne)
  | cons l ls ih =>
    have := ih (pos + l.2.len) (fun l hl => hne l (by simp at hl ⊢; exact Or.inr hl))
    simp only [toksOf, List.cons_append, List.map_cons, realEnds, List.countP_append, wlen_cons] at this ⊢
    rw [← Nat.add_assoc, this]
    simp only [realKinds, List.filter_cons, isTriv]
    by_cases ht : l.1.isTrivia = true
    · simp [ht]
    · simp [ht, isTriv]; omega

/- error places of the parser's tree, given the number of real tokens still to come -/
mutual
def PTree.places (total : Nat) : PTree → Nat → List (String × Nat × Nat)
  | .tok _, _ => []
  | .err e, left => [(e.display, total - left, total - left)]
  | .errNode cs e, left => placesL total cs left ++ [(e.display, total - left, total - (left - (yieldL cs).length))]
  | .node _ cs, left => placesL total cs left
def PTree.placesL (total : Nat) : List PTree → Nat → List (String × Nat × Nat)
  | [], _ => []
  | t :: ts, left => PTree.places total t left ++ PTree.placesL total ts (left - (yield t).length)
end

theorem place_of_suffix {lexs a b : List Lx} (m : String) (hne : ∀ l ∈ lexs, l.2 ≠ []) (h1 : b <:+ a) (h2 : a <:+ lexs) :
    errorPlace (toksOf lexs) ⟨m, ⟨wlen lexs - wlen a, wlen lexs - wlen b⟩⟩ =
      (m, (realKinds lexs).length - (realKinds a).length, (realKinds lexs).length - (realKinds b).length) := by
  have key : ∀ a, a <:+ lexs → (realEnds 0 (toksOf lexs)).countP (· ≤ wlen lexs - wlen a) =
      (realKinds lexs).length - (realKinds a).length := by
    rintro a ⟨x, rfl⟩
    have := count_ends 0 x a hne
    have e : wlen (x ++ a) - wlen a = 0 + wlen x := by simp
    rw [e, this]
    simp [realKinds]
  simp only [errorPlace, key a h2, key b (h1.trans h2)]

mutual
theorem place_places {lexs : List Lx} (hne : ∀ l ∈ lexs, l.2 ≠ []) (t : PTree) (todo : List Lx) (ks : List SyntaxKind)
    (hs : todo <:+ lexs) (h : realKinds todo = yield t ++ ks) :
    (place (wlen lexs) t todo).errs.map (errorPlace (toksOf lexs)) =
      PTree.places (realKinds lexs).length t (realKinds todo).length := by
  cases t with
  | tok k =>
    simp only [place, PTree.places]
    cases afterTriv todo <;> rfl
  | err e =>
    simp only [place, List.map_cons, List.map_nil, Range.empty, PTree.places]
    rw [place_of_suffix _ hne (List.suffix_refl _) hs]
  | node k cs =>
    have := placeL_places hne cs (afterTriv todo) ks ((suffix_afterTriv _).trans hs)
      (by rw [realKinds_afterTriv]; simpa [PTree.yield] using h)
    rw [realKinds_afterTriv] at this
    simpa [place, PTree.places] using this
  | errNode cs e =>
    have hk : realKinds (afterTriv todo) = yieldL cs ++ ks := by
      rw [realKinds_afterTriv]; simpa [PTree.yield] using h
    have h1 := placeL_places hne cs (afterTriv todo) ks ((suffix_afterTriv _).trans hs) hk
    have h2 := place_of_suffix e.display hne (placeL_rest (wlen lexs) cs (afterTriv todo))
      ((suffix_afterTriv _).trans hs)
    have h3 := placeL_realKinds (wlen lexs) cs _ ks hk
    rw [realKinds_afterTriv] at h1 h2
    simp only [place, PTree.places, List.map_append, List.map_cons, List.map_nil, h1, h2]
    rw [h3, h]
    simp [PTree.yield]
theorem placeL_places {lexs : List Lx} (hne : ∀ l ∈ lexs, l.2 ≠ []) (ts : List PTree) (todo : List Lx)
    (ks : List SyntaxKind) (hs : todo <:+ lexs) (h : realKinds todo = yieldL ts ++ ks) :
    (placeL (wlen lexs) ts todo).errs.map (errorPlace (toksOf lexs)) =
      PTree.placesL (realKinds lexs).length ts (realKinds todo).length := by
  cases ts with
  | nil => rfl
  | cons t ts =>
    have h1 := place_places hne t todo (yieldL ts ++ ks) hs (by simpa [yieldL] using h)
    have h2 := realKinds_suffix (wlen lexs) (t := t) (ks := yieldL ts ++ ks) (by simpa [yieldL] using h)
    have h3 := placeL_places hne ts _ ks ((place_rest (wlen lexs) t todo).trans hs) h2
    simp only [placeL, PTree.placesL, List.map_append, h1, h3]
    have : (realKinds (place (wlen lexs) t todo).rest).length = (realKinds todo).length - (yield t).length := by
      rw [h2, h]; simp [yieldL]
    rw [this]
theorem placeL_realKinds (n : Nat) (ts : List PTree) (todo : List Lx) (ks : List SyntaxKind)
    (h : realKinds todo = yieldL ts ++ ks) : realKinds (placeL n ts todo).rest = ks := by
  cases ts with
  | nil => simpa [placeL, yieldL] using h
  | cons t ts =>
    have h2 := realKinds_suffix n (t := t) (ks := yieldL ts ++ ks) (by simpa [yieldL] using h)
    exact placeL_realKinds n ts _ ks h2
end

/-- What the tree and the parser errors of a text look like without trivia. -/
theorem parseText_shape (text : Text) (tokens : List Token) (lexErrors : List SyntaxError)
    (ht : tokenize text = .ok (tokens, lexErrors)) :
    ∃ tree parserErrors ts, parseText text = .ok (tree, parserErrors ++ lexErrors) ∧
      parseKinds (sourceKinds tokens) = .ok (calls (.node .sourceFile [.node .block ts])) ∧
      yieldL ts = sourceKinds tokens ∧
      tree.shape = PTree.shape (.node .sourceFile [.node .block ts]) ∧
      parserErrors.map (errorPlace tokens) =
        PTree.placesL (sourceKinds tokens).length ts (sourceKinds tokens).length := by
  obtain ⟨ls, ts, h1, h2, h3, -, h5⟩ := parseText_main text
  rw [tokenize_eq h1] at ht
  simp only [Except.ok.injEq, Prod.mk.injEq] at ht
  obtain ⟨rfl, rfl⟩ := ht
  obtain ⟨hw, htk, hne, -⟩ := lexemes_lx h1
  have hk : sourceKinds ((attach 0 ls).map (·.1)) = realKinds (ls.map lxOf) := by
    rw [← htk, sourceKinds_toksOf]
  refine ⟨_, _, ts, h5, by rw [hk]; exact h2, by rw [hk, h3], ?_, ?_⟩
  · have hr := placeL_realKinds text.len ts (ls.map lxOf) [] (by simp [h3])
    have hsh := placeL_shape text.len ts (ls.map lxOf) [] (by simp [h3])
    have hz : ∀ l : List Lx, realKinds l = [] → Green.shapeL (l.map leaf) = [] := by
      intro l hl
      induction l with
      | nil => rfl
      | cons x xs ih =>
        by_cases hx : isTriv x = true
        · have := ih (by simpa [realKinds, hx] using hl)
          simp only [isTriv] at hx
          simp [Green.shapeL, leaf, Green.shape, hx, this]
        · simp [realKinds, hx] at hl
    simp [Green.shape, Green.shapeL, PTree.shape, PTree.shapeL, hsh, hz _ hr]
  · have := placeL_places hne ts (ls.map lxOf) [] (List.suffix_refl _) (by simp [h3])
    rw [hk]
    have e : wlen (ls.map lxOf) = text.len := by simp [wlen, hw]
    rw [e, htk] at this
    exact this

/-- **C09**: if two texts have non-trivia tokens of the same kinds in the same order, their trees have the
same shape and the parser reports the same messages at the same places (counted in non-trivia tokens).
The parser's errors come first in the error list, the lexer's own errors follow. -/
theorem C09_trivia_irrelevant (text₁ text₂ : Text) (tokens₁ tokens₂ : List Token)
    (lexErrors₁ lexErrors₂ : List SyntaxError)
    (h₁ : tokenize text₁ = .ok (tokens₁, lexErrors₁)) (h₂ : tokenize text₂ = .ok (tokens₂, lexErrors₂))
    (h : sourceKinds tokens₁ = sourceKinds tokens₂) :
    ∃ tree₁ tree₂ errors₁ errors₂,
      parseText text₁ = .ok (tree₁, errors₁ ++ lexErrors₁) ∧
      parseText text₂ = .ok (tree₂, errors₂ ++ lexErrors₂) ∧
      tree₁.shape = tree₂.shape ∧
      errors₁.map (errorPlace tokens₁) = errors₂.map (errorPlace tokens₂) := by
  obtain ⟨t1, e1, ts1, a1, b1, c1, d1, f1⟩ := parseText_shape text₁ _ _ h₁
  obtain ⟨t2, e2, ts2, a2, b2, c2, d2, f2⟩ := parseText_shape text₂ _ _ h₂
  refine ⟨t1, t2, e1, e2, a1, a2, ?_, ?_⟩
  all_goals
    rw [h] at b1 c1 f1
    rw [b1] at b2
    have hc := Except.ok.inj b2
    have hts : PTree.node .sourceFile [.node .block ts1] = .node .sourceFile [.node .block ts2] := by
      refine (calls_inj _ _ [] [] [] [] (by rw [hc]) ?_).1
      simp [PTree.yield, yieldL, c1, c2]
    simp at hts
    subst hts
  · rw [d1, d2]
  · rw [f1, f2]

/-! ### examples -/

/-- `parseText` with the parser replaced by its evaluable form. -/
def parseTextEval (text : Text) : Except Fail (Green × List SyntaxError) :=
  (tokenize text).bind fun (tokens, errors) =>
  (parseEval (sourceKinds tokens)).bind fun calls =>
  (DSink.runCalls text tokens deferAmount calls {}).bind fun d =>
  (DSink.finish text tokens d).map fun (tree, parserErrors) => (tree, parserErrors ++ errors)

theorem parseText_eq_eval (text : Text) : parseText text = parseTextEval text := by
  simp only [parseText, parseTextEval, parseEval_eq]

set_option maxRecDepth 20000 in
/-- A text with a parser error inside, and leading and trailing trivia: the tree and the error. -/
example : parseText " x=) y ".toList = .ok
    (.node .sourceFile [.node .block [
      .token .whitespace [' '],
      .node .assignStmt [
        .node .multivalExpr [.node .nameRef [.token .ident ['x']]],
        .token .eq ['='],
        .node .multivalExpr [.node .error [.token .rParen [')']]]],
      .token .whitespace [' '],
      .node .exprStmt [.node .multivalExpr [.node .nameRef [.token .ident ['y']]]],
      .token .whitespace [' ']]],
     [⟨"Expected an expression", ⟨3, 4⟩⟩]) := by
  rw [parseText_eq_eval]; rfl

/-- C09 applies to `x=1` and ` x = --c<newline>22`. -/
example : ∃ ts₁ ts₂ es₁ es₂, tokenize "x=1".toList = .ok (ts₁, es₁) ∧
    tokenize " x = --c\n22".toList = .ok (ts₂, es₂) ∧ sourceKinds ts₁ = sourceKinds ts₂ ∧ ts₁ ≠ ts₂ :=
  ⟨_, _, _, _, rfl, rfl, rfl, by decide⟩

end Verif
