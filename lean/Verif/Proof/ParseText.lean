import Verif.Proof.SinkProof
import Verif.Props.LexerWords

/-
`parseText` on every text, in terms of the lexemes and the parser's tree.
-/
namespace Verif
open PTree Lexer Lua

/-- No token has kind `Eof` or a node kind. -/
theorem lexForm_ne_eof (c : Char) (cs : Text) : (lexForm c cs).1.1 ≠ .eof := by
  have two1 : ∀ x k2 k1 cs, k2 ≠ SyntaxKind.eof → k1 ≠ SyntaxKind.eof → (two x k2 k1 cs).1.1 ≠ .eof := by
    intro x k2 k1 cs h2 h1
    cases cs with
    | nil => exact h1
    | cons y ys => simp only [two]; split <;> assumption
  refine lexForm_cases (P := fun c cs r => r.1.1 ≠ .eof) ?_ ?_ ?_ ?_ ?_ ?_ ?_ ?_ ?_ ?_ ?_ ?_ ?_ ?_ ?_ ?_ ?_ c cs
  case refine_13 =>
    intro c cs k h
    have := singleKind_mem h
    have hall : ∀ p ∈ [('(', SyntaxKind.lParen), (')', .rParen), ('{', .lBrace), ('}', .rBrace), (']', .rBracket),
      (',', .comma), (';', .semicolon), ('#', .hash), ('+', .plus), ('*', .asterisk), ('/', .slash),
      ('%', .modulo), ('^', .caret), ('!', .bang)], p.2 ≠ .eof := by decide
    exact hall _ this
  case refine_14 =>
    intro c cs h
    exact (fromKeyword_ne_white _).2.2
  all_goals (intros; first | exact two1 _ _ _ _ (by decide) (by decide) | simp)

def lxOf (l : Lexeme) : Lx := (l.kind, l.word)

theorem lexemes_lx {s : Text} {ls : List Lexeme} (h : Lexemes s ls) :
    wordsOf (ls.map lxOf) = s ∧ toksOf (ls.map lxOf) = (attach 0 ls).map (·.1) ∧
      (∀ l ∈ ls.map lxOf, l.2 ≠ []) ∧ (∀ l ∈ ls.map lxOf, l.1 ≠ .eof) := by
  refine ⟨?_, ?_, ?_, ?_⟩
  · rw [← h.flatten]; simp [wordsOf, lxOf, Function.comp_def]
  · rw [attach_tokens]; simp [toksOf, lxOf, Function.comp_def]
  · intro l hl
    simp at hl
    obtain ⟨l', h1, rfl⟩ := hl
    exact h.words_ne l' h1
  · intro l hl
    simp at hl
    obtain ⟨l', h1, rfl⟩ := hl
    induction h with
    | nil => simp at h1
    | cons h _ ih =>
      simp at h1
      rcases h1 with rfl | h1
      · cases h with
        | mk h2 h3 =>
          have := lexForm_ne_eof _ _ |> fun x => (h2 ▸ x)
          exact this
      · exact ih h1

/-- The outcome of `parse_text`. -/
theorem parseText_main (text : Text) : ∃ ls ts, Lexemes text ls ∧
    parseKinds (realKinds (ls.map lxOf)) = .ok (calls (.node .sourceFile [.node .block ts])) ∧
    yieldL ts = realKinds (ls.map lxOf) ∧
    (shapedL ts ∧ (errorsL ts = [] → Lua.Program .accepted (.node .sourceFile [.node .block ts]))) ∧
    parseText text = .ok
      (let p := placeL text.len ts (ls.map lxOf)
       (.node .sourceFile [.node .block (p.greens ++ p.rest.map leaf)],
         p.errs ++ (attach 0 ls).filterMap (·.2))) := by
  obtain ⟨ls, h⟩ := lexemes_exists text
  obtain ⟨h1, h2, h3, h4⟩ := lexemes_lx h
  have hne : NE (realKinds (ls.map lxOf)) := by
    intro hm
    simp only [realKinds, List.mem_map] at hm
    obtain ⟨l, hl, e⟩ := hm
    exact h4 l (List.mem_filter.mp hl).1 e
  obtain ⟨ts, h5, h6, h7, h7'⟩ := parseKinds_main _ hne
  refine ⟨ls, ts, h, h5, h6, ⟨h7, h7'⟩, ?_⟩
  obtain ⟨d, h8, h9⟩ := dsink_tree (ls.map lxOf) ts h6.symm
  rw [h1, h2] at h8 h9
  have h10 : sourceKinds ((attach 0 ls).map (·.1)) = realKinds (ls.map lxOf) := by
    rw [← h2, sourceKinds_toksOf]
  simp only [parseText, tokenize_eq h, Except.bind, h10, h5, deferAmount, h8, h9, Except.map]

/-! ### facts about `place` -/

theorem suffix_afterTriv (ls : List Lx) : afterTriv ls <:+ ls := List.dropWhile_suffix _

theorem suffix_of_afterTriv {ls : List Lx} {l r} (h : afterTriv ls = l :: r) : r <:+ ls :=
  (List.suffix_cons l r).trans (h ▸ suffix_afterTriv ls)

mutual
theorem place_rest (n : Nat) (t : PTree) (todo : List Lx) : (place n t todo).rest <:+ todo := by
  cases t with
  | tok k =>
    simp only [place]
    cases h : afterTriv todo with
    | nil => simp
    | cons l r => exact suffix_of_afterTriv h
  | err e => simp [place]
  | node k cs => exact (placeL_rest n cs _).trans (suffix_afterTriv todo)
  | errNode cs e => exact (placeL_rest n cs _).trans (suffix_afterTriv todo)
theorem placeL_rest (n : Nat) (ts : List PTree) (todo : List Lx) : (placeL n ts todo).rest <:+ todo := by
  cases ts with
  | nil => simp [placeL]
  | cons t ts => exact (placeL_rest n ts _).trans (place_rest n t todo)
end

@[simp] theorem textL_append (a b : List Green) : Green.textL (a ++ b) = Green.textL a ++ Green.textL b := by
  induction a with
  | nil => simp [Green.textL]
  | cons x xs ih => simp [Green.textL, ih]

@[simp] theorem textL_leaves (ls : List Lx) : Green.textL (ls.map leaf) = wordsOf ls := by
  induction ls with
  | nil => simp [Green.textL]
  | cons x xs ih => simp [Green.textL, ih, leaf, Green.text]

theorem lead_text (ls : List Lx) : Green.textL (lead ls) ++ wordsOf (afterTriv ls) = wordsOf ls := by
  rw [lead, textL_leaves, afterTriv, ← wordsOf_append, List.takeWhile_append_dropWhile]

mutual
theorem place_text (n : Nat) (t : PTree) (todo : List Lx) :
    Green.textL (place n t todo).greens ++ wordsOf (place n t todo).rest = wordsOf todo := by
  have hl := lead_text todo
  cases t with
  | tok k =>
    simp only [place]
    cases h : afterTriv todo with
    | nil => rw [h] at hl; simpa using hl
    | cons l r => rw [h] at hl; simp [Green.textL, leaf, Green.text] at hl ⊢; exact hl
  | err e => simp [place, Green.textL]
  | node k cs =>
    have := placeL_text n cs (afterTriv todo)
    simp [place, Green.textL, Green.text, this, hl]
  | errNode cs e =>
    have := placeL_text n cs (afterTriv todo)
    simp [place, Green.textL, Green.text, this, hl]
theorem placeL_text (n : Nat) (ts : List PTree) (todo : List Lx) :
    Green.textL (placeL n ts todo).greens ++ wordsOf (placeL n ts todo).rest = wordsOf todo := by
  cases ts with
  | nil => simp [placeL, Green.textL]
  | cons t ts =>
    have h1 := place_text n t todo
    have h2 := placeL_text n ts (place n t todo).rest
    simp [placeL, h2, h1]
end

mutual
/-- every parser error's range begins and ends where some tokens remain -/
theorem place_errs (n : Nat) (t : PTree) (todo : List Lx) : ∀ e ∈ (place n t todo).errs,
    ∃ a b, b <:+ a ∧ a <:+ todo ∧ e.range = ⟨n - wlen a, n - wlen b⟩ := by
  cases t with
  | tok k =>
    simp only [place]
    cases h : afterTriv todo <;> simp
  | err e =>
    intro x hx
    simp [place] at hx
    subst hx
    exact ⟨todo, todo, List.suffix_refl _, List.suffix_refl _, rfl⟩
  | node k cs =>
    intro x hx
    obtain ⟨a, b, h1, h2, h3⟩ := placeL_errs n cs (afterTriv todo) x hx
    exact ⟨a, b, h1, h2.trans (suffix_afterTriv _), h3⟩
  | errNode cs e =>
    intro x hx
    simp [place] at hx
    rcases hx with hx | hx
    · obtain ⟨a, b, h1, h2, h3⟩ := placeL_errs n cs (afterTriv todo) x hx
      exact ⟨a, b, h1, h2.trans (suffix_afterTriv _), h3⟩
    · subst hx
      exact ⟨_, _, placeL_rest n cs _, suffix_afterTriv _, rfl⟩
theorem placeL_errs (n : Nat) (ts : List PTree) (todo : List Lx) : ∀ e ∈ (placeL n ts todo).errs,
    ∃ a b, b <:+ a ∧ a <:+ todo ∧ e.range = ⟨n - wlen a, n - wlen b⟩ := by
  cases ts with
  | nil => simp [placeL]
  | cons t ts =>
    intro x hx
    simp [placeL] at hx
    rcases hx with hx | hx
    · exact place_errs n t todo x hx
    · obtain ⟨a, b, h1, h2, h3⟩ := placeL_errs n ts (place n t todo).rest x hx
      exact ⟨a, b, h1, h2.trans (place_rest n t todo), h3⟩
end

/-- the remaining real tokens after placing a tree -/
theorem realKinds_suffix {todo : List Lx} {t : PTree} {ks : List SyntaxKind} (n : Nat)
    (h : realKinds todo = yield t ++ ks) : realKinds (place n t todo).rest = ks := by
  have : (place n t todo).rest = (place (Text.len (wordsOf todo)) t todo).rest := by
    clear h ks
    exact rest_indep n _ t todo
  rw [this]
  obtain ⟨s', -, -, h3⟩ := run_calls (text := wordsOf todo) (tokens := toksOf todo) t todo {} ks
    ⟨by simp, ⟨[], by simp⟩, by simp⟩ h
  exact h3
where
  rest_indep (n m : Nat) : ∀ (t : PTree) (todo : List Lx), (place n t todo).rest = (place m t todo).rest := by
    intro t todo
    exact place_rest_indep n m t todo
  place_rest_indep (n m : Nat) (t : PTree) (todo : List Lx) : (place n t todo).rest = (place m t todo).rest := by
    match t with
    | .tok k => simp only [place]
    | .err e => rfl
    | .node k cs => simp only [place]; exact placeL_rest_indep n m cs _
    | .errNode cs e => simp only [place]; exact placeL_rest_indep n m cs _
  placeL_rest_indep (n m : Nat) (ts : List PTree) (todo : List Lx) : (placeL n ts todo).rest = (placeL m ts todo).rest := by
    match ts with
    | [] => rfl
    | t :: ts =>
      simp only [placeL]
      rw [place_rest_indep n m t todo, placeL_rest_indep n m ts _]

end Verif
