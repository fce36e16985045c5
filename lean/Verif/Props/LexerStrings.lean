import Verif.Proof.Lexemes
import Verif.Props.Lexer
import Verif.Spec.LuaLexical

/-
C14, C15, C16: strings, long brackets and comments.
-/
namespace Verif
open Lexer Lua Accept

/-- `first_token` from the closed form. -/
theorem firstToken_of_form {c : Char} {cs w rest : Text} {k : SyntaxKind} {e : Option String}
    (h : lexForm c cs = ((k, e), rest)) (hw : c :: cs = w ++ rest) :
    firstToken (c :: cs) = .ok (some (⟨k, w.len⟩, e.map fun m => ⟨m, ⟨0, w.len⟩⟩)) := by
  have := firstToken_eq (FirstLexeme.mk h hw)
  simpa [Range.upTo] using this

/-- Tokenizing a text is tokenizing its first token and then the rest, with errors moved by the length
of the first token. -/
theorem tokenize_step {w rest : Text} {t : Token} {e : Option SyntaxError} {ts : List Token}
    {es : List SyntaxError} (hf : firstToken (w ++ rest) = .ok (some (t, e))) (hl : t.len = w.len)
    (hr : tokenize rest = .ok (ts, es)) :
    tokenize (w ++ rest) = .ok (t :: ts, e.toList ++ es.map fun x => { x with range := x.range.shift t.len }) := by
  obtain ⟨ls, h⟩ := lexemes_exists (w ++ rest)
  generalize hs : w ++ rest = s' at *
  cases h with
  | nil => simp [firstToken] at hf
  | @cons s l rest' ls' h1 h2 =>
    rw [firstToken_eq h1] at hf
    simp only [Except.ok.injEq, Option.some.injEq, Prod.mk.injEq] at hf
    obtain ⟨rfl, rfl⟩ := hf
    have ha := h1.append
    rw [← hs] at ha
    obtain ⟨rfl, rfl⟩ := Text.append_inj_len ha hl.symm
    rw [tokenize_eq h2] at hr
    simp only [Except.ok.injEq, Prod.mk.injEq] at hr
    obtain ⟨rfl, rfl⟩ := hr
    rw [tokenize_eq (.cons h1 h2)]
    have hsh : ∀ (pos k : Nat) (ls : List Lexeme), (attach (pos + k) ls).filterMap (·.2)
        = ((attach pos ls).filterMap (·.2)).map fun x => { x with range := x.range.shift k } := by
      intro pos k ls
      induction ls generalizing pos with
      | nil => rfl
      | cons l ls ih =>
        simp only [attach]
        rw [show pos + k + Text.len l.word = pos + Text.len l.word + k by omega]
        cases l.err with
        | none => simpa using ih _
        | some m =>
          simp [Range.ofLen, Range.shift, ih]; omega
    simp only [attach, List.map_cons, attach_tokens]
    have h3 := hsh 0 (Text.len l.word) ls'
    rw [Nat.zero_add] at h3
    rw [Nat.zero_add]
    cases l.err with
    | none => simpa using h3
    | some m => simpa [Range.ofLen, Range.upTo] using h3

/-! ### C14 -/

/-- What the code gets right: no NUL characters and no escaped newlines. -/
def StrItemOk : StrItem → Prop
  | .plain c => c ≠ EOF_CHAR
  | .esc c => c ≠ EOF_CHAR ∧ c ≠ '\n'

theorem stringForm_plain {d c : Char} {cs : Text} (h1 : c ≠ EOF_CHAR) (h2 : c ≠ '\n') (h3 : c ≠ d)
    (h4 : c ≠ '\\') : stringForm d (c :: cs) = stringForm d cs := by
  rw [stringForm.eq_def]; simp [h1, h2, h3, h4]

theorem stringForm_esc {d x : Char} {xs : Text} (hd : d ≠ '\\') :
    stringForm d ('\\' :: x :: xs) = if x = d then stringForm d xs else stringForm d (x :: xs) := by
  have : ('\\' : Char) ≠ EOF_CHAR := by decide
  rw [stringForm.eq_def]
  simp only [this, if_false, hd.symm, if_true]
  rw [if_neg (by decide)]

theorem stringForm_body {d : Char} (hd : d = '\'' ∨ d = '"') {tail : Text} {res : Option String × Text}
    (ht : stringForm d tail = res) :
    ∀ items : List StrItem, (∀ i ∈ items, i.Valid d ∧ StrItemOk i) →
    (items.getLast? = some (.esc '\\') → tail.head? ≠ some d) →
    stringForm d (bodyText items ++ tail) = res := by
  have e1 : d ≠ EOF_CHAR := by rcases hd with rfl | rfl <;> decide
  have e2 : d ≠ '\n' := by rcases hd with rfl | rfl <;> decide
  have e3 : d ≠ '\\' := by rcases hd with rfl | rfl <;> decide
  intro items
  induction items with
  | nil => intro _ _; exact ht
  | cons i is ih =>
    intro hv hlast
    have hv' := hv i (by simp)
    have ih' := ih (fun j hj => hv j (by simp [hj])) (by
      intro h
      apply hlast
      cases is with
      | nil => simp at h
      | cons j js => rw [List.getLast?_cons_cons]; exact h)
    cases i with
    | plain c =>
      simp only [bodyText, StrItem.text, List.cons_append, List.nil_append]
      rw [stringForm_plain hv'.2 hv'.1.2.2 hv'.1.1 hv'.1.2.1]
      exact ih'
    | esc c =>
      simp only [bodyText, StrItem.text, List.cons_append, List.nil_append]
      rw [stringForm_esc e3]
      by_cases hc : c = d
      · rw [if_pos hc]; exact ih'
      · rw [if_neg hc]
        by_cases hb : c = '\\'
        · subst hb
          -- an escaped backslash: what follows must not look like the quote
          have hhead : (bodyText is ++ tail).head? ≠ some d := by
            cases is with
            | nil => exact hlast rfl
            | cons j js =>
              have hj := (hv j (by simp)).1
              cases j with
              | plain x => simp [bodyText, StrItem.text]; exact hj.1
              | esc x => simp [bodyText, StrItem.text]; exact Ne.symm e3
          generalize hg : bodyText is ++ tail = t at *
          cases t with
          | nil =>
            rw [← ih']
            rw [stringForm.eq_def]
            simp [e3.symm, EOF_CHAR]
          | cons y ys =>
            rw [stringForm_esc e3, if_neg (by simpa using hhead)]
            exact ih'
        · rw [stringForm_plain hv'.2.1 hv'.2.2 hc hb]
          exact ih'

/-- C14, terminated strings.  Partial: it excludes the inputs where the code differs from Lua, i.e.
bodies with a NUL character, with an escaped newline, or ending in an escaped backslash. -/
theorem C14_string_terminated_partial (d : Char) (hd : d = '\'' ∨ d = '"') (items : List StrItem)
    (hv : ∀ i ∈ items, i.Valid d) (rest : Text)
    (hok : ∀ i ∈ items, StrItemOk i) (hlast : items.getLast? ≠ some (.esc '\\')) :
    firstToken (d :: bodyText items ++ d :: rest)
      = .ok (some (⟨.str, Text.len (d :: bodyText items ++ [d])⟩, none)) := by
  have e1 : d ≠ EOF_CHAR := by rcases hd with rfl | rfl <;> decide
  have e2 : d ≠ '\n' := by rcases hd with rfl | rfl <;> decide
  have hend : stringForm d (d :: rest) = (none, rest) := by
    rw [stringForm.eq_def]; simp [e1, e2]
  have h := stringForm_body hd hend items (fun i hi => ⟨hv i hi, hok i hi⟩)
    (fun h => absurd h hlast)
  have hf : lexForm d (bodyText items ++ d :: rest) = ((.str, none), rest) := by
    have : lexForm d (bodyText items ++ d :: rest)
        = ((.str, (stringForm d (bodyText items ++ d :: rest)).1),
            (stringForm d (bodyText items ++ d :: rest)).2) := by
      rcases hd with rfl | rfl <;> rfl
    rw [this, h]
  exact firstToken_of_form (w := d :: bodyText items ++ [d]) hf (by simp)

/-- C14, unterminated strings: if the text ends, or a newline comes, before the quote, the string token
stops there and an error is reported. -/
theorem C14_string_unterminated_partial (d : Char) (hd : d = '\'' ∨ d = '"') (items : List StrItem)
    (hv : ∀ i ∈ items, i.Valid d) (rest : Text) (hrest : rest = [] ∨ rest.head? = some '\n')
    (hok : ∀ i ∈ items, StrItemOk i) :
    ∃ err, firstToken (d :: bodyText items ++ rest)
      = .ok (some (⟨.str, Text.len (d :: bodyText items)⟩, some err)) := by
  have e2 : d ≠ '\n' := by rcases hd with rfl | rfl <;> decide
  obtain ⟨m, hend⟩ : ∃ m, stringForm d rest = (some m, rest) := by
    rcases hrest with rfl | h
    · exact ⟨_, rfl⟩
    · cases rest with
      | nil => simp at h
      | cons c cs =>
        simp at h; subst h
        exact ⟨_, by rw [stringForm.eq_def]; simp only; rw [if_neg (by decide), if_pos trivial]⟩
  have h := stringForm_body hd hend items (fun i hi => ⟨hv i hi, hok i hi⟩) (by
    intro _ h
    rcases hrest with rfl | h'
    · simp at h
    · rw [h'] at h; simp at h; exact e2 h.symm)
  have hf : lexForm d (bodyText items ++ rest) = ((.str, some m), rest) := by
    have : lexForm d (bodyText items ++ rest)
        = ((.str, (stringForm d (bodyText items ++ rest)).1), (stringForm d (bodyText items ++ rest)).2) := by
      rcases hd with rfl | rfl <;> rfl
    rw [this, h]
  exact ⟨_, firstToken_of_form (w := d :: bodyText items) hf (by simp)⟩

/-- The hypotheses of the two theorems are met by `"a\"\\b"` (an escaped quote and an escaped
backslash). -/
example : let items : List StrItem := [.plain 'a', .esc '"', .esc '\\', .plain 'b']
    (∀ i ∈ items, i.Valid '"') ∧ (∀ i ∈ items, StrItemOk i) ∧ items.getLast? ≠ some (.esc '\\') ∧
      bodyText items = ['a', '\\', '"', '\\', '\\', 'b'] := by
  simp [StrItem.Valid, StrItemOk, bodyText, StrItem.text, EOF_CHAR]

/-- C14 does not hold without the restriction: the complete literal `"\\"` is reported as
unterminated, together with everything after it on the line. -/
theorem C14_string_fails :
    ¬ ∀ (d : Char), d = '\'' ∨ d = '"' → ∀ items : List StrItem, (∀ i ∈ items, i.Valid d) → ∀ rest : Text,
      firstToken (d :: bodyText items ++ d :: rest)
        = .ok (some (⟨.str, Text.len (d :: bodyText items ++ [d])⟩, none)) := by
  intro h
  have := h '"' (Or.inr rfl) [.esc '\\'] (by simp [StrItem.Valid]) []
  have e : firstToken ['"', '\\', '\\', '"'] = .ok (some (⟨.str, 4⟩,
      some ⟨"Could not find closing delimiter `\"`", ⟨0, 4⟩⟩)) := by rfl
  rw [show ('"' :: bodyText [StrItem.esc '\\'] ++ '"' :: []) = ['"', '\\', '\\', '"'] from rfl, e] at this
  simp at this

/-- Also an embedded NUL character ends a string. -/
theorem C14_nul_fails : firstToken ['"', 'a', EOF_CHAR, '"'] = .ok (some (⟨.str, 2⟩,
    some ⟨"Could not find closing delimiter `\"`", ⟨0, 2⟩⟩)) := by rfl

end Verif
