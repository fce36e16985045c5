import Verif.Model.Lexer
import Verif.Props.Accept
import Verif.Proof.TextLemmas

/-
Closed forms of the lexer functions: each equals a total function on the remaining text.
-/
namespace Verif
namespace Lexer
open Accept

/-! ### running lexer programs -/

theorem run_bind {α β : Type} (x : Lex α) (f : α → Lex β) (s : Text) :
    (x >>= f) s = Except.bind (x s) fun p => f p.1 p.2 := rfl
theorem ok_bind {α β : Type} (a : α) (f : α → Except Fail β) :
    Except.bind (.ok a) f = f a := rfl
theorem run_pure {α : Type} (a : α) (s : Text) : (pure a : Lex α) s = .ok (a, s) := rfl
theorem run_just {α : Type} (a : α) (s : Text) : (just a : Lex (LexResult α)) s = .ok ((a, none), s) := rfl
theorem run_bail {α : Type} (a : α) (m : String) (s : Text) :
    (bail a m : Lex (LexResult α)) s = .ok ((a, some m), s) := rfl
theorem run_get (s : Text) : (get : Lex Text) s = .ok (s, s) := rfl
theorem run_ite {α : Type} (c : Prop) [Decidable c] (x y : Lex α) (s : Text) :
    (if c then x else y) s = if c then x s else y s := by split <;> rfl
theorem run_accept {a : Acc} (h : a.Single) (s : Text) : accept a s = .ok (acceptSpec a.sat s) :=
  accept_single h s
theorem run_while {a : Acc} (h : a.Single) (s : Text) :
    accept (.while a) s = .ok (!s.isEmpty, s.dropWhile a.sat) := accept_while h s
theorem run_until {a : Acc} (h : a.Single) (s : Text) :
    accept (.until a) s = .ok (!s.isEmpty, s.dropWhile fun c => !a.sat c) := accept_until h s
theorem run_count {a : Acc} (h : a.Single) (s : Text) :
    acceptCount (.while a) s = .ok ((s.takeWhile a.sat).length, s.dropWhile a.sat) :=
  acceptCount_while h s
theorem run_seq {a b : Acc} (ha : a.Single) (hb : b.Positive) (s : Text) :
    accept (.seq a b) s = .ok (seqSpec a.sat b.sat s) := accept_seq ha hb s
theorem run_at {a : Acc} (h : a.Single) (s : Text) :
    atA a s = .ok ((acceptSpec a.sat s).1, s) := by
  cases s with
  | nil => simp [atA, Acc.peek, nth_single h, acceptSpec]
  | cons c cs => by_cases hc : a.sat c = true <;> simp [atA, Acc.peek, nth_single h, acceptSpec, hc]
theorem run_current (s : Text) : current s = .ok (nthChar s 0, s) := rfl
theorem run_bump {a : Acc} {s s' : Text} (h : a.accept s = .ok (true, s')) : bump a s = .ok ((), s') := by
  simp [bump, run_bind, accept, h, ok_bind, run_ite, run_pure]
theorem run_bumpThen {a : Acc} {s s' : Text} (h : a.accept s = .ok (true, s')) :
    bumpThen a s = .ok (nthChar s' 0, s') := by
  simp only [bumpThen, run_bind, run_bump h, ok_bind, run_current]

theorem single_ch {c : Char} (h : c ≠ EOF_CHAR) : (Acc.ch c).Single := h
theorem positive_ch {c : Char} (h : c ≠ EOF_CHAR) : (Acc.ch c).Positive := h
theorem sat_ch (c : Char) : (Acc.ch c).sat = (· == c) := rfl
theorem sat_pred (f : Char → Bool) : (Acc.pred f).sat = f := rfl
theorem bump_any (c : Char) (cs : Text) : Acc.any.accept (c :: cs) = .ok (true, cs) := rfl
theorem bump_ch {c : Char} (h : c ≠ EOF_CHAR) (cs : Text) :
    (Acc.ch c).accept (c :: cs) = .ok (true, cs) := by
  rw [accept_single (single_ch h)]; simp [acceptSpec, Acc.sat]

/-- Skip to the first `]`, jumping over `\]`. -/
def skipClose : Text → Text
  | [] => []
  | '\\' :: ']' :: cs => skipClose cs
  | c :: cs => if c = ']' then c :: cs else skipClose cs

/-- Result of one round of the `while` of `close`. -/
def skipStep : Text → Bool × Text
  | '\\' :: ']' :: cs => (true, cs)
  | c :: cs => if c = ']' then (false, c :: cs) else (true, cs)
  | [] => (false, [])

theorem skipClose_length (s : Text) : (skipClose s).length ≤ s.length := by
  fun_induction skipClose s <;> simp_all <;> omega

theorem or_skip_accept (s : Text) :
    (Acc.or (.seq (.ch '\\') (.ch ']')) (.not (.ch ']'))).accept s = .ok (skipStep s) := by
  have h1 : (Acc.ch '\\').Single := by simp only [Acc.Single]; decide
  have h2 : (Acc.ch ']').Positive := by simp only [Acc.Positive]; decide
  have h3 : (Acc.not (.ch ']')).Single := h2.single
  rw [Acc.accept, accept_seq h1 h2]
  match s with
  | [] => simp [seqSpec, bind, Except.bind, accept_single h3, acceptSpec, skipStep]
  | [c] =>
    simp only [seqSpec, bind, Except.bind, accept_single h3, acceptSpec, skipStep, Acc.sat]
    by_cases hc : c = ']' <;> simp [hc]
  | c :: d :: cs =>
    by_cases hc : c = '\\'
    · subst hc
      by_cases hd : d = ']'
      · subst hd
        simp [seqSpec, bind, Except.bind, Acc.sat, skipStep, pure, Except.pure]
      · have : skipStep ('\\' :: d :: cs) = (true, d :: cs) := by
          unfold skipStep
          split
          · rename_i h; simp at h; exact absurd h.1 hd
          · rename_i _ h; simp at h; obtain ⟨rfl, rfl⟩ := h; simp
          · rename_i h; simp at h
        simp [seqSpec, bind, Except.bind, Acc.sat, this, hd, accept_single h3, acceptSpec]
    · have : skipStep (c :: d :: cs) = if c = ']' then (false, c :: d :: cs) else (true, d :: cs) := by
        unfold skipStep
        split
        · rename_i h; simp at h; exact absurd h.1 hc
        · rename_i h; simp at h; obtain ⟨rfl, rfl⟩ := h; simp
        · rename_i h; simp at h
      rw [this]
      simp only [seqSpec, bind, Except.bind, Acc.sat, hc, accept_single h3, acceptSpec]
      by_cases hc' : c = ']' <;> simp [hc', hc]

theorem skipClose_step (s : Text) :
    skipClose s = if (skipStep s).1 then skipClose (skipStep s).2 else s := by
  match s with
  | [] => rfl
  | [c] =>
    rw [skipClose, skipStep]
    · by_cases h : c = ']' <;> simp [h]
    · rintro _ _ h; simp at h
    · rintro _ _ h; simp at h
  | c :: d :: cs =>
    by_cases h : c = '\\' ∧ d = ']'
    · obtain ⟨rfl, rfl⟩ := h; simp [skipClose, skipStep]
    · rw [skipClose, skipStep]
      · by_cases h : c = ']' <;> simp [h]
      · rintro a h1 h2; simp at h2; exact h ⟨h1, h2.1⟩
      · rintro a h1 h2; simp at h2; exact h ⟨h1, h2.1⟩

theorem skipStep_length {s : Text} (h : (skipStep s).1 = true) :
    (skipStep s).2.length < s.length := by
  revert h
  unfold skipStep
  split
  · intro _; simp; omega
  · split <;> simp
  · simp

theorem whileLoop_skip : ∀ (n : Nat) (s : Text), s.length < n →
    whileLoop (Acc.or (.seq (.ch '\\') (.ch ']')) (.not (.ch ']'))).accept n s = .ok (skipClose s) := by
  intro n
  induction n with
  | zero => intro s h; exact absurd h (Nat.not_lt_zero _)
  | succ n ih =>
    intro s h
    rw [whileLoop, or_skip_accept, skipClose_step]
    cases s with
    | nil => simp [nthIsEof, skipStep]
    | cons c cs =>
      have hl := @skipStep_length (c :: cs)
      have hf : (skipStep (c :: cs)).1 = false → (skipStep (c :: cs)).2 = c :: cs := by
        unfold skipStep
        split
        · simp
        · rename_i _ h; simp at h; obtain ⟨rfl, rfl⟩ := h; split <;> simp
        · rename_i h; simp at h
      generalize skipStep (c :: cs) = r at *
      obtain ⟨b, s'⟩ := r
      cases b with
      | true => simp at hl; simp [nthIsEof]; rw [ih s' (by simp at h; omega)]
      | false => simp [nthIsEof]; simpa using hf rfl

theorem accept_skip (s : Text) :
    (Acc.while (.or (.seq (.ch '\\') (.ch ']')) (.not (.ch ']')))).accept s
      = .ok (!s.isEmpty, skipClose s) := by
  cases s with
  | nil => rfl
  | cons c cs =>
    rw [Acc.accept, whileLoop_skip _ _ (Nat.lt_succ_self _)]
    simp [nthIsEof, bind, Except.bind, pure, Except.pure]

/-- The text after the first `]=*` with exactly `count` equals signs, if any. -/
def findClose (count : Nat) (s : Text) : Option Text :=
  match h : skipClose s with
  | ']' :: cs =>
    if (cs.takeWhile (· == '=')).length = count then some (cs.dropWhile (· == '='))
    else findClose count (cs.dropWhile (· == '='))
  | _ => none
  termination_by s.length
  decreasing_by
    have h1 := skipClose_length s
    rw [h] at h1
    have h2 := (List.dropWhile_suffix (p := (· == '=')) (l := cs)).length_le
    simp at h1
    omega

theorem skipClose_head (s : Text) : skipClose s = [] ∨ ∃ cs, skipClose s = ']' :: cs := by
  fun_induction skipClose s <;> simp_all

theorem findClose_none {s : Text} (count : Nat) (h : skipClose s = []) : findClose count s = none := by
  rw [findClose]
  split
  · rename_i h'; rw [h] at h'; simp at h'
  · rfl

theorem findClose_some {s cs : Text} (count : Nat) (h : skipClose s = ']' :: cs) :
    findClose count s = if (cs.takeWhile (· == '=')).length = count then some (cs.dropWhile (· == '='))
    else findClose count (cs.dropWhile (· == '=')) := by
  rw [findClose]
  split
  · rename_i h'; rw [h] at h'; simp at h'; subst h'; rfl
  · rename_i h'; exact absurd h (h' _)

theorem closeLoop_eq (count : Nat) : ∀ (n : Nat) (s : Text), s.length < n →
    closeLoop count n s = .ok (match findClose count s with
      | some r => (true, r)
      | none => (false, [])) := by
  intro n
  have h1 : (Acc.ch ']').Single := single_ch (by decide)
  have h2 : (Acc.ch '=').Single := single_ch (by decide)
  induction n with
  | zero => intro s h; exact absurd h (Nat.not_lt_zero _)
  | succ n ih =>
    intro s h
    have hw : accept (.while (.or (.seq (.ch '\\') (.ch ']')) (.not (.ch ']')))) s
        = .ok (!s.isEmpty, skipClose s) := accept_skip s
    simp only [closeLoop, run_bind, hw, ok_bind, run_accept h1, run_ite, run_pure, run_count h2, sat_ch]
    rcases skipClose_head s with e | ⟨cs, e⟩
    · simp [findClose_none _ e, e, acceptSpec]
    · have hl := skipClose_length s
      rw [e] at hl; simp at hl
      have h2 := (List.dropWhile_suffix (p := (· == '=')) (l := cs)).length_le
      rw [findClose_some _ e]
      simp only [e, acceptSpec, beq_self_eq_true, if_true, Bool.not_true, Bool.false_eq_true, if_false]
      by_cases hc : count = (cs.takeWhile (· == '=')).length
      · simp [hc]
      · have hc' : ¬ (cs.takeWhile (· == '=')).length = count := fun h => hc h.symm
        simp only [bne_iff_ne, ne_eq, hc, not_false_eq_true, hc', if_true, if_false]
        exact ih _ (by omega)

/-- Closed form of `close`. -/
def closeForm (count : Nat) (s : Text) : Option String × Text :=
  let (err1, s) := acceptSpec (· == '[') s
  match findClose count s with
  | some r =>
    let (err2, r) := acceptSpec (· == ']') r
    (if err1 && err2 then none else some "Invalid bracket notation", r)
  | none => (some "Could not find bracket string close", [])

theorem close_eq (count : Nat) (s : Text) :
    close count s = .ok (((), (closeForm count s).1), (closeForm count s).2) := by
  have h1 : (Acc.ch ']').Single := single_ch (by decide)
  have h2 : (Acc.ch '[').Single := single_ch (by decide)
  simp only [close, closeForm, run_bind, run_accept h1, run_accept h2, ok_bind, run_get, sat_ch, run_ite]
  rw [closeLoop_eq _ _ _ (Nat.lt_succ_self _)]
  cases findClose count (acceptSpec (· == '[') s).2 with
  | none => simp [run_bail, ok_bind]
  | some r => simp [ok_bind, run_pure]

/-- Closed form of `bracket_enclosed` when it is called on `[` or `=`. -/
def bracketForm (s : Text) : Option String × Text :=
  closeForm (s.takeWhile (· == '=')).length (s.dropWhile (· == '='))

theorem bracketEnclosed_eq (c : Char) (cs : Text) (hc : c = '[' ∨ c = '=') :
    bracketEnclosed (c :: cs)
      = .ok (((), (bracketForm (c :: cs)).1), (bracketForm (c :: cs)).2) := by
  have h2 : (Acc.ch '[').Single := single_ch (by decide)
  have h3 : (Acc.ch '=').Single := single_ch (by decide)
  simp only [bracketEnclosed, run_bind, run_current, ok_bind, run_ite, run_at h2, run_at h3, run_count h3,
    sat_ch, close_eq, nthChar, List.getD_cons_zero]
  rcases hc with rfl | rfl
  · simp [acceptSpec, bracketForm]
  · simp [acceptSpec, bracketForm]

theorem multilineString_eq (c : Char) (cs : Text) (hc : c = '[' ∨ c = '=') :
    multilineString (c :: cs)
      = .ok ((.str, (bracketForm (c :: cs)).1), (bracketForm (c :: cs)).2) := by
  have h1 : (Acc.or (.ch '[') (.ch '=')).Single := ⟨single_ch (by decide), single_ch (by decide)⟩
  simp only [multilineString, run_bind, run_at h1, ok_bind, run_ite, bracketEnclosed_eq c cs hc, run_pure]
  rcases hc with rfl | rfl <;> simp [acceptSpec, Acc.sat]

/-- Closed form of `comment` after the first `-`, on `-` followed by `s`. -/
def commentForm (s : Text) : Text :=
  (match s with
   | '[' :: '[' :: cs => (bracketForm ('[' :: cs)).2
   | '[' :: cs => cs
   | s => s).dropWhile (fun c => !(c == '\n'))

theorem commentForm_line {s : Text} (h : s.head? ≠ some '[') :
    commentForm s = s.dropWhile (fun c => !(c == '\n')) := by
  unfold commentForm
  split
  · simp at h
  · simp at h
  · rfl

theorem commentForm_one {s : Text} (h : s.head? ≠ some '[') :
    commentForm ('[' :: s) = s.dropWhile (fun c => !(c == '\n')) := by
  unfold commentForm
  split
  · rename_i e; simp at e; rw [e] at h; simp at h
  · rename_i e; simp at e; rw [e]
  · rename_i _ h; exact absurd rfl (h s)

theorem comment_eq (s : Text) : comment ('-' :: s) = .ok ((.comment, none), commentForm s) := by
  have h1 : (Acc.ch '-').Single := single_ch (by decide)
  have h2 : (Acc.ch '[').Single := single_ch (by decide)
  have h3 : (Acc.ch '\n').Single := single_ch (by decide)
  have hb : bump (.ch '-') ('-' :: s) = .ok ((), s) := run_bump (bump_ch (by decide) s)
  simp only [comment, run_bind, hb, ok_bind, run_accept h2, run_ite, run_at h2, run_until h3, run_just,
    sat_ch]
  by_cases hh : s.head? = some '['
  · obtain ⟨cs, rfl⟩ : ∃ cs, s = '[' :: cs := by
      cases s with
      | nil => simp at hh
      | cons c cs => simp at hh; exact ⟨cs, by rw [hh]⟩
    by_cases hh2 : cs.head? = some '['
    · obtain ⟨ds, rfl⟩ : ∃ ds, cs = '[' :: ds := by
        cases cs with
        | nil => simp at hh2
        | cons c cs => simp at hh2; exact ⟨cs, by rw [hh2]⟩
      simp [acceptSpec, bracketEnclosed_eq, ok_bind, commentForm]
    · rw [commentForm_one hh2]
      have : (acceptSpec (· == '[') cs).1 = false := by
        cases cs with
        | nil => rfl
        | cons c cs => simp at hh2; simp [acceptSpec, hh2]
      have h5 : acceptSpec (· == '[') ('[' :: cs) = (true, cs) := rfl
      simp [h5, this]
  · rw [commentForm_line hh]
    have : acceptSpec (· == '[') s = (false, s) := by
      cases s with
      | nil => rfl
      | cons c cs => simp at hh; simp [acceptSpec, hh]
    simp [this]

/-- Closed form of the loop of `string`. -/
def stringForm (d : Char) : Text → Option String × Text
  | [] => (some (closingMsg d), [])
  | c :: cs =>
    if c = EOF_CHAR then (some (closingMsg d), c :: cs)
    else if c = '\n' then (some "Unexpected newline in string", c :: cs)
    else if c = d then (none, cs)
    else if c = '\\' then
      match cs with
      | [] => stringForm d []
      | x :: xs => if x = d then stringForm d xs else stringForm d (x :: xs)
    else stringForm d cs

/-- One character of a string, or an escaped delimiter. -/
def escStep (d c : Char) (cs : Text) : Text :=
  if c = '\\' then
    match cs with
    | x :: xs => if x = d then xs else x :: xs
    | [] => []
  else cs

theorem stringLoop_eq (d : Char) (hd : d ≠ EOF_CHAR) (hd2 : d ≠ '\n') (hd3 : d ≠ '\\') :
    ∀ (n : Nat) (s : Text), s.length < n →
    stringLoop d n s = .ok ((.str, (stringForm d s).1), (stringForm d s).2) := by
  intro n
  have h3 : Acc.any.Single := trivial
  have hor : ∀ c cs, c ≠ EOF_CHAR → (Acc.or (.seq (.ch '\\') (.ch d)) .any).accept (c :: cs)
      = .ok (true, escStep d c cs) := by
    intro c cs hc
    unfold escStep
    rw [Acc.accept, accept_seq (single_ch (by decide)) (positive_ch hd)]
    cases cs with
    | nil => simp [seqSpec, bind, Except.bind, accept_single h3, acceptSpec, Acc.sat]
    | cons x xs =>
      by_cases e : c = '\\'
      · subst e
        by_cases e2 : x = d
        · simp [seqSpec, bind, Except.bind, Acc.sat, e2, pure, Except.pure]
        · simp [seqSpec, bind, Except.bind, Acc.sat, e2, accept_single h3, acceptSpec]
      · simp only [seqSpec, bind, Except.bind, Acc.sat, e, accept_single h3, acceptSpec]
        simp [e]
  induction n with
  | zero => intro s h; exact absurd h (Nat.not_lt_zero _)
  | succ n ih =>
    intro s h
    unfold stringLoop
    cases s with
    | nil => simp [run_bind, run_current, ok_bind, nthChar, stringForm, run_bail]
    | cons c cs =>
      simp only [List.length_cons] at h
      simp only [run_bind, run_current, ok_bind, nthChar, List.getD_cons_zero, run_ite, run_bail, run_just]
      by_cases e1 : c = EOF_CHAR
      · rw [stringForm.eq_def]; simp [e1]
      by_cases e2 : c = '\n'
      · rw [stringForm.eq_def]; simp [e1, e2]; subst e2; simp [e1]
      by_cases e3 : c = d
      · rw [stringForm.eq_def]; subst e3; simp [e1, e2, run_bump (bump_ch e1 cs), ok_bind]
      simp only [e1, e2, e3, beq_iff_eq, if_false, run_bump (hor c cs e1), ok_bind]
      by_cases e4 : c = '\\'
      · subst e4
        cases cs with
        | nil =>
          have : stringForm d ['\\'] = stringForm d [] := by
            rw [stringForm.eq_def]; simp [e1, e3]
          rw [this]
          simpa [escStep] using ih [] (by simp; omega)
        | cons x xs =>
          have : stringForm d ('\\' :: x :: xs)
              = stringForm d (if x = d then xs else x :: xs) := by
            rw [stringForm.eq_def]; simp only [e1, e2, e3, if_false, if_true]; split <;> rfl
          simp only [this, escStep, if_true]
          apply ih
          simp only [List.length_cons] at h
          split
          · omega
          · simp only [List.length_cons]; omega
      · have : stringForm d (c :: cs) = stringForm d cs := by
          rw [stringForm.eq_def]; simp [e1, e2, e3, e4]
        rw [this]
        rw [show escStep d c cs = cs from if_neg e4]
        exact ih cs (by omega)

theorem string_eq (d : Char) (hd : d = '\'' ∨ d = '"') (s : Text) :
    string d (d :: s) = .ok ((.str, (stringForm d s).1), (stringForm d s).2) := by
  have e1 : d ≠ EOF_CHAR := by rcases hd with rfl | rfl <;> decide
  have e2 : d ≠ '\n' := by rcases hd with rfl | rfl <;> decide
  have e3 : d ≠ '\\' := by rcases hd with rfl | rfl <;> decide
  have hm : (!(d == '\'' || d == '"')) = false := by rcases hd with rfl | rfl <;> decide
  simp only [string, hm, Bool.false_eq_true, if_false, run_bind, run_bump (bump_ch e1 s), ok_bind, run_get]
  exact stringLoop_eq d e1 e2 e3 _ s (Nat.lt_succ_self _)

/-! ### numbers, whitespace, identifiers -/

theorem whitespace_eq (c : Char) (cs : Text) (hc : isWhitespace c = true) :
    whitespace (c :: cs) = .ok (.whitespace, cs.dropWhile isWhitespace) := by
  have h1 : (Acc.pred isWhitespace).Single := by simp only [Acc.Single]; decide
  simp only [whitespace, run_bind, run_at h1, run_while h1, ok_bind, run_ite, sat_pred, acceptSpec, hc,
    run_pure]
  simp [hc]

/-- Skip an optional character. -/
def skipOpt (p : Char → Bool) (s : Text) : Text := (acceptSpec p s).2

/-- Skip an optional fraction. -/
def skipFrac : Text → Text
  | [] => []
  | c :: cs => if c = '.' then cs.dropWhile isNumber else c :: cs

/-- Skip an optional exponent. -/
def skipExp : Text → Text
  | [] => []
  | c :: cs => if c = 'e' ∨ c = 'E' then (skipOpt (· == '-') cs).dropWhile isNumber else c :: cs

/-- Closed form of `number`. -/
def numberForm (s : Text) : Text :=
  match s with
  | '0' :: 'x' :: cs => cs.dropWhile isHex
  | s => skipExp (skipFrac (s.dropWhile isNumber))

theorem number_eq (c : Char) (cs : Text) (hc : isNumber c = true) :
    number (c :: cs) = .ok ((.number, none), numberForm (c :: cs)) := by
  have h1 : (Acc.pred isNumber).Single := by simp only [Acc.Single]; decide
  have h2 : (Acc.pred isHex).Single := by simp only [Acc.Single]; decide
  have s1 : (Acc.ch '0').Single := single_ch (by decide)
  have s2 : (Acc.ch '.').Single := single_ch (by decide)
  have s3 : (Acc.ch 'e').Single := single_ch (by decide)
  have s4 : (Acc.ch 'E').Single := single_ch (by decide)
  have s5 : (Acc.ch '-').Single := single_ch (by decide)
  have p1 : (Acc.ch 'x').Positive := positive_ch (by decide)
  have tail : ∀ t : Text,
      (do
        let e ← accept (.ch 'e')
        let e ← if e then pure true else accept (.ch 'E')
        if e then
          let _ ← accept (.ch '-')
          let _ ← accept (.while (.pred isNumber))
        just SyntaxKind.number : Lex _) t = .ok ((.number, none), skipExp t) := by
    intro t
    simp only [run_bind, run_accept s3, run_accept s4, run_accept s5, run_while h1, run_ite, ok_bind, run_just,
      sat_ch, sat_pred, run_pure]
    cases t with
    | nil => simp [acceptSpec, skipExp]
    | cons x xs =>
      by_cases e : x = 'e'
      · subst e; simp [acceptSpec, skipOpt, skipExp]
      · by_cases e2 : x = 'E'
        · subst e2; simp [acceptSpec, skipOpt, skipExp]
        · simp [acceptSpec, e, e2, skipExp]
  have hh : acceptSpec (Acc.pred isNumber).sat (c :: cs) = (true, cs) := by simp [acceptSpec, sat_pred, hc]
  unfold number
  rw [run_bind, run_at h1, ok_bind, hh]
  simp only [Bool.not_true, Bool.false_eq_true, if_false]
  rw [run_bind, run_seq s1 p1, ok_bind, run_ite, sat_ch, sat_ch]
  by_cases hx : c = '0' ∧ cs.head? = some 'x'
  · obtain ⟨rfl, hx⟩ := hx
    obtain ⟨ds, rfl⟩ : ∃ ds, cs = 'x' :: ds := by
      cases cs with
      | nil => simp at hx
      | cons c cs => simp at hx; exact ⟨cs, by rw [hx]⟩
    simp [seqSpec, run_bind, run_while h2, ok_bind, run_just, sat_pred, numberForm]
  · have hs : seqSpec (· == '0') (· == 'x') (c :: cs) = (false, c :: cs) := by
      cases cs with
      | nil => rfl
      | cons d ds =>
        simp only [List.head?_cons, Option.some.injEq] at hx
        simp only [seqSpec]
        rw [if_neg]
        simpa using hx
    have hn : numberForm (c :: cs) = skipExp (skipFrac ((c :: cs).dropWhile isNumber)) := by
      unfold numberForm
      split
      · rename_i e; simp at e; obtain ⟨rfl, rfl⟩ := e; simp at hx
      · rfl
    rw [hs, hn]
    simp only [Bool.false_eq_true, if_false]
    rw [run_bind, run_while h1, ok_bind, run_bind, run_accept s2, ok_bind]
    simp only [sat_ch, sat_pred]
    suffices gen : ∀ t : Text, (do
        if (acceptSpec (· == '.') t).1 then
          let _ ← accept (.while (.pred isNumber))
        let e ← accept (.ch 'e')
        let e ← if e then pure true else accept (.ch 'E')
        if e then
          let _ ← accept (.ch '-')
          let _ ← accept (.while (.pred isNumber))
        just SyntaxKind.number : Lex _) (acceptSpec (· == '.') t).2 = .ok ((.number, none),
        skipExp (skipFrac t)) from gen _
    intro t
    cases t with
    | nil =>
      simp only [acceptSpec, Bool.false_eq_true, if_false, skipFrac]
      exact tail []
    | cons x xs =>
      by_cases hx : x = '.'
      · subst hx
        simp only [acceptSpec, beq_self_eq_true, if_true, skipFrac]
        rw [run_bind, run_while h1, ok_bind]
        exact tail _
      · simp only [acceptSpec, beq_iff_eq, hx, Bool.false_eq_true, if_false, skipFrac]
        exact tail _

end Lexer
end Verif

namespace Verif
namespace Lexer
open Accept

theorem takeWhile_rest (p : Char → Bool) (s : Text) :
    Text.slice 0 (s.len - Text.len (s.dropWhile p)) s = some (s.takeWhile p) := by
  have h : s = s.takeWhile p ++ s.dropWhile p := List.takeWhile_append_dropWhile.symm
  have hl : s.len - Text.len (s.dropWhile p) = Text.len (s.takeWhile p) := by
    conv => lhs; arg 1; rw [h]
    rw [Text.len_append]; omega
  rw [hl]
  conv => lhs; arg 3; rw [h]
  rw [Text.slice, if_pos (Nat.zero_le _), Text.sliceTo_append]
  cases s.takeWhile p <;> simp [Text.sliceFrom, Text.split]

theorem identStart_continue {c : Char} (h : isIdentStart c = true) : isIdentContinue c = true := by
  simp [isIdentContinue, h]

theorem ident_eq (c : Char) (cs : Text) (hc : isIdentStart c = true) :
    ident (c :: cs) = .ok ((SyntaxKind.fromKeyword ((c :: cs).takeWhile isIdentContinue)).getD .ident,
      cs.dropWhile isIdentContinue) := by
  have h1 : (Acc.pred isIdentStart).Single := by simp only [Acc.Single]; decide
  have h2 : (Acc.pred isIdentContinue).Single := by simp only [Acc.Single]; decide
  have hb : (Acc.pred isIdentStart).accept (c :: cs) = .ok (true, cs) := by
    rw [accept_single h1]; simp [acceptSpec, sat_pred, hc]
  simp only [ident, run_bind, run_get, ok_bind, run_bump hb, run_while h2, sat_pred]
  have hd : cs.dropWhile isIdentContinue = (c :: cs).dropWhile isIdentContinue := by
    rw [List.dropWhile_cons, if_pos (identStart_continue hc)]
  rw [hd, takeWhile_rest]
  rfl

/-- One character followed by an optional second one. -/
def two (x : Char) (k2 k1 : SyntaxKind) (cs : Text) : LexResult SyntaxKind × Text :=
  match cs with
  | [] => ((k1, none), [])
  | y :: ys => if y = x then ((k2, none), ys) else ((k1, none), y :: ys)

/-- Closed form of `lex_main` on a non-empty text. -/
def lexForm (c : Char) (cs : Text) : LexResult SyntaxKind × Text :=
  if c = '=' then two '=' .eqEq .eq cs
  else if c = '~' then two '=' .notEq .unknown cs
  else if c = '[' then
    if cs.head? = some '[' ∨ cs.head? = some '=' then ((.str, (bracketForm cs).1), (bracketForm cs).2)
    else ((.lBracket, none), cs)
  else if c = '.' then
    match cs with
    | [] => ((.dot, none), [])
    | y :: ys => if y = '.' then two '.' .tripleDot .doubleDot ys else ((.dot, none), y :: ys)
  else if c = ':' then two ':' .doubleColon .colon cs
  else if c = '>' then two '=' .gtEq .gt cs
  else if c = '<' then two '=' .ltEq .lt cs
  else if c = '-' then
    match cs with
    | [] => ((.minus, none), [])
    | y :: ys => if y = '-' then ((.comment, none), commentForm ys) else ((.minus, none), y :: ys)
  else if c = '\'' ∨ c = '"' then ((.str, (stringForm c cs).1), (stringForm c cs).2)
  else match singleKind c with
    | some k => ((k, none), cs)
    | none =>
      if isIdentStart c then
        (((SyntaxKind.fromKeyword ((c :: cs).takeWhile isIdentContinue)).getD .ident, none),
          cs.dropWhile isIdentContinue)
      else if isNumber c then ((.number, none), numberForm (c :: cs))
      else if isWhitespace c then ((.whitespace, none), cs.dropWhile isWhitespace)
      else ((.unknown, some "Got an unknown token"), cs)

theorem two_eq (c x : Char) (hx : x ≠ EOF_CHAR) (k2 k1 : SyntaxKind) (cs : Text) :
    (do
      if (← bumpThen .any) == x then
        bump (.ch x)
        just k2
      else just k1 : Lex _) (c :: cs) = .ok (two x k2 k1 cs) := by
  rw [run_bind, run_bumpThen (bump_any c cs), ok_bind, run_ite]
  cases cs with
  | nil => simp [nthChar, hx.symm, run_just, two]
  | cons y ys =>
    by_cases h : y = x
    · subst h
      simp [nthChar, run_bind, run_bump (bump_ch hx ys), ok_bind, run_just, two]
    · simp [nthChar, h, run_just, two]

theorem run_ite_ok {α : Type} {x y : Lex α} {s : Text} {u v : α × Text} {b : Bool} {q : Prop} [Decidable q]
    (h : b = true ↔ q) (hx : q → x s = .ok u) (hy : ¬ q → y s = .ok v) :
    (if b = true then x else y) s = .ok (if q then u else v) := by
  by_cases hq : q
  · rw [if_pos (h.mpr hq), if_pos hq, hx hq]
  · rw [if_neg (fun e => hq (h.mp e)), if_neg hq, hy hq]

theorem lexMain_eq (c : Char) (cs : Text) : lexMain (c :: cs) = .ok (lexForm c cs) := by
  unfold lexMain lexForm
  rw [run_bind, run_current, ok_bind]
  rw [show nthChar (c :: cs) 0 = c from rfl]
  refine run_ite_ok beq_iff_eq (fun _ => two_eq _ _ (by decide) _ _ _) fun _ => ?_
  refine run_ite_ok beq_iff_eq (fun _ => two_eq _ _ (by decide) _ _ _) fun _ => ?_
  refine run_ite_ok beq_iff_eq (fun _ => ?_) fun _ => ?_
  · rw [run_bind, run_bumpThen (bump_any c cs), ok_bind]
    cases cs with
    | nil => rfl
    | cons y ys =>
      rw [show nthChar (y :: ys) 0 = y from rfl]
      by_cases h1 : y = '['
      · subst h1
        rw [if_pos (by simp), if_pos (by simp), multilineString_eq _ _ (Or.inl rfl)]
      · rw [if_neg (by simpa using h1)]
        by_cases h2 : y = '='
        · subst h2
          rw [if_pos (by simp), if_pos (by simp), multilineString_eq _ _ (Or.inr rfl)]
        · rw [if_neg (by simpa using h2), if_neg (by simp [h1, h2]), run_just]
  refine run_ite_ok beq_iff_eq (fun _ => ?_) fun _ => ?_
  · rw [run_bind, run_bumpThen (bump_any c cs), ok_bind]
    cases cs with
    | nil => rfl
    | cons y ys =>
      rw [show nthChar (y :: ys) 0 = y from rfl]
      exact run_ite_ok beq_iff_eq (fun _ => two_eq _ _ (by decide) _ _ _) fun _ => rfl
  refine run_ite_ok beq_iff_eq (fun _ => two_eq _ _ (by decide) _ _ _) fun _ => ?_
  refine run_ite_ok beq_iff_eq (fun _ => two_eq _ _ (by decide) _ _ _) fun _ => ?_
  refine run_ite_ok beq_iff_eq (fun _ => two_eq _ _ (by decide) _ _ _) fun _ => ?_
  refine run_ite_ok beq_iff_eq (fun _ => ?_) fun _ => ?_
  · rw [run_bind, run_bumpThen (bump_any c cs), ok_bind]
    cases cs with
    | nil => rfl
    | cons y ys =>
      rw [show nthChar (y :: ys) 0 = y from rfl]
      refine run_ite_ok beq_iff_eq (fun h => ?_) fun _ => rfl
      rw [h]; exact comment_eq ys
  refine run_ite_ok (by simp) (fun h => string_eq c h cs) fun _ => ?_
  cases singleKind c with
  | some k => simp only [run_bind, run_bump (bump_any c cs), ok_bind, run_just]
  | none =>
    refine run_ite_ok (by simp) (fun h => ?_) fun _ => ?_
    · rw [run_bind, ident_eq c cs h, ok_bind, run_just]
    refine run_ite_ok (by simp) (fun h => number_eq c cs h) fun _ => ?_
    refine run_ite_ok (by simp) (fun h => ?_) fun _ => ?_
    · rw [run_bind, whitespace_eq c cs h, ok_bind, run_just]
    · rw [run_bind, run_bump (bump_any c cs), ok_bind, run_bail]

end Lexer
end Verif
