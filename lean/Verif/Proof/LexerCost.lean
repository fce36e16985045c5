import Verif.Model.LexerCost
import Verif.Proof.Lexemes

/-
The counting lexer does what the lexer does, and each token pays for what is read.
-/
namespace Verif
namespace Lexer
open Accept

/-! ### the generic functions on the source of Model/Lexer.lean -/

theorem over_bump (a : Acc) : Over.bump plain a = bump a := rfl
theorem over_bumpThen (a : Acc) : Over.bumpThen plain a = bumpThen a := rfl
theorem over_number : Over.number plain = number := rfl
theorem over_whitespace : Over.whitespace plain = whitespace := rfl
theorem over_closeLoop (c n : Nat) : Over.closeLoop plain c n = closeLoop c n := by
  induction n with
  | zero => rfl
  | succ n ih => unfold Over.closeLoop closeLoop; rw [ih]; rfl
theorem over_close (c : Nat) : Over.close plain c = close c := by
  unfold Over.close close; simp only [over_closeLoop]; rfl
theorem over_bracketEnclosed : Over.bracketEnclosed plain = bracketEnclosed := by
  unfold Over.bracketEnclosed bracketEnclosed; simp only [over_close]; rfl
theorem over_comment : Over.comment plain = comment := by
  unfold Over.comment comment; simp only [over_bracketEnclosed, over_bump]; rfl
theorem over_multilineString : Over.multilineString plain = multilineString := by
  unfold Over.multilineString multilineString; simp only [over_bracketEnclosed]; rfl
theorem over_stringLoop (d : Char) (n : Nat) : Over.stringLoop plain d n = stringLoop d n := by
  induction n with
  | zero => rfl
  | succ n ih => unfold Over.stringLoop stringLoop; rw [ih]; rfl
theorem over_string (d : Char) : Over.string plain d = string d := by
  unfold Over.string string; simp only [over_stringLoop]; rfl
theorem over_ident : Over.ident plain = ident := rfl
theorem over_just {α} (a : α) : (Over.just a : Lex _) = just a := rfl
theorem over_bail {α} (a : α) (m) : (Over.bail a m : Lex _) = bail a m := rfl
theorem over_current : plain.current = current := rfl
theorem over_lexMain : Over.lexMain plain = lexMain := by
  unfold Over.lexMain lexMain
  simp only [over_bump, over_bumpThen, over_number, over_whitespace, over_comment, over_multilineString, over_string, over_ident, over_just, over_bail, over_current]
  rfl
/-! ### budgets -/

/-- `y` does what `x` does, and reads no more than its budget: with 10 for every character consumed and `c` to begin with,
`d` is left. -/
def Pays {α : Type} (x : Lex α) (y : Counted α) (c : Nat) (d : α → Nat) : Prop :=
  ∀ s k, match x s with
    | .error e => y (s, k) = .error e
    | .ok (a, s') => ∃ k', y (s, k) = .ok (a, (s', k')) ∧ k' + 10 * s'.length + d a ≤ k + 10 * s.length + c

theorem Pays.mono {α : Type} {x : Lex α} {y : Counted α} {c c' : Nat} {d d' : α → Nat} (h : Pays x y c d)
    (hc : c ≤ c') (hd : ∀ a, d' a + c ≤ d a + c') : Pays x y c' d' := by
  intro s k
  have h := h s k
  cases e : x s with
  | error e' => rw [e] at h; exact h
  | ok p =>
    rw [e] at h
    obtain ⟨k', h1, h2⟩ := h
    have := hd p.1
    exact ⟨k', h1, by omega⟩

theorem Pays.pure {α : Type} {a : α} {c : Nat} {d : α → Nat} (h : d a ≤ c) :
    Pays (pure a) (pure a) c d := by
  intro s k; exact ⟨k, rfl, by omega⟩

theorem Pays.fail {α : Type} {e : Fail} {c : Nat} {d : α → Nat} :
    Pays (plain.fail e) (counting.fail e) c d := by
  intro s k; exact rfl

theorem Pays.bind {α β : Type} {x : Lex α} {y : Counted α} {c : Nat} {d : α → Nat} {f : α → Lex β} {g : α → Counted β}
    {d' : β → Nat} (h : Pays x y c d) (h' : ∀ a, Pays (f a) (g a) (d a) d') : Pays (x >>= f) (y >>= g) c d' := by
  intro s k
  have h := h s k
  simp only [Bind.bind, StateT.bind, Except.bind]
  cases e : x s with
  | error e' => rw [e] at h; simp only at h; rw [h]
  | ok p =>
    obtain ⟨a, s'⟩ := p
    rw [e] at h
    obtain ⟨k', h1, h2⟩ := h
    rw [h1]
    have h' := h' a s' k'
    dsimp only
    revert h'
    cases f a s' with
    | error e' => exact id
    | ok q =>
      rintro ⟨k'', h3, h4⟩
      exact ⟨k'', h3, by omega⟩

theorem pays_rest {c : Nat} : Pays plain.rest counting.rest c (fun _ => c) := by
  intro s k; exact ⟨k, rfl, Nat.le_refl _⟩

theorem pays_current {c : Nat} (h : 1 ≤ c) : Pays plain.current counting.current c (fun _ => c - 1) := by
  intro s k; exact ⟨k + 1, rfl, by dsimp only; omega⟩

theorem pays_peek {a : Acc} {q c : Nat} (hq : ∀ s, a.nthReads s 0 ≤ q) (h : q ≤ c) :
    Pays (plain.atA a) (counting.atA a) c (fun _ => c - q) := by
  intro s k; exact ⟨_, rfl, by have := hq s; dsimp only; omega⟩

theorem pays_eof {c : Nat} (h : 1 ≤ c) : Pays (fun s => .ok (nthIsEof s 0, s)) isEofC c (fun _ => c - 1) := by
  intro s k; exact ⟨k + 1, rfl, by dsimp only; omega⟩

/-- what is left after an acceptance: all but `n`, and 10 for each character -/
def left (c n r : Nat) (b : Bool) : Nat := if b then c + r else c - n

theorem pays_default {a : Acc} {q c : Nat} (hq : ∀ s, a.nthReads s 0 ≤ q) (h : q ≤ c) (h9 : q ≤ 9) :
    Pays (acceptDefault a) (acceptDefaultC a) c (left c q (9 - q)) := by
  intro s k
  have := hq s
  by_cases hp : a.peek s
  · cases s with
    | nil => simp [acceptDefault, hp, acceptDefaultC, Acc.peekC, Bind.bind, StateT.bind, Except.bind, advanceC, failC]
    | cons x xs =>
      simp only [acceptDefault, hp, acceptDefaultC, Acc.peekC, Bind.bind, StateT.bind, Except.bind, advanceC, if_true, Pure.pure,
        StateT.pure, Except.pure]
      exact ⟨_, rfl, by simp only [left, if_true, List.length_cons]; omega⟩
  · simp only [acceptDefault, hp, acceptDefaultC, Acc.peekC, Bind.bind, StateT.bind, Except.bind, Pure.pure, StateT.pure,
      Except.pure, Bool.false_eq_true, if_false]
    exact ⟨_, rfl, by simp only [left, Bool.false_eq_true, if_false]; omega⟩

/-- Patterns accepted one character at a time. -/
def OneChar (a : Acc) : Prop := (∀ s, a.accept s = acceptDefault a s) ∧ a.acceptC = acceptDefaultC a ∧ ∀ s, a.nthReads s 0 = 1

theorem oneChar_ch (c : Char) : OneChar (.ch c) := ⟨fun _ => rfl, rfl, fun _ => rfl⟩
theorem oneChar_pred (f : Char → Bool) : OneChar (.pred f) := ⟨fun _ => rfl, rfl, fun _ => rfl⟩
theorem oneChar_any : OneChar .any := ⟨fun _ => rfl, rfl, fun _ => rfl⟩

theorem pays_one {a : Acc} {c : Nat} (ha : OneChar a) (h : 1 ≤ c) :
    Pays a.accept a.acceptC c (left c 1 8) := by
  have e : a.accept = acceptDefault a := funext ha.1
  rw [e, ha.2.1]
  exact pays_default (fun s => Nat.le_of_eq (ha.2.2 s)) h (by decide)

theorem pays_not {x : Char} {c : Nat} (h : 2 ≤ c) :
    Pays (Acc.not (.ch x)).accept (Acc.not (.ch x)).acceptC c (left c 2 7) := by
  have e : (Acc.not (.ch x)).accept = acceptDefault (.not (.ch x)) := funext fun _ => rfl
  rw [e]
  refine pays_default (fun s => ?_) h (by decide)
  simp only [Acc.nthReads]; split <;> omega

theorem pays_seq {a b : Char} {c : Nat} (h : 3 ≤ c) :
    Pays (Acc.seq (.ch a) (.ch b)).accept (Acc.seq (.ch a) (.ch b)).acceptC c (left c 3 3) := by
  intro s k
  have hr : (Acc.seq (.ch a) (.ch b)).nthReads s 0 ≤ 3 := by simp only [Acc.nthReads]; split <;> omega
  by_cases hp : (Acc.seq (.ch a) (.ch b)).peek s
  · have hp1 : (Acc.ch a).peek s = true := by
      simp only [Acc.peek, Acc.nth, Bool.and_eq_true] at hp ⊢; exact hp.1
    have e1 : (Acc.ch a).accept = acceptDefault (.ch a) := rfl
    have e2 : (Acc.ch b).accept = acceptDefault (.ch b) := rfl
    have e1' : (Acc.ch a).acceptC = acceptDefaultC (.ch a) := rfl
    have e2' : (Acc.ch b).acceptC = acceptDefaultC (.ch b) := rfl
    simp only [Acc.accept, hp, if_true, Acc.acceptC, Acc.peekC, Bind.bind, StateT.bind, Except.bind, acceptDefaultC]
    cases s with
    | nil => simp only [acceptDefault, hp1, if_true, Pure.pure, Except.pure, Bind.bind, StateT.bind, Except.bind, advanceC, failC]; rfl
    | cons x xs =>
      simp only [acceptDefault, hp1, if_true, advanceC, Pure.pure, Except.pure, StateT.pure, Bind.bind, StateT.bind, Except.bind]
      by_cases hq : (Acc.ch b).peek xs
      · cases xs with
        | nil => simp only [hq, if_true, failC]; rfl
        | cons y ys =>
          simp only [hq, if_true]
          exact ⟨_, rfl, by simp only [left, if_true, List.length_cons, Acc.nthReads] at *; omega⟩
      · simp only [hq, Bool.false_eq_true, if_false]
        exact ⟨_, rfl, by simp only [left, if_true, List.length_cons, Acc.nthReads] at *; omega⟩
  · simp only [Acc.accept, hp, Bool.false_eq_true, if_false, Acc.acceptC, Acc.peekC, Bind.bind, StateT.bind, Except.bind, Pure.pure, StateT.pure, Except.pure]
    exact ⟨_, rfl, by simp only [left, Bool.false_eq_true, if_false]; omega⟩

theorem pays_or {a b : Acc} {c n : Nat} {da db : Nat} (ha : Pays a.accept a.acceptC c (fun r => if r then da else n))
    (hb : Pays b.accept b.acceptC n (fun r => if r then da else db)) :
    Pays (Acc.or a b).accept (Acc.or a b).acceptC c (fun r => if r then da else db) := by
  have e : (Acc.or a b).accept = (show Lex Bool from do
      if ← (show Lex Bool from a.accept) then return true else (show Lex Bool from b.accept)) := by
    funext s
    simp only [Acc.accept, Bind.bind, StateT.bind, Except.bind]
    cases a.accept s with
    | error => rfl
    | ok p => obtain ⟨r, s'⟩ := p; cases r <;> rfl
  rw [e, Acc.acceptC]
  refine Pays.bind ha fun r => ?_
  cases r with
  | true => exact Pays.pure (by simp)
  | false => exact hb

theorem pays_whileLoop {f : Text → Except Fail (Bool × Text)} {g : Counted Bool} {p : Nat}
    (hf : ∀ c, p ≤ c → Pays f g c (fun r => if r then c + 1 else c - p)) :
    ∀ (n c : Nat), p + 1 ≤ c →
      Pays (fun s => (whileLoop f n s).map fun s' => ((), s')) (whileLoopC g n) c (fun _ => c - p - 1) := by
  intro n
  induction n with
  | zero => intro c h s k; exact rfl
  | succ n ih =>
    intro c h
    have e : (fun s => (whileLoop f (n + 1) s).map fun s' => ((), s')) = (show Lex Unit from do
        if ← (show Lex Bool from fun s => .ok (nthIsEof s 0, s)) then return ()
        else if ← (show Lex Bool from f) then (fun s => (whileLoop f n s).map fun s' => ((), s')) else return ()) := by
      funext s
      simp only [whileLoop, Bind.bind, StateT.bind, Except.bind]
      cases nthIsEof s 0 with
      | true => rfl
      | false =>
        simp only [Bool.false_eq_true, if_false, Bind.bind, StateT.bind, Except.bind]
        cases f s with
        | error => rfl
        | ok q => obtain ⟨r, s'⟩ := q; cases r <;> rfl
    rw [e, whileLoopC]
    refine Pays.bind (pays_eof (by omega)) fun r => ?_
    cases r with
    | true => exact Pays.pure (by omega)
    | false =>
      simp only [Bool.false_eq_true, if_false]
      refine Pays.bind (hf _ (by omega)) fun r => ?_
      cases r with
      | true => exact (ih c h).mono (by simp; omega) (fun _ => by simp; omega)
      | false => exact Pays.pure (by simp; omega)

theorem pays_countLoop {f : Text → Except Fail (Bool × Text)} {g : Counted Bool} {p : Nat}
    (hf : ∀ c, p ≤ c → Pays f g c (fun r => if r then c else c - p)) :
    ∀ (n i c : Nat), p ≤ c → Pays (countLoop f n i) (countLoopC g n i) c (fun _ => c - p) := by
  intro n
  induction n with
  | zero => intro i c h s k; exact rfl
  | succ n ih =>
    intro i c h
    have e : countLoop f (n + 1) i = (show Lex Nat from do
        if ← (show Lex Bool from f) then countLoop f n (i + 1) else return i) := by
      funext s
      simp only [countLoop, Bind.bind, StateT.bind, Except.bind]
      cases f s with
      | error => rfl
      | ok q => obtain ⟨r, s'⟩ := q; cases r <;> rfl
    rw [e, countLoopC]
    refine Pays.bind (hf _ h) fun r => ?_
    cases r with
    | true => exact ih _ c h
    | false => exact Pays.pure (by simp)

/-- `While(a)` around `g` (combinators.rs:184-192) -/
def runC (a : Acc) (g : Counted Bool) : Counted Bool := do
  if ← atEndC a then return false
  else
    whileLoopC g ((← restC).length + 1)
    return true

/-- `While` and `Until`: once round for what is not accepted. -/
theorem pays_run {a : Acc} {f : Text → Except Fail (Bool × Text)} {g : Counted Bool} {p q c : Nat}
    (hf : ∀ c, p ≤ c → Pays f g c (fun r => if r then c + 1 else c - p))
    (hq : a.nthReads [] 0 ≤ q) (hc : q + 2 ≤ c) (hc' : p + 2 ≤ c) (hqp : q ≤ p) :
    Pays (show Lex Bool from fun s => if nthIsEof s 0 && !a.peek s then .ok (false, s)
      else do
        let s ← whileLoop f (s.length + 1) s
        return (true, s))
      (runC a g) c (fun _ => c - p - 2) := by
  intro s k
  have hl := pays_whileLoop hf (s.length + 1)
  by_cases he : nthIsEof s 0
  · have hs : s = [] := by cases s with | nil => rfl | cons => simp [nthIsEof] at he
    subst hs
    cases hp : a.peek [] with
    | false =>
      simp only [he, hp, Bool.not_false, Bool.and_self, if_true]
      refine ⟨k + 1 + a.nthReads [] 0, ?_, by omega⟩
      simp only [runC, Bind.bind, StateT.bind, Except.bind, atEndC, isEofC, he, if_true, Acc.peekC, hp, Pure.pure, StateT.pure,
        Except.pure, Bool.not_false]
    | true =>
      simp only [he, hp, Bool.not_true, Bool.and_false, Bool.false_eq_true, if_false]
      refine ⟨k + 1 + a.nthReads [] 0 + 1, ?_, by omega⟩
      simp only [runC, Bind.bind, StateT.bind, Except.bind, atEndC, isEofC, he, if_true, Acc.peekC, hp, Pure.pure, StateT.pure,
        Except.pure, Bool.not_true, Bool.false_eq_true, if_false, restC, whileLoopC, List.length_nil]
  · have hl := hl (c - 1) (by omega) s (k + 1)
    simp only [he, Bool.false_and, Bool.false_eq_true, if_false]
    have e : runC a g (s, k) = StateT.bind (whileLoopC g (s.length + 1)) (fun _ => StateT.pure true) (s, k + 1) := by
      simp only [runC, Bind.bind, StateT.bind, Except.bind, atEndC, isEofC, he, Bool.false_eq_true, if_false, Pure.pure, StateT.pure,
        Except.pure, restC]
    rw [e]
    dsimp only at hl
    revert hl
    cases hw : whileLoop f (s.length + 1) s with
    | error e' =>
      intro hl
      simp only [Except.map] at hl
      simp only [Bind.bind, StateT.bind, Except.bind, hl]
    | ok s' =>
      rintro ⟨k', h1, h2⟩
      refine ⟨k', ?_, by omega⟩
      simp only [Bind.bind, StateT.bind, Except.bind, h1, Pure.pure, StateT.pure, Except.pure]

/-- the patterns the lexer repeats, and what one attempt costs -/
theorem pays_while_one {a : Acc} {c : Nat} (ha : OneChar a) (h : 3 ≤ c) :
    Pays (Acc.while a).accept (Acc.while a).acceptC c (fun _ => c - 3) := by
  have := pays_run (a := a) (f := a.accept) (g := a.acceptC) (p := 1) (q := 1) (c := c)
    (fun c hc => (pays_one ha hc).mono (Nat.le_refl _) (fun r => by cases r <;> simp [left] <;> omega))
    (Nat.le_of_eq (ha.2.2 [])) h h (by decide)
  rw [show (Acc.while a).accept = _ from funext fun s => Acc.accept.eq_3 s a, Acc.acceptC]
  exact this

theorem pays_until {x : Char} {c : Nat} (h : 4 ≤ c) :
    Pays (Acc.until (.ch x)).accept (Acc.until (.ch x)).acceptC c (fun _ => c - 4) := by
  have := pays_run (a := .not (.ch x)) (f := acceptDefault (.not (.ch x))) (g := acceptDefaultC (.not (.ch x))) (p := 2)
    (q := 1) (c := c)
    (fun c hc => (pays_not hc).mono (Nat.le_refl _) (fun r => by cases r <;> simp [left] <;> omega))
    (by simp [Acc.nthReads, nthIsEof]) (by omega) h (by decide)
  rw [show (Acc.until (.ch x)).accept = _ from funext fun s => Acc.accept.eq_4 s (.ch x), Acc.acceptC]
  exact this

theorem pays_body {c : Nat} (h : 5 ≤ c) :
    Pays (Acc.or (.seq (.ch '\\') (.ch ']')) (.not (.ch ']'))).accept
      (Acc.or (.seq (.ch '\\') (.ch ']')) (.not (.ch ']'))).acceptC c (fun r => if r then c + 1 else c - 5) :=
  pays_or ((pays_seq (by omega)).mono (Nat.le_refl _) (fun r => by cases r <;> simp [left]))
    ((pays_not (c := c - 3) (by omega)).mono (Nat.le_refl _) (fun r => by cases r <;> simp [left] <;> omega))

theorem pays_while_body {c : Nat} (h : 7 ≤ c) :
    Pays (Acc.while (.or (.seq (.ch '\\') (.ch ']')) (.not (.ch ']')))).accept
      (Acc.while (.or (.seq (.ch '\\') (.ch ']')) (.not (.ch ']')))).acceptC c (fun _ => c - 7) := by
  have := pays_run (a := .or (.seq (.ch '\\') (.ch ']')) (.not (.ch ']'))) (p := 5) (q := 2) (c := c)
    (fun c hc => pays_body hc) (by decide) (by omega) h (by decide)
  rw [show (Acc.while (.or (.seq (.ch '\\') (.ch ']')) (.not (.ch ']')))).accept = _ from funext fun s => Acc.accept.eq_3 s _,
    Acc.acceptC]
  exact this

theorem pays_string_char {d : Char} {c : Nat} (h : 4 ≤ c) :
    Pays (Acc.or (.seq (.ch '\\') (.ch d)) .any).accept (Acc.or (.seq (.ch '\\') (.ch d)) .any).acceptC c
      (fun r => if r then c + 3 else c - 4) :=
  pays_or ((pays_seq (by omega)).mono (Nat.le_refl _) (fun r => by cases r <;> simp [left]))
    ((pays_one (c := c - 3) oneChar_any (by omega)).mono (Nat.le_refl _) (fun r => by cases r <;> simp [left] <;> omega))

theorem pays_count {x : Char} {c : Nat} (h : 1 ≤ c) :
    Pays (Acc.while (.ch x)).acceptCount (Acc.while (.ch x)).acceptCountC c (fun _ => c - 1) := by
  intro s k
  exact pays_countLoop (fun c hc => (pays_one (oneChar_ch x) hc).mono (Nat.le_refl _)
    (fun r => by cases r <;> simp [left])) (s.length + 1) 0 c h s k

/-! ### the functions of the lexer -/

theorem pays_accept_ch {x : Char} {c : Nat} (h : 1 ≤ c) :
    Pays (plain.accept (.ch x)) (counting.accept (.ch x)) c (left c 1 8) := pays_one (oneChar_ch x) h

theorem pays_bump {a : Acc} {c : Nat} (ha : OneChar a) (h : 1 ≤ c) :
    Pays (Over.bump plain a) (Over.bump counting a) c (fun _ => c + 8) := by
  unfold Over.bump
  refine Pays.bind (d := left c 1 8) (pays_one ha h) fun r => ?_
  cases r with
  | true => exact Pays.pure (by simp [left])
  | false => exact Pays.fail

theorem pays_bumpThen {a : Acc} {c : Nat} (ha : OneChar a) (h : 1 ≤ c) :
    Pays (Over.bumpThen plain a) (Over.bumpThen counting a) c (fun _ => c + 7) := by
  unfold Over.bumpThen
  refine Pays.bind (pays_bump ha h) fun _ => ?_
  exact (pays_current (by omega)).mono (Nat.le_refl _) (fun _ => by simp)

theorem pays_while_pred {f : Char → Bool} {c : Nat} (h : 3 ≤ c) :
    Pays (plain.accept (.while (.pred f))) (counting.accept (.while (.pred f))) c (fun _ => c - 3) :=
  pays_while_one (oneChar_pred f) h

theorem pays_at_one {a : Acc} {c : Nat} (ha : OneChar a) (h : 1 ≤ c) :
    Pays (plain.atA a) (counting.atA a) c (fun _ => c - 1) := pays_peek (fun s => Nat.le_of_eq (ha.2.2 s)) h

theorem pays_just {α : Type} {a : α} {c : Nat} {d : LexResult α → Nat} (h : d (a, none) ≤ c) :
    Pays (Over.just a) (Over.just a) c d := Pays.pure h

theorem pays_bail {α : Type} {a : α} {m : String} {c : Nat} {d : LexResult α → Nat} (h : d (a, some m) ≤ c) :
    Pays (Over.bail a m) (Over.bail a m) c d := Pays.pure h

theorem pays_number : Pays (Over.number plain) (Over.number counting) 10 (fun _ => 0) := by
  unfold Over.number
  refine Pays.bind (pays_at_one (oneChar_pred _) (by decide)) fun r => ?_
  cases r with
  | false => exact Pays.fail
  | true =>
    refine Pays.bind (d := left 9 3 3) (pays_seq (by decide)) fun r => ?_
    cases r with
    | true =>
      refine Pays.bind (pays_while_pred (by decide)) fun _ => ?_
      exact pays_just (by decide)
    | false =>
      refine Pays.bind (d := fun _ => 3) (pays_while_pred (by decide)) fun _ => ?_
      refine Pays.bind (d := left 3 1 8) (pays_accept_ch (by decide)) fun r => ?_
      have rest : Pays (do
            let e ← plain.accept (.ch 'e')
            let e ← if e then pure true else plain.accept (.ch 'E')
            if e then
              let _ ← plain.accept (.ch '-')
              let _ ← plain.accept (.while (.pred isNumber))
            Over.just SyntaxKind.number)
          (do
            let e ← counting.accept (.ch 'e')
            let e ← if e then pure true else counting.accept (.ch 'E')
            if e then
              let _ ← counting.accept (.ch '-')
              let _ ← counting.accept (.while (.pred isNumber))
            Over.just SyntaxKind.number) 2 (fun _ => 0) := by
        refine Pays.bind (d := left 2 1 8) (pays_accept_ch (by decide)) fun r => ?_
        have last : ∀ r, Pays (if r = true then do
              let _ ← plain.accept (.ch '-')
              let _ ← plain.accept (.while (.pred isNumber))
              Over.just SyntaxKind.number
            else Over.just SyntaxKind.number)
            (if r = true then do
              let _ ← counting.accept (.ch '-')
              let _ ← counting.accept (.while (.pred isNumber))
              Over.just SyntaxKind.number
            else Over.just SyntaxKind.number) (left 1 1 8 r) (fun _ => 0) := by
          intro r
          cases r with
          | false => exact pays_just (by decide)
          | true =>
            refine Pays.bind (d := fun _ => 8) ((pays_accept_ch (by decide)).mono (Nat.le_refl _)
              (fun r => by cases r <;> decide)) fun _ => ?_
            refine Pays.bind (pays_while_pred (by decide)) fun _ => ?_
            exact pays_just (by decide)
        cases r with
        | true => exact (last true).mono (by decide) (fun _ => by decide)
        | false => exact Pays.bind (d := left 1 1 8) (pays_accept_ch (by decide)) fun r => last r
      cases r with
      | true =>
        refine Pays.bind (pays_while_pred (by decide)) fun _ => ?_
        exact rest.mono (by decide) (fun _ => by decide)
      | false => exact rest

theorem pays_whitespace : Pays (Over.whitespace plain) (Over.whitespace counting) 4 (fun _ => 0) := by
  unfold Over.whitespace
  refine Pays.bind (pays_at_one (oneChar_pred _) (by decide)) fun r => ?_
  cases r with
  | false => exact Pays.fail
  | true =>
    refine Pays.bind (pays_while_pred (by decide)) fun _ => ?_
    exact Pays.pure (by decide)

theorem pays_closeLoop (count : Nat) : ∀ (n c : Nat), 8 ≤ c →
    Pays (Over.closeLoop plain count n) (Over.closeLoop counting count n) c (fun _ => c - 8) := by
  intro n
  induction n with
  | zero => intro c _; exact Pays.fail
  | succ n ih =>
    intro c h
    unfold Over.closeLoop
    refine Pays.bind (d := fun _ => c - 7) (pays_while_body (by omega)) fun _ => ?_
    refine Pays.bind (d := left (c - 7) 1 8) (pays_accept_ch (by omega)) fun r => ?_
    cases r with
    | false => exact Pays.pure (by simp only [left, Bool.false_eq_true, if_false]; omega)
    | true =>
      refine Pays.bind (d := fun _ => c) ((pays_count (c := c - 7 + 8) (by omega)).mono (by simp [left])
        (fun _ => by simp [left]; omega)) fun m => ?_
      split
      · exact ih c h
      · exact Pays.pure (by omega)

theorem pays_close (count : Nat) : Pays (Over.close plain count) (Over.close counting count) 10 (fun _ => 0) := by
  unfold Over.close
  refine Pays.bind (d := fun _ => 9) ((pays_accept_ch (by decide)).mono (Nat.le_refl _)
    (fun r => by cases r <;> decide)) fun _ => ?_
  refine Pays.bind pays_rest fun s => ?_
  refine Pays.bind (d := fun _ => 1) (pays_closeLoop count _ 9 (by decide)) fun r => ?_
  cases r with
  | true =>
    refine Pays.bind (d := fun _ => 0) ((pays_accept_ch (by decide)).mono (Nat.le_refl _)
      (fun r => by cases r <;> decide)) fun _ => ?_
    exact Pays.pure (by decide)
  | false => exact pays_bail (by decide)

theorem pays_bracketEnclosed : Pays (Over.bracketEnclosed plain) (Over.bracketEnclosed counting) 14 (fun _ => 0) := by
  unfold Over.bracketEnclosed
  refine Pays.bind (pays_current (by decide)) fun c => ?_
  split
  · exact Pays.fail
  · refine Pays.bind (pays_at_one (oneChar_ch _) (by decide)) fun r => ?_
    cases r with
    | true => exact (pays_close 0).mono (by decide) (fun _ => by decide)
    | false =>
      refine Pays.bind (pays_at_one (oneChar_ch _) (by decide)) fun r => ?_
      cases r with
      | true =>
        refine Pays.bind (d := fun _ => 10) (pays_count (by decide)) fun n => ?_
        exact pays_close n
      | false => exact pays_just (by decide)

theorem pays_comment : Pays (Over.comment plain) (Over.comment counting) 3 (fun _ => 0) := by
  have rest : ∀ c, 4 ≤ c → Pays (do let _ ← plain.accept (.until (.ch '\n')); Over.just SyntaxKind.comment)
      (do let _ ← counting.accept (.until (.ch '\n')); Over.just SyntaxKind.comment) c (fun _ => 0) := fun c h =>
    Pays.bind (d := fun _ => c - 4) (pays_until h) fun _ => pays_just (by omega)
  unfold Over.comment
  refine Pays.bind (pays_bump (oneChar_ch _) (by decide)) fun _ => ?_
  refine Pays.bind (d := left 11 1 8) (pays_accept_ch (by decide)) fun r => ?_
  cases r with
  | false => exact rest _ (by decide)
  | true =>
    refine Pays.bind (d := fun _ => 18) (pays_at_one (oneChar_ch _) (by decide)) fun r => ?_
    cases r with
    | false => exact rest _ (by decide)
    | true =>
      refine Pays.bind (d := fun _ => 4) (pays_bracketEnclosed.mono (by decide) (fun _ => by decide)) fun _ => ?_
      exact rest _ (by decide)

theorem pays_multilineString : Pays (Over.multilineString plain) (Over.multilineString counting) 16 (fun _ => 0) := by
  unfold Over.multilineString
  refine Pays.bind (d := fun _ => 14) (pays_peek (q := 2) (fun s => by simp only [Acc.nthReads]; split <;> omega) (by decide))
    fun r => ?_
  cases r with
  | false => exact Pays.fail
  | true => exact Pays.bind pays_bracketEnclosed fun _ => Pays.pure (by decide)

theorem pays_stringLoop (d : Char) : ∀ (n c : Nat), 5 ≤ c →
    Pays (Over.stringLoop plain d n) (Over.stringLoop counting d n) c (fun _ => 0) := by
  intro n
  induction n with
  | zero => intro c _; exact Pays.fail
  | succ n ih =>
    intro c h
    unfold Over.stringLoop
    refine Pays.bind (pays_current (by omega)) fun x => ?_
    split
    · exact pays_bail (by omega)
    · split
      · exact pays_bail (by omega)
      · split
        · exact Pays.bind (pays_bump (oneChar_ch _) (by omega)) fun _ => pays_just (by omega)
        · refine Pays.bind (d := fun _ => c) (?_ : Pays _ _ (c - 1) _) fun _ => ih c h
          unfold Over.bump
          refine Pays.bind (d := fun r : Bool => if r then c - 1 + 3 else c - 1 - 4)
            (pays_string_char (c := c - 1) (by omega)) fun r => ?_
          cases r with
          | true => exact Pays.pure (by simp; omega)
          | false => exact Pays.fail

theorem pays_string (d : Char) : Pays (Over.string plain d) (Over.string counting d) 1 (fun _ => 0) := by
  unfold Over.string
  split
  · exact Pays.fail
  · refine Pays.bind (pays_bump (oneChar_ch _) (by decide)) fun _ => ?_
    refine Pays.bind pays_rest fun s => ?_
    exact pays_stringLoop d _ _ (by decide)

theorem pays_ident : Pays (Over.ident plain) (Over.ident counting) 1 (fun _ => 0) := by
  unfold Over.ident
  refine Pays.bind pays_rest fun t => ?_
  refine Pays.bind (pays_bump (oneChar_pred _) (by decide)) fun _ => ?_
  refine Pays.bind (d := fun _ => 6) (pays_while_pred (by decide)) fun _ => ?_
  refine Pays.bind pays_rest fun s => ?_
  split
  · exact Pays.fail
  · exact Pays.pure (by decide)

/-- One token costs at most 11 reads and 10 for every character of it. -/
theorem pays_lexMain : Pays (Over.lexMain plain) (Over.lexMain counting) 11 (fun _ => 0) := by
  have two : ∀ (x : Char) (k1 k2 : SyntaxKind),
      Pays (do if (← Over.bumpThen plain .any) == x then do Over.bump plain (.ch x); Over.just k1 else Over.just k2)
        (do if (← Over.bumpThen counting .any) == x then do Over.bump counting (.ch x); Over.just k1 else Over.just k2) 10
        (fun _ => 0) := by
    intro x k1 k2
    refine Pays.bind (pays_bumpThen oneChar_any (by decide)) fun y => ?_
    split
    · exact Pays.bind (pays_bump (oneChar_ch _) (by decide)) fun _ => pays_just (by decide)
    · exact pays_just (by decide)
  unfold Over.lexMain
  refine Pays.bind (d := fun _ => 10) (pays_current (by decide)) fun c => ?_
  by_cases h : (c == '=') = true
  · rw [if_pos h, if_pos h]; exact two _ _ _
  rw [if_neg h, if_neg h]; clear h
  by_cases h : (c == '~') = true
  · rw [if_pos h, if_pos h]; exact two _ _ _
  rw [if_neg h, if_neg h]; clear h
  by_cases h : (c == '[') = true
  · rw [if_pos h, if_pos h]
    refine Pays.bind (pays_bumpThen oneChar_any (by decide)) fun y => ?_
    by_cases h : (y == '[') = true
    · rw [if_pos h, if_pos h]; exact pays_multilineString.mono (by decide) (fun _ => by decide)
    rw [if_neg h, if_neg h]
    split
    · exact pays_multilineString.mono (by decide) (fun _ => by decide)
    · exact pays_just (by decide)
  rw [if_neg h, if_neg h]; clear h
  by_cases h : (c == '.') = true
  · rw [if_pos h, if_pos h]
    refine Pays.bind (pays_bumpThen oneChar_any (by decide)) fun y => ?_
    split
    · refine Pays.bind (pays_bumpThen oneChar_any (by decide)) fun y => ?_
      split
      · exact Pays.bind (pays_bump (oneChar_ch _) (by decide)) fun _ => pays_just (by decide)
      · exact pays_just (by decide)
    · exact pays_just (by decide)
  rw [if_neg h, if_neg h]; clear h
  by_cases h : (c == ':') = true
  · rw [if_pos h, if_pos h]; exact two _ _ _
  rw [if_neg h, if_neg h]; clear h
  by_cases h : (c == '>') = true
  · rw [if_pos h, if_pos h]; exact two _ _ _
  rw [if_neg h, if_neg h]; clear h
  by_cases h : (c == '<') = true
  · rw [if_pos h, if_pos h]; exact two _ _ _
  rw [if_neg h, if_neg h]; clear h
  by_cases h : (c == '-') = true
  · rw [if_pos h, if_pos h]
    refine Pays.bind (pays_bumpThen oneChar_any (by decide)) fun y => ?_
    split
    · exact pays_comment.mono (by decide) (fun _ => by decide)
    · exact pays_just (by decide)
  rw [if_neg h, if_neg h]; clear h
  by_cases h : (c == '\'' || c == '"') = true
  · rw [if_pos h, if_pos h]; exact (pays_string c).mono (by decide) (fun _ => by decide)
  rw [if_neg h, if_neg h]; clear h
  cases singleKind c with
  | some k => exact Pays.bind (pays_bump oneChar_any (by decide)) fun _ => pays_just (by decide)
  | none =>
    dsimp only
    by_cases h : isIdentStart c = true
    · rw [if_pos h, if_pos h]
      exact Pays.bind (d := fun _ => 0) (pays_ident.mono (by decide) (fun _ => by decide)) fun _ => pays_just (by decide)
    rw [if_neg h, if_neg h]; clear h
    by_cases h : isNumber c = true
    · rw [if_pos h, if_pos h]; exact pays_number
    rw [if_neg h, if_neg h]; clear h
    by_cases h : isWhitespace c = true
    · rw [if_pos h, if_pos h]
      exact Pays.bind (d := fun _ => 0) (pays_whitespace.mono (by decide) (fun _ => by decide)) fun _ => pays_just (by decide)
    rw [if_neg h, if_neg h]; clear h
    exact Pays.bind (pays_bump oneChar_any (by decide)) fun _ => pays_bail (by decide)

end Lexer
end Verif
