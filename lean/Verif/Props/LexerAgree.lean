import Verif.Props.LexerCost

/-
C110: the counting source and the plain source agree for every acceptor, not only those the lexer uses.
-/
namespace Verif
namespace Lexer
open Accept

/-- The counting version gives the same result and leaves the same text. -/
def Agrees {α : Type} (x : Text → Except Fail (α × Text)) (y : Counted α) : Prop :=
  ∀ s k, (y (s, k)).map (fun r => (r.1, r.2.1)) = x s

private theorem Agrees.cases {α : Type} {x : Text → Except Fail (α × Text)} {y : Counted α} (h : Agrees x y) (s : Text) (k : Nat) :
    (∃ e, x s = .error e ∧ y (s, k) = .error e) ∨ ∃ a s' k', x s = .ok (a, s') ∧ y (s, k) = .ok (a, (s', k')) := by
  have := h s k
  cases e : y (s, k) with
  | error e' => rw [e] at this; exact .inl ⟨e', this.symm, rfl⟩
  | ok r => rw [e] at this; exact .inr ⟨r.1, r.2.1, r.2.2, this.symm, rfl⟩

private theorem agrees_default (a : Acc) : Agrees (acceptDefault a) (acceptDefaultC a) := by
  intro s k
  simp only [acceptDefault, acceptDefaultC, Acc.peekC, bind, StateT.bind, Except.bind]
  by_cases h : a.peek s = true
  · simp only [h, if_true]
    cases s <;> simp [advanceC, failC, bind, StateT.bind, Except.bind, Except.map, pure, StateT.pure, Except.pure]
  · simp [h, bind, StateT.bind, Except.bind, Except.map, pure, StateT.pure, Except.pure]

private theorem agrees_while {f : Text → Except Fail (Bool × Text)} {g : Counted Bool} (h : Agrees f g) (n : Nat) :
    Agrees (fun s => (whileLoop f n s).map fun s => ((), s)) (whileLoopC g n) := by
  induction n with
  | zero => intro s k; rfl
  | succ n ih =>
    intro s k
    simp only [whileLoop, whileLoopC, isEofC, bind, StateT.bind, Except.bind]
    by_cases he : nthIsEof s 0 = true
    · simp [he, bind, StateT.bind, Except.bind, Except.map, pure, StateT.pure, Except.pure]
    · simp only [he, Bool.false_eq_true, if_false, StateT.bind, Except.bind]
      rcases h.cases s (k + 1) with ⟨e, e1, e2⟩ | ⟨b, s', k', e1, e2⟩
      · simp [e1, e2, bind, StateT.bind, Except.bind, Except.map, pure, StateT.pure, Except.pure]
      · cases b
        · simp [e1, e2, bind, StateT.bind, Except.bind, Except.map, pure, StateT.pure, Except.pure]
        · simpa [e1, e2, bind, StateT.bind, Except.bind] using ih s' k'

private theorem agrees_times {f : Text → Except Fail (Bool × Text)} {g : Counted Bool} (h : Agrees f g) (n : Nat) :
    Agrees (fun s => (timesLoop f n s).map fun s => ((), s)) (timesLoopC g n) := by
  induction n with
  | zero => intro s k; rfl
  | succ n ih =>
    intro s k
    simp only [timesLoop, timesLoopC, bind, StateT.bind, Except.bind]
    rcases h.cases s k with ⟨e, e1, e2⟩ | ⟨b, s', k', e1, e2⟩
    · simp [e1, e2, bind, StateT.bind, Except.bind, Except.map, pure, StateT.pure, Except.pure]
    · simpa [e1, e2, bind, StateT.bind, Except.bind] using ih s' k'

private theorem agrees_count {f : Text → Except Fail (Bool × Text)} {g : Counted Bool} (h : Agrees f g) (n : Nat) :
    ∀ c, Agrees (countLoop f n c) (countLoopC g n c) := by
  induction n with
  | zero => intro c s k; rfl
  | succ n ih =>
    intro c s k
    simp only [countLoop, countLoopC, bind, StateT.bind, Except.bind]
    rcases h.cases s k with ⟨e, e1, e2⟩ | ⟨b, s', k', e1, e2⟩
    · simp [e1, e2, bind, StateT.bind, Except.bind, Except.map, pure, StateT.pure, Except.pure]
    · cases b
      · simp [e1, e2, bind, StateT.bind, Except.bind, Except.map, pure, StateT.pure, Except.pure]
      · simpa [e1, e2, bind, StateT.bind, Except.bind] using ih (c + 1) s' k'

private theorem atEndC_run (a : Acc) (s : Text) (k : Nat) :
    ∃ k', atEndC a (s, k) = .ok (nthIsEof s 0 && !a.peek s, (s, k')) := by
  simp only [atEndC, isEofC, Acc.peekC, bind, StateT.bind, Except.bind]
  by_cases he : nthIsEof s 0 = true
  · simp only [he, if_true]
    exact ⟨_, by simp [pure, StateT.pure, Except.pure]; rfl⟩
  · simp only [he]
    exact ⟨_, by simp [pure, StateT.pure, Except.pure]; rfl⟩

/-- C110: every acceptor accepts the same on the counting source. -/
theorem C110_accept (a : Acc) : Agrees a.accept a.acceptC := by
  induction a with
  | seq a b iha ihb =>
    intro s k
    rw [Acc.accept, Acc.acceptC]
    simp only [Acc.peekC, bind, StateT.bind, Except.bind]
    by_cases hp : (Acc.seq a b).peek s = true
    · simp only [hp, if_true, StateT.bind, Except.bind]
      rcases iha.cases s (k + (a.seq b).nthReads s 0) with ⟨e, e1, e2⟩ | ⟨r, s', k', e1, e2⟩
      · simp [e1, e2, bind, StateT.bind, Except.bind, Except.map, pure, StateT.pure, Except.pure]
      · simp only [e1, e2]
        rcases ihb.cases s' k' with ⟨e, f1, f2⟩ | ⟨r, s'', k'', f1, f2⟩
        · simp [f1, f2, bind, StateT.bind, Except.bind, Except.map, pure, StateT.pure, Except.pure]
        · simp [f1, f2, bind, StateT.bind, Except.bind, Except.map, pure, StateT.pure, Except.pure]
    · simp [hp, bind, StateT.bind, Except.bind, Except.map, pure, StateT.pure, Except.pure]
  | or a b iha ihb =>
    intro s k
    rw [Acc.accept, Acc.acceptC]
    simp only [bind, StateT.bind, Except.bind]
    rcases iha.cases s k with ⟨e, e1, e2⟩ | ⟨r, s', k', e1, e2⟩
    · simp [e1, e2, bind, StateT.bind, Except.bind, Except.map, pure, StateT.pure, Except.pure]
    · cases r
      · simpa [e1, e2, bind, StateT.bind, Except.bind] using ihb s' k'
      · simp [e1, e2, bind, StateT.bind, Except.bind, Except.map, pure, StateT.pure, Except.pure]
  | «while» a ih =>
    intro s k
    rw [Acc.accept, Acc.acceptC]
    obtain ⟨k', hk⟩ := atEndC_run a s k
    simp only [bind, StateT.bind, Except.bind, hk]
    by_cases hp : (nthIsEof s 0 && !a.peek s) = true
    · simp [hp, bind, StateT.bind, Except.bind, Except.map, pure, StateT.pure, Except.pure]
    · simp only [hp, Bool.false_eq_true, if_false, StateT.bind, Except.bind, restC]
      rcases (agrees_while ih (s.length + 1)).cases s k' with ⟨e, e1, e2⟩ | ⟨r, s', k'', e1, e2⟩
      all_goals
        simp only [bind, StateT.bind, Except.bind]
        rw [e2]
        cases hw : whileLoop a.accept (s.length + 1) s <;> rw [hw] at e1 <;> simp [Except.map] at e1
        simp [bind, StateT.bind, Except.bind, Except.map, pure, StateT.pure, Except.pure, e1]
  | «until» a ih =>
    intro s k
    rw [Acc.accept, Acc.acceptC]
    obtain ⟨k', hk⟩ := atEndC_run (.not a) s k
    simp only [bind, StateT.bind, Except.bind, hk]
    by_cases hp : (nthIsEof s 0 && !(Acc.not a).peek s) = true
    · simp [hp, bind, StateT.bind, Except.bind, Except.map, pure, StateT.pure, Except.pure]
    · simp only [hp, Bool.false_eq_true, if_false, StateT.bind, Except.bind, restC]
      rcases (agrees_while (agrees_default (.not a)) (s.length + 1)).cases s k' with ⟨e, e1, e2⟩ | ⟨r, s', k'', e1, e2⟩
      all_goals
        simp only [bind, StateT.bind, Except.bind]
        rw [e2]
        cases hw : whileLoop (acceptDefault (.not a)) (s.length + 1) s <;> rw [hw] at e1 <;> simp [Except.map] at e1
        simp [bind, StateT.bind, Except.bind, Except.map, pure, StateT.pure, Except.pure, e1]
  | «repeat» a n ih =>
    intro s k
    rw [Acc.accept, Acc.acceptC]
    simp only [Acc.peekC, bind, StateT.bind, Except.bind]
    by_cases hp : (Acc.repeat a n).peek s = true
    · simp only [hp, if_true, StateT.bind, Except.bind]
      rcases (agrees_times ih n).cases s (k + (a.repeat n).nthReads s 0) with ⟨e, e1, e2⟩ | ⟨r, s', k'', e1, e2⟩
      all_goals
        simp only [bind, StateT.bind, Except.bind]
        rw [e2]
        cases hw : timesLoop a.accept n s <;> rw [hw] at e1 <;> simp [Except.map] at e1
        simp [bind, StateT.bind, Except.bind, Except.map, pure, StateT.pure, Except.pure, e1]
    · simp [hp, bind, StateT.bind, Except.bind, Except.map, pure, StateT.pure, Except.pure]
  | _ =>
    intro s k
    first
    | simpa only [Acc.accept, Acc.acceptC] using agrees_default _ s k

/-- C110: every acceptor is counted the same on the counting source. -/
theorem C110_accept_count (a : Acc) : Agrees a.acceptCount a.acceptCountC := by
  cases a with
  | «while» a => intro s k; exact agrees_count (C110_accept a) (s.length + 1) 0 s k
  | «until» a => intro s k; exact agrees_count (agrees_default (.not a)) (s.length + 1) 0 s k
  | _ =>
    intro s k
    simp only [Acc.acceptCount, Acc.acceptCountC, bind, StateT.bind, Except.bind]
    rcases (C110_accept _).cases s k with ⟨e, e1, e2⟩ | ⟨r, s', k'', e1, e2⟩
    · rw [e1, e2]; rfl
    · rw [e1, e2]; rfl

end Lexer
end Verif
