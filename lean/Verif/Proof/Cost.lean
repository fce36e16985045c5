import Verif.Proof.GrammarSpec
import Verif.Spec.Steps

/-
A calculus for the number of steps of parser programs.
-/
set_option linter.unusedSimpArgs false
set_option linter.unusedVariables false
namespace Verif
open P Grammar

theorem run_bind {α β : Type} (p : Prog α) (f : α → Prog β) : ∀ s,
    (p.bind f).run s = match p.run s with
      | .ok (a, s') => (f a).run s'
      | .error e => .error e := by
  induction p with
  | pure a => intro s; simp [Prog.bind, Prog.run]
  | nth n k ih => intro s; simp [Prog.bind, Prog.run, ih]
  | advance k ih =>
    intro s; simp only [Prog.bind, Prog.run, ih]
    split <;> simp_all
  | start k ih => intro s; simp [Prog.bind, Prog.run, ih]
  | startError k ih => intro s; simp [Prog.bind, Prog.run, ih]
  | complete m kd k ih =>
    intro s; simp only [Prog.bind, Prog.run]
    split
    · rw [ih]
    · rfl
  | precede c k ih =>
    intro s; simp only [Prog.bind, Prog.run]
    split
    · rw [ih]
    · rfl
  | completeError m e k ih =>
    intro s; simp only [Prog.bind, Prog.run]
    split
    · rw [ih]
    · rfl
  | error e k ih => intro s; simp [Prog.bind, Prog.run, ih]
  | panic => intro s; simp [Prog.bind, Prog.run]
  | outOfFuel => intro s; simp [Prog.bind, Prog.run]

theorem steps_bind {α β : Type} (p : Prog α) (f : α → Prog β) : ∀ s a s', p.run s = .ok (a, s') →
    (p.bind f).steps s = p.steps s + (f a).steps s' := by
  induction p with
  | pure a => intro s a s' h; simp [Prog.run] at h; simp [Prog.bind, Prog.steps, h]
  | nth n k ih => intro s a s' h; simp only [Prog.run] at h; simp [Prog.bind, Prog.steps, ih _ _ _ _ h, Nat.add_assoc]
  | advance k ih =>
    intro s a s' h; simp only [Prog.run] at h
    simp only [Prog.bind, Prog.steps]
    split at h
    · rename_i hc; simp only [if_pos hc, ih _ _ _ _ h]; omega
    · rename_i hc; simp only [if_neg hc, ih _ _ _ _ h]; omega
  | start k ih => intro s a s' h; simp only [Prog.run] at h; simp [Prog.bind, Prog.steps, ih _ _ _ _ h, Nat.add_assoc]
  | startError k ih => intro s a s' h; simp only [Prog.run] at h; simp [Prog.bind, Prog.steps, ih _ _ _ _ h, Nat.add_assoc]
  | complete m kd k ih =>
    intro s a s' h; simp only [Prog.run] at h
    simp only [Prog.bind, Prog.steps]
    split at h
    · rename_i hc; simp only [hc]; rw [ih _ _ _ h]; exact (Nat.add_assoc ..).symm
    · simp at h
  | precede c k ih =>
    intro s a s' h; simp only [Prog.run] at h
    simp only [Prog.bind, Prog.steps]
    split at h
    · rename_i hc; simp only [hc]; rw [ih _ _ _ _ h]; exact (Nat.add_assoc ..).symm
    · simp at h
  | completeError m e k ih =>
    intro s a s' h; simp only [Prog.run] at h
    simp only [Prog.bind, Prog.steps]
    split at h
    · rename_i hc; simp only [hc]; rw [ih _ _ _ h]; exact (Nat.add_assoc ..).symm
    · simp at h
  | error e k ih => intro s a s' h; simp only [Prog.run] at h; simp [Prog.bind, Prog.steps, ih _ _ _ h, Nat.add_assoc]
  | panic => intro s a s' h; simp [Prog.run] at h
  | outOfFuel => intro s a s' h; simp [Prog.run] at h

/-- steps paid for by every token taken after the first -/
abbrev rate : Nat := 100

/-- From a state where the next token satisfies `c`, the program takes no token and makes at most `z` steps (`none`: it
cannot end without taking one), or it takes `d + 1` tokens and makes at most `rate * d + b` steps. -/
def Cost {α : Type} (c : SyntaxKind → Prop) (z : Option Nat) (b : Nat) (p : Prog α) : Prop :=
  ∀ s a s', c (lookahead s.toks 0) → p.run s = .ok (a, s') →
    (s'.toks = s.toks ∧ ∃ n, z = some n ∧ p.steps s ≤ n) ∨
    (∃ d, s.toks.length = s'.toks.length + (d + 1) ∧ p.steps s ≤ rate * d + b)

/-- one after the other -/
def zadd : Option Nat → Option Nat → Option Nat
  | some a, some b => some (a + b)
  | _, _ => none
def part : Option Nat → Nat → Nat
  | some z, b => z + b
  | none, _ => 0
def bseq (z1 : Option Nat) (b1 : Nat) (z2 : Option Nat) (b2 : Nat) : Nat :=
  max (max (part z2 b1) (part z1 b2)) (b1 + b2 - rate)
/-- one or the other -/
def zmax : Option Nat → Option Nat → Option Nat
  | some a, some b => some (max a b)
  | some a, none => some a
  | none, b => b
def zle : Option Nat → Option Nat → Bool
  | some a, some b => decide (a ≤ b)
  | some _, none => false
  | none, _ => true

variable {α β : Type} {c : SyntaxKind → Prop} {z z1 z2 : Option Nat} {b b1 b2 : Nat}

theorem Cost.le {p : Prog α} (h : Cost c z1 b1 p) (hz : zle z1 z = true) (hb : b1 ≤ b) : Cost c z b p := by
  intro s a s' hc hr
  rcases h s a s' hc hr with ⟨h1, n, h2, h3⟩ | ⟨d, h1, h2⟩
  · subst h2
    cases z with
    | none => simp [zle] at hz
    | some m => simp [zle] at hz; exact .inl ⟨h1, m, rfl, by omega⟩
  · exact .inr ⟨d, h1, by omega⟩

theorem Cost.weaken {p : Prog α} (h : Cost (fun _ => True) z b p) : Cost c z b p :=
  fun s a s' _ hr => h s a s' trivial hr

theorem Cost.cond {c' : SyntaxKind → Prop} {p : Prog α} (h : Cost c z b p) (hc : ∀ x, c' x → c x) : Cost c' z b p :=
  fun s a s' h' hr => h s a s' (hc _ h') hr

theorem Cost.absurd {p : Prog α} (h : ∀ x, ¬ c x) : Cost c none 0 p := fun s a s' hc hr => (h _ hc).elim

/-- the second program knows the next token if the first one takes none -/
theorem Cost.bind' {p : Prog α} {f : α → Prog β} {z2' : Option Nat} {b2' : Nat} (h1 : Cost c z1 b1 p)
    (h2 : ∀ a, Cost (fun _ => True) z2 b2 (f a)) (h2' : ∀ a, Cost c z2' b2' (f a)) :
    Cost c (zadd z1 z2') (max (max (part z2 b1) (part z1 b2')) (b1 + b2 - rate)) (p >>= f) := by
  intro s a s' hc hr
  have hr0 : (p.bind f).run s = .ok (a, s') := hr
  rw [run_bind] at hr0
  cases hp : p.run s with
  | error e => rw [hp] at hr0; simp at hr0
  | ok r =>
    obtain ⟨x, s1⟩ := r
    rw [hp] at hr0
    simp only at hr0
    have hs : (p >>= f).steps s = p.steps s + (f x).steps s1 := steps_bind p f s x s1 hp
    rw [hs]
    rcases h1 s x s1 hc hp with ⟨e1, n1, rfl, l1⟩ | ⟨d1, e1, l1⟩
    · rcases h2' x s1 a s' (by rw [e1]; exact hc) hr0 with ⟨e2, n2, rfl, l2⟩ | ⟨d2, e2, l2⟩
      · exact .inl ⟨e2.trans e1, n1 + n2, rfl, by omega⟩
      · rw [e1] at e2
        exact .inr ⟨d2, e2, by simp only [part]; omega⟩
    · rcases h2 x s1 a s' trivial hr0 with ⟨e2, n2, rfl, l2⟩ | ⟨d2, e2, l2⟩
      · rw [e2]
        exact .inr ⟨d1, e1, by simp only [part]; omega⟩
      · refine .inr ⟨d1 + d2 + 1, by omega, ?_⟩
        have : rate * (d1 + d2 + 1) = rate * d1 + rate * d2 + rate := by simp [Nat.mul_add]
        omega

theorem Cost.bind {p : Prog α} {f : α → Prog β} (h1 : Cost c z1 b1 p) (h2 : ∀ a, Cost (fun _ => True) z2 b2 (f a)) :
    Cost c (zadd z1 z2) (bseq z1 b1 z2 b2) (p >>= f) := Cost.bind' h1 h2 fun a => (h2 a).weaken

theorem Cost.pure (a : α) : Cost c (some 0) 0 (pure a : Prog α) := by
  intro s x s' _ hr
  have : (Prog.pure a).run s = .ok (x, s') := hr
  simp [Prog.run] at this
  exact .inl ⟨by rw [this.2], 0, rfl, by show (Prog.pure a).steps s ≤ 0; simp [Prog.steps]⟩

theorem Cost.panic : Cost c none 0 (Prog.panic : Prog α) := by intro s a s' _ h; simp [Prog.run] at h
theorem Cost.fuel : Cost c none 0 (Prog.outOfFuel : Prog α) := by intro s a s' _ h; simp [Prog.run] at h

theorem Cost.ite {q : Prop} [Decidable q] {p1 p2 : Prog α} (h1 : q → Cost c z1 b1 p1) (h2 : ¬ q → Cost c z2 b2 p2) :
    Cost c (zmax z1 z2) (max b1 b2) (if q then p1 else p2) := by
  have l1 : zle z1 (zmax z1 z2) = true := by cases z1 <;> cases z2 <;> simp [zle, zmax]; omega
  have l2 : zle z2 (zmax z1 z2) = true := by cases z1 <;> cases z2 <;> simp [zle, zmax]; omega
  split
  · exact (h1 ‹_›).le l1 (by omega)
  · exact (h2 ‹_›).le l2 (by omega)

/-- one step that takes no token -/
theorem Cost.one {p : Prog α} {s s1 : PState} {q : Prog α} (h : Cost c z b q) (ht : s1.toks = s.toks)
    (hc : c (lookahead s.toks 0)) {a s'} (hr : q.run s1 = .ok (a, s')) (hs : p.steps s = 1 + q.steps s1) :
    (s'.toks = s.toks ∧ ∃ n, zadd (some 1) z = some n ∧ p.steps s ≤ n) ∨
    (∃ d, s.toks.length = s'.toks.length + (d + 1) ∧ p.steps s ≤ rate * d + (1 + b)) := by
  rcases h s1 a s' (by rw [ht]; exact hc) hr with ⟨h1, n, rfl, h3⟩ | ⟨d, h1, h2⟩
  · exact .inl ⟨h1.trans ht, 1 + n, rfl, by omega⟩
  · rw [ht] at h1
    exact .inr ⟨d, h1, by omega⟩

theorem Cost.current {f : SyntaxKind → Prog β} (h : ∀ k, Cost (fun x => c x ∧ x = k) z b (f k)) :
    Cost c (zadd (some 1) z) (1 + b) (P.current >>= f) := by
  intro s a s' hc hr
  exact Cost.one (h (lookahead s.toks 0)) rfl ⟨hc, rfl⟩ (show (f (lookahead s.toks 0)).run s = .ok (a, s') from hr) rfl

theorem Cost.nth {n : Nat} {f : SyntaxKind → Prog β} (h : ∀ k, Cost c z b (f k)) :
    Cost c (zadd (some 1) z) (1 + b) (P.nth n >>= f) := by
  intro s a s' hc hr
  exact Cost.one (h (lookahead s.toks n)) rfl hc (show (f (lookahead s.toks n)).run s = .ok (a, s') from hr) rfl

theorem Cost.test {t : SyntaxKind → Bool} {g : Prog Bool} {f : Bool → Prog β}
    (hg : g = P.current >>= fun k => Pure.pure (t k))
    (h1 : Cost (fun x => c x ∧ t x = true) z1 b1 (f true)) (h2 : Cost (fun x => c x ∧ t x = false) z2 b2 (f false)) :
    Cost c (zadd (some 1) (zmax z1 z2)) (1 + max b1 b2) (g >>= f) := by
  subst hg
  intro s a s' hc hr
  have l1 : zle z1 (zmax z1 z2) = true := by cases z1 <;> cases z2 <;> simp [zle, zmax]; omega
  have l2 : zle z2 (zmax z1 z2) = true := by cases z1 <;> cases z2 <;> simp [zle, zmax]; omega
  have hr' : (f (t (lookahead s.toks 0))).run s = .ok (a, s') := hr
  have hs : ((P.current >>= fun k => Pure.pure (t k)) >>= f).steps s = 1 + (f (t (lookahead s.toks 0))).steps s := rfl
  cases hk : t (lookahead s.toks 0) with
  | true =>
    rw [hk] at hr' hs
    exact Cost.one (h1.le l1 (by omega)) rfl ⟨hc, hk⟩ hr' hs
  | false =>
    rw [hk] at hr' hs
    exact Cost.one (h2.le l2 (by omega)) rfl ⟨hc, hk⟩ hr' hs

theorem Cost.atK {k : SyntaxKind} {f : Bool → Prog β} (h1 : Cost (fun x => c x ∧ (x == k) = true) z1 b1 (f true))
    (h2 : Cost (fun x => c x ∧ (x == k) = false) z2 b2 (f false)) :
    Cost c (zadd (some 1) (zmax z1 z2)) (1 + max b1 b2) (P.atK k >>= f) :=
  Cost.test (t := fun x => x == k) rfl h1 h2

theorem Cost.atTs {ts : TokenSet} {f : Bool → Prog β} (h1 : Cost (fun x => c x ∧ ts.contains x = true) z1 b1 (f true))
    (h2 : Cost (fun x => c x ∧ ts.contains x = false) z2 b2 (f false)) :
    Cost c (zadd (some 1) (zmax z1 z2)) (1 + max b1 b2) (P.atTs ts >>= f) :=
  Cost.test (t := fun x => ts.contains x) rfl h1 h2

theorem Cost.start {f : Nat → Prog β} (h : ∀ m, Cost c z b (f m)) :
    Cost c (zadd (some 1) z) (1 + b) (P.start >>= f) := by
  intro s a s' hc hr
  exact Cost.one (s := s) (s1 := { s with events := s.events ++ [Event.tombstone] }) (h s.events.length) rfl hc hr rfl

theorem Cost.startError {f : Nat → Prog β} (h : ∀ m, Cost c z b (f m)) :
    Cost c (zadd (some 1) z) (1 + b) (P.startError >>= f) := by
  intro s a s' hc hr
  exact Cost.one (s := s) (s1 := { s with events := s.events ++ [Event.startError] }) (h s.events.length) rfl hc hr rfl

theorem Cost.precede {cm : Nat} {f : Nat → Prog β} (h : ∀ m, Cost c z b (f m)) :
    Cost c (zadd (some 1) z) (1 + b) (P.precede cm >>= f) := by
  intro s a s' hc hr
  have hr' : (Prog.precede cm f).run s = .ok (a, s') := hr
  have hs : (P.precede cm >>= f).steps s = (Prog.precede cm f).steps s := rfl
  simp only [Prog.run] at hr'
  simp only [Prog.steps] at hs
  split at hr'
  · rename_i heq
    rw [heq] at hs
    refine Cost.one (s := s) (h s.events.length) ?_ hc hr' hs
    rfl
  · simp at hr'

theorem Cost.complete {m : Nat} {k : SyntaxKind} : Cost c (some 1) 0 (P.complete m k) := by
  intro s a s' hc hr
  simp only [P.complete, Prog.run] at hr
  split at hr
  · rename_i heq
    simp only [Except.ok.injEq, Prod.mk.injEq] at hr
    refine .inl ⟨by rw [← hr.2], 1, rfl, ?_⟩
    simp [P.complete, Prog.steps, heq]
  · simp at hr

theorem Cost.completeError {m : Nat} {e} : Cost c (some 1) 0 (P.completeError m e) := by
  intro s a s' hc hr
  simp only [P.completeError, Prog.run] at hr
  split at hr
  · rename_i heq
    simp only [Except.ok.injEq, Prod.mk.injEq] at hr
    refine .inl ⟨by rw [← hr.2], 1, rfl, ?_⟩
    simp [P.completeError, Prog.steps, heq]
  · simp at hr

theorem Cost.pushError {e} : Cost c (some 1) 0 (P.pushError e) := by
  intro s a s' hc hr
  simp only [P.pushError, Prog.run, Except.ok.injEq, Prod.mk.injEq] at hr
  exact .inl ⟨by rw [← hr.2], 1, rfl, by simp [P.pushError, Prog.steps]⟩

theorem Cost.error {msg} : Cost c (some 1) 0 (P.error msg) := Cost.pushError

theorem Cost.bumpExpect : Cost c none 1 P.bumpExpect := by
  intro s a s' hc hr
  simp only [P.bumpExpect, Prog.run] at hr
  split at hr
  · simp [Prog.run] at hr
  · rename_i h
    simp only [if_true, Prog.run, Except.ok.injEq, Prod.mk.injEq] at hr
    refine .inr ⟨0, ?_, ?_⟩
    · rw [← hr.2]
      cases ht : s.toks with
      | nil => simp [ht] at h
      | cons => simp
    · simp [P.bumpExpect, Prog.steps, h]

end Verif
