import Verif.Proof.GrammarSpec
import Verif.Spec.ErrorMessages

/-
The error messages of the parser are true of the next token.
-/
set_option linter.unusedSimpArgs false
set_option linter.unusedVariables false
namespace Verif
open Item PTree P Grammar Spec

/-- tokens and errors of a piece of tree; an error node counts as an error before its tokens, `bad` is a node of kind
`Error` that is not an error node -/
inductive Mark where
  | tok (k : SyntaxKind)
  | err (e : ParseError)
  | bad

namespace Item
mutual
def marks : Item → List Mark
  | .tok k => [.tok k]
  | .err e => [.err e]
  | .errNode cs e => .err e :: marksL cs
  | .node _ k bf af => (if k = .error then [.bad] else []) ++ (marksL bf ++ marksL af)
def marksL : List Item → List Mark
  | [] => []
  | i :: is => marks i ++ marksL is
end

@[simp] theorem marksL_append (a b : List Item) : marksL (a ++ b) = marksL a ++ marksL b := by
  induction a with
  | nil => simp [marksL]
  | cons x xs ih => simp [marksL, ih]
@[simp] theorem marksL_nil : marksL [] = [] := rfl
@[simp] theorem marksL_single (i : Item) : marksL [i] = marks i := by simp [marksL]
end Item

/-- the errors among the marks are true, and the tokens are the ones between `toks` and `rest` -/
def Truth : List SyntaxKind → List Mark → List SyntaxKind → Prop
  | toks, [], rest => toks = rest
  | toks, .tok k :: ms, rest => ∃ ts, toks = k :: ts ∧ Truth ts ms rest
  | toks, .err e :: ms, rest => Says e.display (lookahead toks 0) ∧ Truth toks ms rest
  | _, .bad :: _, _ => False

theorem truth_append {toks rest : List SyntaxKind} {a b : List Mark} :
    Truth toks (a ++ b) rest ↔ ∃ m, Truth toks a m ∧ Truth m b rest := by
  induction a generalizing toks with
  | nil => simp [Truth]
  | cons x xs ih =>
    cases x with
    | tok k =>
      simp only [List.cons_append, Truth, ih]
      constructor
      · rintro ⟨ts, h, m, h1, h2⟩; exact ⟨m, ⟨ts, h, h1⟩, h2⟩
      · rintro ⟨m, ⟨ts, h, h1⟩, h2⟩; exact ⟨ts, h, m, h1, h2⟩
    | err e =>
      simp only [List.cons_append, Truth, ih]
      constructor
      · rintro ⟨h, m, h1, h2⟩; exact ⟨m, ⟨h, h1⟩, h2⟩
      · rintro ⟨m, ⟨h, h1⟩, h2⟩; exact ⟨h, m, h1, h2⟩
    | bad => simp [Truth]

def stackMarks : List Frame → List Mark
  | [] => []
  | f :: fs => stackMarks fs ++ (Item.marksL f.outer.reverse ++ Item.marksL f.before)

def allMarks (s : FState) : List Mark := stackMarks s.stack ++ Item.marksL s.cur.reverse

def Inv (t0 : List SyntaxKind) (s : FState) : Prop := Truth t0 (allMarks s) s.toks

/-- From a state where everything said so far is true and the next token satisfies `c`, the program only says what is
true. -/
def K {α : Type} (c : SyntaxKind → Prop) (p : Prog α) : Prop :=
  ∀ t0 s a s', Inv t0 s → c (lookahead s.toks 0) → p.runF s = .ok (a, s') → Inv t0 s'

variable {α β : Type} {c : SyntaxKind → Prop}

theorem K.bind {p : Prog α} {f : α → Prog β} (h1 : K c p) (h2 : ∀ a, K (fun _ => True) (f a)) : K c (p >>= f) := by
  intro t0 s a s' hi hc h
  rw [show (p >>= f) = p.bind f from rfl, runF_bind] at h
  cases hp : p.runF s with
  | error e => rw [hp] at h; simp at h
  | ok r =>
    obtain ⟨x, s1⟩ := r
    rw [hp] at h
    exact h2 x t0 s1 a s' (h1 t0 s x s1 hi hc hp) trivial h

theorem K.weaken {p : Prog α} (h : K (fun _ => True) p) : K c p := fun t0 s a s' hi _ hr => h t0 s a s' hi trivial hr

theorem K.pure (a : α) : K c (pure a : Prog α) := by
  intro t0 s x s' hi _ h
  have : (Prog.pure a).runF s = .ok (x, s') := h
  simp [Prog.runF] at this
  rw [← this.2]; exact hi

theorem K.panic : K c (Prog.panic : Prog α) := by intro t0 s x s' hi _ h; simp [Prog.runF] at h
theorem K.fuel : K c (Prog.outOfFuel : Prog α) := by intro t0 s x s' hi _ h; simp [Prog.runF] at h

/-- from a calculation with `wpF` -/
theorem K.ofWp {p : Prog α} (h : ∀ t0 s a s', Inv t0 s → c (lookahead s.toks 0) →
    wpF p s (fun b s'' => b = a ∧ s'' = s') → Inv t0 s') : K c p := by
  intro t0 s a s' hi hc hr
  exact h t0 s a s' hi hc ((wpF_iff _ _ _).2 ⟨a, s', hr, rfl, rfl⟩)

theorem K.current {f : SyntaxKind → Prog β} (h : ∀ k, K (fun x => c x ∧ x = k) (f k)) : K c (P.current >>= f) := by
  intro t0 s a s' hi hc hr
  have : (f (lookahead s.toks 0)).runF s = .ok (a, s') := hr
  exact h _ t0 s a s' hi ⟨hc, rfl⟩ this

theorem K.nth {n : Nat} {f : SyntaxKind → Prog β} (h : ∀ k, K c (f k)) : K c (P.nth n >>= f) := by
  intro t0 s a s' hi hc hr
  exact h _ t0 s a s' hi hc (show (f (lookahead s.toks n)).runF s = .ok (a, s') from hr)

theorem K.atK {k : SyntaxKind} {f : Bool → Prog β} (h1 : K (fun x => c x ∧ x = k) (f true))
    (h2 : K (fun x => c x ∧ x ≠ k) (f false)) : K c (P.atK k >>= f) := by
  intro t0 s a s' hi hc hr
  have hr' : (f (lookahead s.toks 0 == k)).runF s = .ok (a, s') := hr
  by_cases hk : lookahead s.toks 0 = k
  · rw [show (lookahead s.toks 0 == k) = true from by simpa using hk] at hr'
    exact h1 t0 s a s' hi ⟨hc, hk⟩ hr'
  · rw [show (lookahead s.toks 0 == k) = false from by simpa using hk] at hr'
    exact h2 t0 s a s' hi ⟨hc, hk⟩ hr'

theorem K.atTs {ts : TokenSet} {f : Bool → Prog β} (h1 : K (fun x => c x ∧ ts.contains x = true) (f true))
    (h2 : K (fun x => c x ∧ ts.contains x = false) (f false)) : K c (P.atTs ts >>= f) := by
  intro t0 s a s' hi hc hr
  have hr' : (f (ts.contains (lookahead s.toks 0))).runF s = .ok (a, s') := hr
  cases hk : ts.contains (lookahead s.toks 0) with
  | true => rw [hk] at hr'; exact h1 t0 s a s' hi ⟨hc, hk⟩ hr'
  | false => rw [hk] at hr'; exact h2 t0 s a s' hi ⟨hc, hk⟩ hr'

theorem K.ite {q : Prop} [Decidable q] {p1 p2 : Prog α} (h1 : q → K c p1) (h2 : ¬ q → K c p2) :
    K c (if q then p1 else p2) := by
  split
  · exact h1 ‹_›
  · exact h2 ‹_›

theorem K.start {f : Nat → Prog β} (h : ∀ m, K c (f m)) : K c (P.start >>= f) := by
  intro t0 s a s' hi hc hr
  refine h s.ev t0 _ a s' ?_ ?_ (show (f s.ev).runF _ = .ok (a, s') from hr)
  · simpa [Inv, allMarks, stackMarks, Item.marksL] using hi
  · exact hc

theorem K.complete {m : Nat} {k : SyntaxKind} (hk : k ≠ .error) : K c (P.complete m k) := by
  intro t0 s a s' hi _ hr
  simp only [P.complete, Prog.runF] at hr
  split at hr
  · rename_i pos bf outer st heq
    split at hr
    · simp only [Prog.runF, Except.ok.injEq, Prod.mk.injEq] at hr
      rw [← hr.2]
      simpa [Inv, allMarks, heq, stackMarks, Item.marks, hk] using hi
    · simp at hr
  · simp at hr

theorem splitNode_eq {cm : Nat} : ∀ {l acc bf outer : List Item}, splitNode cm l acc = some (bf, outer) →
    l.reverse ++ acc = outer.reverse ++ bf := by
  intro l
  induction l with
  | nil => intro acc bf outer h; simp [splitNode] at h
  | cons i is ih =>
    intro acc bf outer h
    cases i with
    | node pos k b a =>
      simp only [splitNode] at h
      split at h
      · simp only [Option.some.injEq, Prod.mk.injEq] at h
        rw [← h.1, ← h.2]; simp
      · have := ih h; simpa using this
    | _ => simp only [splitNode] at h; have := ih h; simpa using this

theorem K.precede {cm : Nat} : K c (P.precede cm) := by
  intro t0 s a s' hi _ hr
  simp only [P.precede, Prog.runF] at hr
  split at hr
  · rename_i bf outer heq
    simp only [Prog.runF, Except.ok.injEq, Prod.mk.injEq] at hr
    rw [← hr.2]
    have := splitNode_eq heq
    simp only [List.append_nil] at this
    simp only [Inv, allMarks, this, Item.marksL_append] at hi
    simpa [Inv, allMarks, stackMarks] using hi
  · simp at hr

theorem inv_tok {t0 : List SyntaxKind} {s : FState} {k : SyntaxKind} {ts : List SyntaxKind} {ev : Nat}
    (hi : Inv t0 s) (h : s.toks = k :: ts) : Inv t0 ⟨ts, ev, .tok k :: s.cur, s.stack⟩ := by
  simp only [Inv, allMarks, List.reverse_cons, Item.marksL_append, ← List.append_assoc] at hi ⊢
  refine truth_append.2 ⟨s.toks, hi, ?_⟩
  simp [Item.marks, Truth, h]

theorem inv_err {t0 : List SyntaxKind} {s : FState} {e : ParseError} {ev : Nat}
    (hi : Inv t0 s) (h : Says e.display (lookahead s.toks 0)) : Inv t0 ⟨s.toks, ev, .err e :: s.cur, s.stack⟩ := by
  simp only [Inv, allMarks, List.reverse_cons, Item.marksL_append, ← List.append_assoc] at hi ⊢
  refine truth_append.2 ⟨s.toks, hi, ?_⟩
  simp [Item.marks, Truth, h]

theorem lookahead_ne {toks : List SyntaxKind} (h : lookahead toks 0 ≠ .eof) :
    toks = lookahead toks 0 :: toks.tail := by
  cases toks with
  | nil => simp at h
  | cons k ts => simp

theorem K.bumpExpect : K c P.bumpExpect := by
  intro t0 s a s' hi _ hr
  simp only [P.bumpExpect, Prog.runF] at hr
  split at hr
  · simp at hr
  · rename_i h
    simp only [if_true, Prog.runF, Except.ok.injEq, Prod.mk.injEq] at hr
    rw [← hr.2]
    exact inv_tok hi (lookahead_ne h)

theorem K.error {msg : String} (h : ∀ x, c x → Says msg x) : K c (P.error msg) := by
  intro t0 s a s' hi hc hr
  simp only [P.error, P.pushError, Prog.runF, Except.ok.injEq, Prod.mk.injEq] at hr
  rw [← hr.2]
  exact inv_err hi (h _ hc)

theorem K.acceptAny : K c P.acceptAny := by
  unfold P.acceptAny
  refine K.current fun k => K.ite (fun _ => K.bind K.bumpExpect fun _ => K.pure _) (fun _ => K.pure _)

theorem K.accept {k : SyntaxKind} : K c (P.accept k) := by
  unfold P.accept
  exact K.atK (K.ite (fun _ => K.bind K.bumpExpect fun _ => K.pure _) (fun h => K.pure _))
    (K.ite (fun _ => K.bind K.bumpExpect fun _ => K.pure _) (fun h => K.pure _))

theorem K.bump {k : SyntaxKind} : K c (P.bump k) := by
  unfold P.bump
  exact K.bind K.accept fun _ => K.ite (fun _ => K.pure _) (fun _ => K.panic)

theorem K.bumpAny : K c P.bumpAny := by
  unfold P.bumpAny
  exact K.bind K.acceptAny fun _ => K.ite (fun _ => K.pure _) (fun _ => K.panic)

theorem K.bumpTs {ts} : K c (P.bumpTs ts) := by
  unfold P.bumpTs
  exact K.atTs (K.ite (fun _ => K.panic) (fun _ => K.bumpAny)) (K.ite (fun _ => K.panic) (fun _ => K.bumpAny))

theorem debug_eq (k : SyntaxKind) : k.debug = Spec.tokenName k := by
  cases k <;> decide

theorem expected_display (k x : SyntaxKind) :
    (ParseError.expected k x).display = "Expected " ++ Spec.tokenName k ++ ", got " ++ Spec.tokenName x := by
  rw [ParseError.display, debug_eq, debug_eq]

theorem K.expect {k : SyntaxKind} : K c (P.expect k) := by
  unfold P.expect
  refine K.current fun x => K.ite (fun _ => K.bind K.bumpAny fun _ => K.pure _) (fun h => K.bind ?_ fun _ => K.pure _)
  intro t0 s a s' hi hc hr
  simp only [P.pushError, Prog.runF, Except.ok.injEq, Prod.mk.injEq] at hr
  rw [← hr.2]
  refine inv_err hi (.inl ⟨k, ?_, ?_⟩)
  · rw [hc.2, expected_display]
  · rw [hc.2]; intro e; simp [e] at h

/-- the body of an error node consists of tokens -/
theorem K.errorNode {msg : String} {body : Prog α}
    (hb : ∀ s a s', body.runF s = .ok (a, s') → ∃ ks ev, s.toks = ks ++ s'.toks ∧
      s' = ⟨s'.toks, ev, (ks.map Item.tok).reverse ++ s.cur, s.stack⟩) (h : ∀ x, c x → Says msg x) :
    K c (P.startError >>= fun m => body >>= fun _ => P.completeError m (.message msg)) := by
  intro t0 s a s' hi hc hr
  have hr' : (body >>= fun _ => P.completeError s.ev (.message msg)).runF
    ⟨s.toks, s.ev + 1, [], ⟨s.ev, true, [], s.cur⟩ :: s.stack⟩ = .ok (a, s') := hr
  rw [show (body >>= fun _ => P.completeError s.ev (.message msg)) =
    body.bind fun _ => P.completeError s.ev (.message msg) from rfl, runF_bind] at hr'
  split at hr'
  · rename_i x s1 h1
    obtain ⟨ks, ev, e1, e2⟩ := hb _ _ _ h1
    simp only at e1 e2
    rw [e2] at hr'
    simp only [P.completeError, Prog.runF, if_true, Except.ok.injEq, Prod.mk.injEq] at hr'
    rw [← hr'.2]
    simp only [Inv, allMarks, List.reverse_cons, Item.marksL_append, ← List.append_assoc] at hi ⊢
    refine truth_append.2 ⟨s.toks, hi, ?_⟩
    simp only [Item.marksL_single, Item.marks, Truth]
    refine ⟨h _ hc, ?_⟩
    rw [e1]
    have key : ∀ (ks : List SyntaxKind) rest, Truth (ks ++ rest) (Item.marksL (ks.map Item.tok)) rest := by
      intro ks
      induction ks with
      | nil => intro rest; simp [Truth]
      | cons k ks ih => intro rest; simp [Item.marksL, Item.marks, Truth]; exact ih rest
    simpa using key ks s1.toks
  · simp at hr'

theorem toks_acceptAny : ∀ s a s', P.acceptAny.runF s = .ok (a, s') → ∃ ks ev, s.toks = ks ++ s'.toks ∧
      s' = ⟨s'.toks, ev, (ks.map Item.tok).reverse ++ s.cur, s.stack⟩ := by
  intro s a s' h
  have h2 : wpF P.acceptAny s (fun b s'' => b = a ∧ s'' = s') := (wpF_iff _ _ _).2 ⟨a, s', h, rfl, rfl⟩
  simp only [P.acceptAny, wpF_bind, wpF_current, wpF_ite, wpF_bumpExpect, wpF_pure] at h2
  by_cases hk : lookahead s.toks 0 = .eof
  · have := h2.2 (by simp [hk])
    rw [← this.2]; exact ⟨[], s.ev, by simp, by simp⟩
  · have := h2.1 (by simpa using hk)
    rw [← this.2.2]
    exact ⟨[lookahead s.toks 0], s.ev + 1, lookahead_ne hk, by simp⟩

theorem K.errRecover {msg : String} {rec : TokenSet} (h : ∀ x, c x → Says msg x) : K c (P.errRecover msg rec) := by
  unfold P.errRecover
  refine K.current fun k => K.ite (fun _ => K.error fun x hx => h x hx.1) (fun _ => ?_)
  refine K.atTs (K.ite (fun _ => K.error fun x hx => h x hx.1.1) (fun h => ?_)) (K.ite (fun h => ?_) (fun _ => ?_))
  · simp at h
  · simp at h
  · exact K.errorNode toks_acceptAny fun x hx => h x hx.1.1

theorem K.errAndBump {msg : String} (h : ∀ x, c x → Says msg x) : K c (P.errAndBump msg) := K.errRecover h

theorem toks_bumpAny : ∀ s a s', P.bumpAny.runF s = .ok (a, s') → ∃ ks ev, s.toks = ks ++ s'.toks ∧
      s' = ⟨s'.toks, ev, (ks.map Item.tok).reverse ++ s.cur, s.stack⟩ := by
  intro s a s' h
  rw [show P.bumpAny = P.acceptAny.bind fun b => if b then pure () else .panic from rfl, runF_bind] at h
  split at h
  · rename_i x s1 h1
    obtain ⟨ks, ev, e⟩ := toks_acceptAny _ _ _ h1
    cases x with
    | false => simp [Prog.runF] at h
    | true =>
      have : (Prog.pure ()).runF s1 = .ok (a, s') := h
      simp [Prog.runF] at this
      rw [← this]; exact ⟨ks, ev, e⟩
  · simp at h

theorem toks_bump {k} : ∀ s a s', (P.bump k).runF s = .ok (a, s') → ∃ ks ev, s.toks = ks ++ s'.toks ∧
      s' = ⟨s'.toks, ev, (ks.map Item.tok).reverse ++ s.cur, s.stack⟩ := by
  intro s a s' h
  have h2 : wpF (P.bump k) s (fun b s'' => b = a ∧ s'' = s') := (wpF_iff _ _ _).2 ⟨a, s', h, rfl, rfl⟩
  simp only [P.bump, wpF_bind, wpF_accept, wpF_ite, wpF_pure, wpF_panic] at h2
  by_cases hk : lookahead s.toks 0 = k
  · have := h2.1 hk
    rw [← (this.2.1 trivial).2]
    exact ⟨[lookahead s.toks 0], s.ev + 1, lookahead_ne (by rw [hk]; exact this.1), by simp⟩
  · have := h2.2 hk
    simp at this

theorem toks_errUntilLoop {rec : TokenSet} : ∀ n s a s', (P.errUntilLoop rec n).runF s = .ok (a, s') →
    ∃ ks ev, s.toks = ks ++ s'.toks ∧ s' = ⟨s'.toks, ev, (ks.map Item.tok).reverse ++ s.cur, s.stack⟩ := by
  intro n
  induction n with
  | zero => intro s a s' h; simp [P.errUntilLoop, Prog.runF] at h
  | succ n ih =>
    intro s a s' h
    have h2 : wpF (P.errUntilLoop rec (n + 1)) s (fun b s'' => b = a ∧ s'' = s') := (wpF_iff _ _ _).2 ⟨a, s', h, rfl, rfl⟩
    simp only [P.errUntilLoop, wpF_bind, wpF_atTs, wpF_atK, wpF_ite, wpF_pure] at h2
    by_cases hb : (!(rec.contains (lookahead s.toks 0)) && !(lookahead s.toks 0 == .eof)) = true
    · have h3 := h2.1 hb
      rw [wpF_iff] at h3
      obtain ⟨x, s1, h4, h5⟩ := h3
      rw [wpF_iff] at h5
      obtain ⟨y, s2, h6, h7⟩ := h5
      obtain ⟨ks, ev, e1, e2⟩ := toks_bumpAny _ _ _ h4
      obtain ⟨ks', ev', e3, e4⟩ := ih _ _ _ h6
      rw [← h7.2]
      refine ⟨ks ++ ks', ev', by rw [e1, e3]; simp, ?_⟩
      rw [e4, e2]; simp
    · have := h2.2 hb
      rw [← this.2]; exact ⟨[], s.ev, by simp, by simp⟩

theorem K.errUntil {fuel : Nat} {msg : String} {rec : TokenSet} (h : ∀ x, c x → Says msg x) :
    K c (P.errUntil fuel msg rec) := by
  unfold P.errUntil
  exact K.errorNode (toks_errUntilLoop fuel) h

end Verif
