import Verif.Proof.Honest
import Verif.Spec.Recovery

/-
Error recovery: a calculus for what the parser skips, and in which construct.
-/
set_option linter.unusedSimpArgs false
set_option linter.unusedVariables false
namespace Verif
open Item PTree P Grammar Spec

/-! ### items and states -/

mutual
/-- the item is made of the tokens between `toks` and `rest`, and its complaints, which stand directly in a node of the
kind `k` or further inside, are as they should be -/
def fits (k : SyntaxKind) : Item → List SyntaxKind → List SyntaxKind → Prop
  | .tok x, toks, rest => toks = x :: rest
  | .err e, toks, rest => Stays k e.display (lookahead toks 0) ∧ toks = rest
  | .errNode cs e, toks, rest =>
    ∃ ks, cs = ks.map Item.tok ∧ toks = ks ++ rest ∧ Skips k e.display ks (lookahead rest 0)
  | .node _ k' bf af, toks, rest => k' ≠ .error ∧ ∃ mid, fitsL k' bf toks mid ∧ fitsL k' af mid rest
def fitsL (k : SyntaxKind) : List Item → List SyntaxKind → List SyntaxKind → Prop
  | [], toks, rest => toks = rest
  | i :: is, toks, rest => ∃ mid, fits k i toks mid ∧ fitsL k is mid rest
end

theorem fitsL_append {k : SyntaxKind} {a b : List Item} {toks rest : List SyntaxKind} :
    fitsL k (a ++ b) toks rest ↔ ∃ mid, fitsL k a toks mid ∧ fitsL k b mid rest := by
  induction a generalizing toks with
  | nil => simp [fitsL]
  | cons x xs ih =>
    simp only [List.cons_append, fitsL, ih]
    constructor
    · rintro ⟨m, h1, m2, h2, h3⟩; exact ⟨m2, ⟨m, h1, h2⟩, h3⟩
    · rintro ⟨m2, ⟨m, h1, h2⟩, h3⟩; exact ⟨m, h1, m2, h2, h3⟩

theorem fitsL_single {k : SyntaxKind} {i : Item} {toks rest : List SyntaxKind} :
    fitsL k [i] toks rest ↔ fits k i toks rest := by simp [fitsL]

/-- the same for the open nodes, whose kinds are `σ` -/
def fitsS : List Frame → List SyntaxKind → List SyntaxKind → List SyntaxKind → Prop
  | [], [_], toks, rest => toks = rest
  | f :: fs, k :: k' :: σ, toks, rest => ∃ m1 m2, fitsS fs (k' :: σ) toks m1 ∧ fitsL k' f.outer.reverse m1 m2 ∧
      fitsL k f.before m2 rest
  | _, _, _, _ => False

/-- the state has read from `t0` and its open nodes will be of the kinds `σ` -/
def Fit (t0 : List SyntaxKind) (σ : List SyntaxKind) (s : FState) : Prop :=
  match σ with
  | [] => False
  | k :: σ => ∃ m, fitsS s.stack (k :: σ) t0 m ∧ fitsL k s.cur.reverse m s.toks

/-- conditions on the tokens left and on the items of the innermost open node -/
abbrev Cond := List SyntaxKind → List Item → Prop

/-- no condition -/
abbrev any : Cond := fun _ _ => True

/-- Hoare triples -/
def R {α : Type} (σ : List SyntaxKind) (c : Cond) (p : Prog α) (σ' : List SyntaxKind) (q : α → Cond) : Prop :=
  ∀ t0 s a s', Fit t0 σ s → c s.toks s.cur → p.runF s = .ok (a, s') → Fit t0 σ' s' ∧ q a s'.toks s'.cur

variable {α β : Type} {c : Cond} {σ σ' σ1 : List SyntaxKind} {k : SyntaxKind} {q : α → Cond}

theorem R.bind {q2 : β → Cond} {p : Prog α} {f : α → Prog β} (h1 : R σ c p σ1 q) (h2 : ∀ a, R σ1 (q a) (f a) σ' q2) :
    R σ c (p >>= f) σ' q2 := by
  intro t0 s a s' hi hc h
  rw [show (p >>= f) = p.bind f from rfl, runF_bind] at h
  cases hp : p.runF s with
  | error e => rw [hp] at h; simp at h
  | ok r =>
    obtain ⟨x, s1⟩ := r
    rw [hp] at h
    obtain ⟨h3, h4⟩ := h1 t0 s x s1 hi hc hp
    exact h2 x t0 s1 a s' h3 h4 h

/-- the middle keeps the open nodes -/
theorem R.bind0 {q2 : β → Cond} {p : Prog α} {f : α → Prog β} (h1 : R σ c p σ fun _ => any)
    (h2 : ∀ a, R σ any (f a) σ' q2) : R σ c (p >>= f) σ' q2 := h1.bind h2

theorem R.weak {p : Prog α} (h : R σ c p σ' q) : R σ c p σ' fun _ => any :=
  fun t0 s a s' hi hc hr => ⟨(h t0 s a s' hi hc hr).1, trivial⟩

theorem R.post {q' : α → Cond} {p : Prog α} (h : R σ c p σ' q) (hq : ∀ a t i, q a t i → q' a t i) : R σ c p σ' q' :=
  fun t0 s a s' hi hc hr => ⟨(h t0 s a s' hi hc hr).1, hq _ _ _ (h t0 s a s' hi hc hr).2⟩

theorem R.pre {c' : Cond} {p : Prog α} (h : R σ c' p σ' q) (hc : ∀ t i, c t i → c' t i) : R σ c p σ' q :=
  fun t0 s a s' hi hc' hr => h t0 s a s' hi (hc _ _ hc') hr

theorem R.pure {a : α} (h : ∀ t i, c t i → q a t i) : R σ c (pure a : Prog α) σ q := by
  intro t0 s x s' hi hc h'
  have : (Prog.pure a).runF s = .ok (x, s') := h'
  simp [Prog.runF] at this
  rw [← this.2, ← this.1]; exact ⟨hi, h _ _ hc⟩

theorem R.pure0 {a : α} : R σ c (Pure.pure a : Prog α) σ fun _ => any := R.pure fun _ _ _ => trivial

theorem R.panic : R σ c (Prog.panic : Prog α) σ' q := by intro t0 s x s' hi _ h; simp [Prog.runF] at h
theorem R.fuel : R σ c (Prog.outOfFuel : Prog α) σ' q := by intro t0 s x s' hi _ h; simp [Prog.runF] at h

variable {q2 : β → Cond}

theorem R.current {f : SyntaxKind → Prog β} (h : ∀ x, R σ (fun t i => c t i ∧ lookahead t 0 = x) (f x) σ' q2) :
    R σ c (P.current >>= f) σ' q2 := by
  intro t0 s a s' hi hc hr
  have : (f (lookahead s.toks 0)).runF s = .ok (a, s') := hr
  exact h _ t0 s a s' hi ⟨hc, rfl⟩ this

theorem R.nth {n : Nat} {f : SyntaxKind → Prog β} (h : ∀ x, R σ (fun t i => c t i ∧ lookahead t n = x) (f x) σ' q2) :
    R σ c (P.nth n >>= f) σ' q2 := by
  intro t0 s a s' hi hc hr
  exact h _ t0 s a s' hi ⟨hc, rfl⟩ (show (f (lookahead s.toks n)).runF s = .ok (a, s') from hr)

theorem R.atK {k : SyntaxKind} {f : Bool → Prog β} (h1 : R σ (fun t i => c t i ∧ lookahead t 0 = k) (f true) σ' q2)
    (h2 : R σ (fun t i => c t i ∧ lookahead t 0 ≠ k) (f false) σ' q2) : R σ c (P.atK k >>= f) σ' q2 := by
  intro t0 s a s' hi hc hr
  have hr' : (f (lookahead s.toks 0 == k)).runF s = .ok (a, s') := hr
  by_cases hk : lookahead s.toks 0 = k
  · rw [show (lookahead s.toks 0 == k) = true from by simpa using hk] at hr'
    exact h1 t0 s a s' hi ⟨hc, hk⟩ hr'
  · rw [show (lookahead s.toks 0 == k) = false from by simpa using hk] at hr'
    exact h2 t0 s a s' hi ⟨hc, hk⟩ hr'

theorem R.atTs {ts : TokenSet} {f : Bool → Prog β}
    (h1 : R σ (fun t i => c t i ∧ ts.contains (lookahead t 0) = true) (f true) σ' q2)
    (h2 : R σ (fun t i => c t i ∧ ts.contains (lookahead t 0) = false) (f false) σ' q2) :
    R σ c (P.atTs ts >>= f) σ' q2 := by
  intro t0 s a s' hi hc hr
  have hr' : (f (ts.contains (lookahead s.toks 0))).runF s = .ok (a, s') := hr
  cases hk : ts.contains (lookahead s.toks 0) with
  | true => rw [hk] at hr'; exact h1 t0 s a s' hi ⟨hc, hk⟩ hr'
  | false => rw [hk] at hr'; exact h2 t0 s a s' hi ⟨hc, hk⟩ hr'

theorem R.ite {b : Prop} [Decidable b] {p1 p2 : Prog α} (h1 : b → R σ c p1 σ' q) (h2 : ¬ b → R σ c p2 σ' q) :
    R σ c (if b then p1 else p2) σ' q := by
  split
  · exact h1 ‹_›
  · exact h2 ‹_›

/-- a node of the kind `k` is begun -/
theorem R.start (k : SyntaxKind) {k0 : SyntaxKind} {f : Nat → Prog β}
    (h : ∀ m, R (k :: k0 :: σ) (fun t _ => ∃ i, c t i) (f m) σ' q2) : R (k0 :: σ) c (P.start >>= f) σ' q2 := by
  intro t0 s a s' hi hc hr
  obtain ⟨m, h1, h2⟩ := hi
  exact h s.ev t0 ⟨s.toks, s.ev + 1, [], ⟨s.ev, false, [], s.cur⟩ :: s.stack⟩ a s'
    ⟨s.toks, ⟨m, s.toks, h1, h2, rfl⟩, rfl⟩ ⟨_, hc⟩ (show (f s.ev).runF _ = .ok (a, s') from hr)

/-- the item on top is the node with this marker -/
def Top (m : Nat) : Cond := fun _ i => ∃ k bf af cur, i = .node m k bf af :: cur

theorem R.complete {k0 : SyntaxKind} {m : Nat} (hk : k ≠ .error) : R (k :: k0 :: σ) c (P.complete m k) (k0 :: σ) Top := by
  intro t0 s a s' hi _ hr
  simp only [P.complete, Prog.runF] at hr
  split at hr
  · rename_i pos bf outer st heq
    split at hr
    · rename_i hm
      simp only [Prog.runF, Except.ok.injEq, Prod.mk.injEq] at hr
      obtain ⟨m1, h1, h2⟩ := hi
      rw [heq] at h1
      obtain ⟨m2, m3, h3, h4, h5⟩ := h1
      rw [← hr.2, ← hr.1]
      refine ⟨⟨m2, h3, ?_⟩, k, bf, s.cur.reverse, outer, ?_⟩
      · simp only [List.reverse_cons]
        exact fitsL_append.2 ⟨m3, h4, fitsL_single.2 ⟨hk, m1, h5, h2⟩⟩
      · simp only [hm.1]
    · simp at hr
  · simp at hr

theorem R.precede {k0 : SyntaxKind} {cm : Nat} (h : ∀ t i, c t i → Top cm t i) :
    R (k0 :: σ) c (P.precede cm) (k :: k0 :: σ) fun _ => any := by
  intro t0 s a s' hi hc hr
  obtain ⟨kk, bf, af, cur, hcur⟩ := h _ _ hc
  simp only [P.precede, Prog.runF, hcur, splitNode, if_true] at hr
  simp only [Prog.runF, Except.ok.injEq, Prod.mk.injEq] at hr
  rw [← hr.2]
  obtain ⟨m1, h1, h2⟩ := hi
  rw [hcur, List.reverse_cons] at h2
  obtain ⟨m2, h3, h4⟩ := fitsL_append.1 h2
  rw [fitsL_single] at h4
  exact ⟨⟨s.toks, ⟨m1, m2, h1, h3, fitsL_single.2 h4⟩, rfl⟩, trivial⟩

/-- the node with this marker is on top, below one token -/
def Top1 (m : Nat) : Cond := fun _ i => ∃ t k bf af cur, i = .tok t :: .node m k bf af :: cur

theorem R.precede1 {k0 : SyntaxKind} {cm : Nat} (h : ∀ t i, c t i → Top1 cm t i) :
    R (k0 :: σ) c (P.precede cm) (k :: k0 :: σ) fun _ => any := by
  intro t0 s a s' hi hc hr
  obtain ⟨t, kk, bf, af, cur, hcur⟩ := h _ _ hc
  simp only [P.precede, Prog.runF, hcur, splitNode, if_true] at hr
  simp only [Prog.runF, Except.ok.injEq, Prod.mk.injEq] at hr
  rw [← hr.2]
  obtain ⟨m1, h1, h2⟩ := hi
  rw [hcur, List.reverse_cons, List.reverse_cons, List.append_assoc] at h2
  obtain ⟨m2, h3, h4⟩ := fitsL_append.1 h2
  exact ⟨⟨s.toks, ⟨m1, m2, h1, h3, by simpa [fitsL, fits] using h4⟩, rfl⟩, trivial⟩

theorem fit_push {t0 : List SyntaxKind} {s : FState} {i : Item} {toks : List SyntaxKind} {ev : Nat}
    (hi : Fit t0 (k :: σ) s) (h : fits k i s.toks toks) : Fit t0 (k :: σ) ⟨toks, ev, i :: s.cur, s.stack⟩ := by
  obtain ⟨m, h1, h2⟩ := hi
  refine ⟨m, h1, ?_⟩
  simp only [List.reverse_cons]
  exact fitsL_append.2 ⟨_, h2, fitsL_single.2 h⟩

/-- one token is taken -/
theorem R.bumpExpect : R (k :: σ) c P.bumpExpect (k :: σ) fun _ t i =>
    ∃ t1 i1, c t1 i1 ∧ lookahead t1 0 ≠ .eof ∧ t = t1.tail ∧ i = .tok (lookahead t1 0) :: i1 := by
  intro t0 s a s' hi hc hr
  simp only [P.bumpExpect, Prog.runF] at hr
  split at hr
  · simp at hr
  · rename_i h
    simp only [if_true, Prog.runF, Except.ok.injEq, Prod.mk.injEq] at hr
    rw [← hr.2]
    exact ⟨fit_push hi (lookahead_ne h), _, _, hc, h, rfl, rfl⟩

theorem R.error {msg : String} (h : ∀ t i, c t i → Stays k msg (lookahead t 0)) :
    R (k :: σ) c (P.error msg) (k :: σ) fun _ => any := by
  intro t0 s a s' hi hc hr
  simp only [P.error, P.pushError, Prog.runF, Except.ok.injEq, Prod.mk.injEq] at hr
  rw [← hr.2]
  exact ⟨fit_push hi ⟨h _ _ hc, rfl⟩, trivial⟩

theorem R.acceptAny : R (k :: σ) c P.acceptAny (k :: σ) fun b t i =>
    b = true → ∃ t1 i1, c t1 i1 ∧ lookahead t1 0 ≠ .eof ∧ t = t1.tail ∧ i = .tok (lookahead t1 0) :: i1 := by
  unfold P.acceptAny
  refine R.current fun x => R.ite (fun h => ?_) (fun _ => R.pure fun _ _ _ h => by simp at h)
  refine R.bind R.bumpExpect fun _ => R.pure ?_
  rintro t i ⟨t1, i1, ⟨h1, -⟩, h2, h3, h4⟩ -
  exact ⟨t1, i1, h1, h2, h3, h4⟩

theorem R.accept {x : SyntaxKind} : R (k :: σ) c (P.accept x) (k :: σ) fun _ => any := by
  unfold P.accept
  refine R.atK ?_ ?_
  all_goals exact R.ite (fun _ => R.bind0 R.bumpExpect.weak fun _ => R.pure0) (fun h => R.pure0)

/-- one token is taken, and it is known which -/
theorem R.bump {x : SyntaxKind} : R (k :: σ) c (P.bump x) (k :: σ) fun _ t i =>
    ∃ t1 i1, c t1 i1 ∧ lookahead t1 0 = x ∧ t = t1.tail ∧ i = .tok x :: i1 := by
  unfold P.bump P.accept
  intro t0 s a s' hi hc hr
  have h2 : wpF (P.bump x) s (fun b s'' => b = a ∧ s'' = s') := (wpF_iff _ _ _).2 ⟨a, s', hr, rfl, rfl⟩
  simp only [P.bump, wpF_bind, wpF_accept, wpF_ite, wpF_pure, wpF_panic] at h2
  by_cases hk : lookahead s.toks 0 = x
  · have := h2.1 hk
    rw [← (this.2.1 trivial).2]
    refine ⟨fit_push hi ?_, _, _, hc, hk, rfl, by rw [hk]⟩
    exact lookahead_ne (by rw [hk]; exact this.1)
  · have := h2.2 hk
    simp at this

theorem R.bumpAny : R (k :: σ) c P.bumpAny (k :: σ) fun _ t i =>
    ∃ t1 i1, c t1 i1 ∧ lookahead t1 0 ≠ .eof ∧ t = t1.tail ∧ i = .tok (lookahead t1 0) :: i1 := by
  unfold P.bumpAny
  exact R.bind R.acceptAny fun b => R.ite (fun h => R.pure fun t i hh => hh h) (fun _ => R.panic)

theorem R.bumpTs {ts} : R (k :: σ) c (P.bumpTs ts) (k :: σ) fun _ => any := by
  unfold P.bumpTs
  exact R.atTs (R.ite (fun _ => R.panic) (fun _ => R.bumpAny.weak)) (R.ite (fun _ => R.panic) (fun _ => R.bumpAny.weak))

theorem R.expect {x : SyntaxKind} (h : ∀ t i, c t i → lookahead t 0 ≠ x → x ∈ fixedTokens k) :
    R (k :: σ) c (P.expect x) (k :: σ) fun _ => any := by
  unfold P.expect
  refine R.current fun y => R.ite (fun _ => R.bind0 R.bumpAny.weak fun _ => R.pure0) (fun hne => R.bind0 ?_ fun _ => R.pure0)
  intro t0 s a s' hi hc hr
  simp only [P.pushError, Prog.runF, Except.ok.injEq, Prod.mk.injEq] at hr
  rw [← hr.2]
  have hx : lookahead s.toks 0 ≠ x := by rw [hc.2]; simpa using hne
  refine ⟨fit_push hi ⟨.inl ⟨x, h _ _ hc.1 hx, ?_, hx.symm⟩, rfl⟩, trivial⟩
  rw [hc.2, expected_display]

/-- an error node around tokens -/
theorem R.errorNode {msg : String} {body : Prog α}
    (hb : ∀ s a s', c s.toks [] → body.runF s = .ok (a, s') → ∃ ks ev, s.toks = ks ++ s'.toks ∧
      s' = ⟨s'.toks, ev, (ks.map Item.tok).reverse ++ s.cur, s.stack⟩ ∧ Skips k msg ks (lookahead s'.toks 0))
    (hc' : ∀ t i, c t i → c t []) :
    R (k :: σ) c (P.startError >>= fun m => body >>= fun _ => P.completeError m (.message msg)) (k :: σ) fun _ => any := by
  intro t0 s a s' hi hc hr
  have hr' : (body >>= fun _ => P.completeError s.ev (.message msg)).runF
    ⟨s.toks, s.ev + 1, [], ⟨s.ev, true, [], s.cur⟩ :: s.stack⟩ = .ok (a, s') := hr
  rw [show (body >>= fun _ => P.completeError s.ev (.message msg)) =
    body.bind fun _ => P.completeError s.ev (.message msg) from rfl, runF_bind] at hr'
  split at hr'
  · rename_i x s1 h1
    obtain ⟨ks, ev, e1, e2, e3⟩ := hb _ _ _ (by exact hc' _ _ hc) h1
    simp only at e1 e2
    rw [e2] at hr'
    simp only [P.completeError, Prog.runF, if_true, Except.ok.injEq, Prod.mk.injEq] at hr'
    rw [← hr'.2]
    refine ⟨fit_push hi ⟨ks, by simp, e1, e3⟩, trivial⟩
  · simp at hr'

theorem R.errRecover {msg : String} {rec : TokenSet}
    (h1 : ∀ t i, c t i → lookahead t 0 = .endKw ∨ rec.contains (lookahead t 0) = true → Stays k msg (lookahead t 0))
    (h2 : ∀ t i n, c t i → lookahead t 0 ≠ .endKw → rec.contains (lookahead t 0) = false → lookahead t 0 ≠ .eof →
      Skips k msg [lookahead t 0] n)
    (h3 : ∀ t i, c t i → lookahead t 0 = .eof → Skips k msg [] .eof) :
    R (k :: σ) c (P.errRecover msg rec) (k :: σ) fun _ => any := by
  unfold P.errRecover
  refine R.current fun x => R.ite (fun hx => ?_) (fun hx => ?_)
  · refine R.error fun t i hc => ?_
    exact h1 t i hc.1 (.inl (by rw [hc.2]; simpa using hx))
  refine R.atTs (R.ite (fun _ => R.error fun t i hc => h1 t i hc.1.1 (.inr hc.2)) (fun h => absurd rfl h))
    (R.ite (fun h => by simp at h) (fun _ => ?_))
  refine R.pre (c' := fun t _ => ∃ i, c t i ∧ lookahead t 0 ≠ .endKw ∧ rec.contains (lookahead t 0) = false) ?_ ?_
  · refine R.errorNode ?_ (fun t i h => h)
    rintro s a s' ⟨i, hc1, hc2, hc3⟩ hr
    have hw : wpF P.acceptAny s (fun b s'' => b = a ∧ s'' = s') := (wpF_iff _ _ _).2 ⟨a, s', hr, rfl, rfl⟩
    simp only [P.acceptAny, wpF_bind, wpF_current, wpF_ite, wpF_bumpExpect, wpF_pure] at hw
    by_cases hk : lookahead s.toks 0 = .eof
    · have := hw.2 (by simp [hk])
      rw [← this.2]
      exact ⟨[], s.ev, by simp, by simp, by rw [hk]; exact h3 _ _ hc1 hk⟩
    · have := hw.1 (by simpa using hk)
      rw [← this.2.2]
      exact ⟨[lookahead s.toks 0], s.ev + 1, lookahead_ne hk, by simp, h2 _ _ _ hc1 hc2 hc3 hk⟩
  · rintro t i ⟨⟨h1, h2⟩, h3⟩
    exact ⟨i, h1, by rw [h2]; simpa using hx, h3⟩

theorem errUntilLoop_stop {rec : TokenSet} : ∀ n s a s', (P.errUntilLoop rec n).runF s = .ok (a, s') →
    ∃ ks ev, s.toks = ks ++ s'.toks ∧ s' = ⟨s'.toks, ev, (ks.map Item.tok).reverse ++ s.cur, s.stack⟩ ∧
      (∀ x ∈ ks, rec.contains x = false) ∧ (rec.contains (lookahead s'.toks 0) = true ∨ lookahead s'.toks 0 = .eof) := by
  intro n
  induction n with
  | zero => intro s a s' h; simp [P.errUntilLoop, Prog.runF] at h
  | succ n ih =>
    intro s a s' h
    have h2 : wpF (P.errUntilLoop rec (n + 1)) s (fun b s'' => b = a ∧ s'' = s') := (wpF_iff _ _ _).2 ⟨a, s', h, rfl, rfl⟩
    simp only [P.errUntilLoop, wpF_bind, wpF_atTs, wpF_atK, wpF_ite, wpF_pure] at h2
    by_cases hb : (!(rec.contains (lookahead s.toks 0)) && !(lookahead s.toks 0 == .eof)) = true
    · have h3 := h2.1 hb
      have h4 : lookahead s.toks 0 ≠ .eof := by simp at hb; exact hb.2
      obtain ⟨toks, ev0, cur, st⟩ := s
      obtain ⟨x, ts, rfl⟩ : ∃ x ts, toks = x :: ts := ⟨_, _, lookahead_ne h4⟩
      rw [wpF_bumpAny] at h3
      obtain ⟨-, h5⟩ := h3
      rw [wpF_iff] at h5
      obtain ⟨y, s2, h6, h7⟩ := h5
      obtain ⟨ks, ev, e1, e2, e3, e4⟩ := ih _ _ _ h6
      rw [← h7.2]
      simp only at e1
      refine ⟨x :: ks, ev, ?_, ?_, ?_, e4⟩
      · rw [List.cons_append, ← e1]
      · rw [e2]; simp
      · simp at hb
        simp only [List.mem_cons, forall_eq_or_imp]
        exact ⟨hb.1, e3⟩
    · have := h2.2 hb
      rw [← this.2]
      refine ⟨[], s.ev, by simp, by simp, by simp, ?_⟩
      cases hc : rec.contains (lookahead s.toks 0) with
      | true => simp
      | false => simp [hc] at hb; simp [hb]

theorem R.errUntil {fuel : Nat} {msg : String} {rec : TokenSet}
    (h : ∀ t i ks rest, c t i → t = ks ++ rest → (∀ x ∈ ks, rec.contains x = false ∧ x ≠ .endKw) →
      (rec.contains (lookahead rest 0) = true ∨ lookahead rest 0 = .endKw ∨ lookahead rest 0 = .eof) →
      Skips k msg ks (lookahead rest 0)) :
    R (k :: σ) c (P.errUntil fuel msg rec) (k :: σ) fun _ => any := by
  unfold P.errUntil
  refine R.pre (c' := fun t _ => ∃ i, c t i) ?_ (fun t i hc => ⟨i, hc⟩)
  refine R.errorNode ?_ (fun t i h => h)
  rintro s a s' ⟨i, hc⟩ hr
  obtain ⟨ks, ev, e1, e2, e3, e4⟩ := errUntilLoop_stop fuel s a s' hr
  simp only [TokenSet.contains_union, TokenSet.contains_new] at e3 e4
  refine ⟨ks, ev, e1, e2, h _ _ ks _ hc e1 (fun x hx => ?_) ?_⟩
  · have := e3 x hx
    simpa using this
  · simpa [or_assoc] using e4

end Verif
