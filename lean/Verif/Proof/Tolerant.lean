import Verif.Proof.Recovery
import Verif.Proof.Precedence
import Verif.Spec.Tolerant

/-
The parts of the nodes the parser builds, errors or not: a calculus.
-/
set_option linter.unusedSimpArgs false
set_option linter.unusedVariables false
namespace Verif
open Item PTree P Grammar Spec

/-! ### items and states -/

/-- the symbols of an item -/
def symI : Item → List Sym
  | .tok k => [.tok k]
  | .err _ => []
  | .errNode _ _ => [.node .error]
  | .node _ k _ _ => [.node k]

def symsI : List Item → List Sym
  | [] => []
  | i :: is => symI i ++ symsI is

@[simp] theorem symsI_append (a b : List Item) : symsI (a ++ b) = symsI a ++ symsI b := by
  induction a with
  | nil => rfl
  | cons x xs ih => simp [symsI, ih]

mutual
/-- every node is made of what it should be made of -/
def tolI : Item → Prop
  | .tok _ => True
  | .err _ => True
  | .errNode cs _ => ∃ ks : List SyntaxKind, cs = ks.map Item.tok
  | .node _ k bf af => (shape k).Matches (symsI bf ++ symsI af) ∧ tolIL bf ∧ tolIL af
def tolIL : List Item → Prop
  | [] => True
  | i :: is => tolI i ∧ tolIL is
end

@[simp] theorem tolIL_append (a b : List Item) : tolIL (a ++ b) ↔ tolIL a ∧ tolIL b := by
  induction a with
  | nil => simp [tolIL]
  | cons x xs ih => simp [tolIL, ih, and_assoc]

theorem tolIL_reverse {a : List Item} : tolIL a.reverse ↔ tolIL a := by
  induction a with
  | nil => rfl
  | cons x xs ih => simp [tolIL, ih, and_comm]

/-- the symbols in the open nodes: what was there, and what came since -/
abbrev Opens := List (List Sym × List Sym)

/-- the items and the open nodes have these symbols -/
def OpenAt : List Item → List Frame → Opens → Prop
  | cur, [], [b] => symsI cur.reverse = b.1 ++ b.2 ∧ tolIL cur
  | cur, f :: fs, b :: σ => symsI f.before ++ symsI cur.reverse = b.1 ++ b.2 ∧ tolIL f.before ∧ tolIL cur ∧
      OpenAt f.outer fs σ
  | _, _, _ => False

def At (σ : Opens) (s : FState) : Prop := OpenAt s.cur s.stack σ

theorem OpenAt.push {cur : List Item} {st : List Frame} {b acc : List Sym} {σ : Opens} {i : Item} {acc' : List Sym}
    (h : OpenAt cur st ((b, acc) :: σ)) (hi : tolI i) (e : acc' = acc ++ symI i) : OpenAt (i :: cur) st ((b, acc') :: σ) := by
  subst e
  cases st with
  | nil =>
    cases σ with
    | nil =>
      obtain ⟨h1, h2⟩ := h
      refine ⟨?_, hi, h2⟩
      simp only [List.reverse_cons, symsI_append, h1, symsI, List.append_nil, List.append_assoc]
    | cons x xs => exact h.elim
  | cons f fs =>
    obtain ⟨h1, h2, h3, h4⟩ := h
    refine ⟨?_, h2, ⟨hi, h3⟩, h4⟩
    simp only [List.reverse_cons, symsI_append, symsI, List.append_nil]
    rw [← List.append_assoc, h1]
    simp

theorem OpenAt.shift {cur : List Item} {st : List Frame} {b b' : List Sym × List Sym} {σ : Opens}
    (h : OpenAt cur st (b :: σ)) (e : b.1 ++ b.2 = b'.1 ++ b'.2) : OpenAt cur st (b' :: σ) := by
  cases st with
  | nil =>
    cases σ with
    | nil => exact ⟨by rw [← e]; exact h.1, h.2⟩
    | cons x xs => exact h.elim
  | cons f fs => exact ⟨by rw [← e]; exact h.1, h.2⟩

/-- the last item is taken off -/
theorem OpenAt.pop {i : Item} {cur : List Item} {st : List Frame} {b acc : List Sym} {x : Sym} {σ : Opens}
    (h : OpenAt (i :: cur) st ((b, acc ++ [x]) :: σ)) (hi : symI i = [x]) :
    OpenAt cur st ((b, acc) :: σ) ∧ tolI i := by
  have cut : ∀ {l : List Sym}, l ++ symsI [i] = b ++ (acc ++ [x]) → l = b ++ acc := by
    intro l h
    simp only [symsI, List.append_nil, hi, ← List.append_assoc] at h
    exact (List.append_inj' h rfl).1
  cases st with
  | nil =>
    cases σ with
    | nil =>
      obtain ⟨h1, h2⟩ := h
      simp only [List.reverse_cons, symsI_append] at h1
      exact ⟨⟨cut h1, h2.2⟩, h2.1⟩
    | cons x xs => exact h.elim
  | cons f fs =>
    obtain ⟨h1, h2, h3, h4⟩ := h
    simp only [List.reverse_cons, symsI_append, ← List.append_assoc] at h1
    refine ⟨⟨?_, h2, h3.2, h4⟩, h3.1⟩
    apply cut
    rw [h1]; simp

/-- Hoare triples: from the open nodes `σ`; the symbols in the last one of the open nodes of the end satisfy `L` -/
def T {α : Type} (σ : Opens) (c : Cond) (p : Prog α) (b : List Sym) (σ0 : Opens) (L : α → List Sym → Prop) (q : α → Cond) :
    Prop :=
  ∀ s a s', At σ s → c s.toks s.cur → p.runF s = .ok (a, s') → ∃ acc, At ((b, acc) :: σ0) s' ∧ L a acc ∧ q a s'.toks s'.cur

/-- the program adds items with symbols in `L` to the innermost open node -/
def E {α : Type} (c : Cond) (p : Prog α) (L : α → List Sym → Prop) (q : α → Cond) : Prop :=
  ∀ b σ, T ((b, []) :: σ) c p b σ L q

variable {α β : Type} {c : Cond} {σ σ0 : Opens} {b b0 acc : List Sym} {L : α → List Sym → Prop} {q : α → Cond}
  {L2 : β → List Sym → Prop} {q2 : β → Cond}

theorem T.then {L1 : α → List Sym → Prop} {q1 : α → Cond} {p : Prog α} {f : α → Prog β}
    (h1 : E c p L1 q1) (h2 : ∀ a ss, L1 a ss → T ((b, acc ++ ss) :: σ) (q1 a) (f a) b0 σ0 L2 q2) :
    T ((b, acc) :: σ) c (p >>= f) b0 σ0 L2 q2 := by
  intro s a s' hi hc h
  rw [show (p >>= f) = p.bind f from rfl, runF_bind] at h
  cases hp : p.runF s with
  | error e => rw [hp] at h; simp at h
  | ok r =>
    obtain ⟨x, s1⟩ := r
    rw [hp] at h
    obtain ⟨ss, h3, h4, h5⟩ := h1 (b ++ acc) σ s x s1 (OpenAt.shift hi (by simp)) hc hp
    exact h2 x ss h4 s1 a s' (OpenAt.shift h3 (by simp)) h5 h

theorem T.last {L1 : α → List Sym → Prop} {q1 : α → Cond} {p : Prog α}
    (h1 : E c p L1 q1) (h2 : ∀ a ss, L1 a ss → L a (acc ++ ss)) (h3 : ∀ a t i, q1 a t i → q a t i) :
    T ((b, acc) :: σ) c p b σ L q := by
  intro s a s' hi hc h
  obtain ⟨ss, h4, h5, h6⟩ := h1 (b ++ acc) σ s a s' (OpenAt.shift hi (by simp)) hc h
  exact ⟨acc ++ ss, OpenAt.shift h4 (by simp), h2 a ss h5, h3 _ _ _ h6⟩

theorem T.pre {c' : Cond} {p : Prog α} (h : T σ c' p b σ0 L q) (hc : ∀ t i, c t i → c' t i) : T σ c p b σ0 L q :=
  fun s a s' hi h1 hr => h s a s' hi (hc _ _ h1) hr

theorem T.post {L' : α → List Sym → Prop} {q' : α → Cond} {p : Prog α} (h : T σ c p b σ0 L q)
    (hL : ∀ a ss, L a ss → L' a ss) (hq : ∀ a t i, q a t i → q' a t i) : T σ c p b σ0 L' q' := by
  intro s a s' hi h1 hr
  obtain ⟨acc, h2, h3, h4⟩ := h s a s' hi h1 hr
  exact ⟨acc, h2, hL _ _ h3, hq _ _ _ h4⟩

theorem E.pre {c' : Cond} {p : Prog α} (h : E c' p L q) (hc : ∀ t i, c t i → c' t i) : E c p L q :=
  fun b σ => (h b σ).pre hc

theorem E.weak {L' : α → List Sym → Prop} {p : Prog α} (h : E c p L q) (hL : ∀ a ss, L a ss → L' a ss) :
    E c p L' fun _ => any := fun b σ => (h b σ).post hL fun _ _ _ _ => trivial

theorem T.pure {a : α} (h : L a acc) (hq : ∀ t i, c t i → q a t i) : T ((b, acc) :: σ) c (pure a : Prog α) b σ L q := by
  intro s x s' hi hc h'
  have : (Prog.pure a).runF s = .ok (x, s') := h'
  simp [Prog.runF] at this
  rw [← this.2, ← this.1]; exact ⟨acc, hi, h, hq _ _ hc⟩

theorem T.panic : T σ c (Prog.panic : Prog α) b σ0 L q := by intro s x s' hi _ h; simp [Prog.runF] at h
theorem T.fuel : T σ c (Prog.outOfFuel : Prog α) b σ0 L q := by intro s x s' hi _ h; simp [Prog.runF] at h

theorem T.current {f : SyntaxKind → Prog β} (h : ∀ x, T σ (fun t i => c t i ∧ lookahead t 0 = x) (f x) b σ0 L2 q2) :
    T σ c (P.current >>= f) b σ0 L2 q2 := by
  intro s a s' hi hc hr
  have : (f (lookahead s.toks 0)).runF s = .ok (a, s') := hr
  exact h _ s a s' hi ⟨hc, rfl⟩ this

theorem T.nth {n : Nat} {f : SyntaxKind → Prog β} (h : ∀ x, T σ (fun t i => c t i ∧ lookahead t n = x) (f x) b σ0 L2 q2) :
    T σ c (P.nth n >>= f) b σ0 L2 q2 := by
  intro s a s' hi hc hr
  exact h _ s a s' hi ⟨hc, rfl⟩ (show (f (lookahead s.toks n)).runF s = .ok (a, s') from hr)

theorem T.atK {k : SyntaxKind} {f : Bool → Prog β} (h1 : T σ (fun t i => c t i ∧ lookahead t 0 = k) (f true) b σ0 L2 q2)
    (h2 : T σ (fun t i => c t i ∧ lookahead t 0 ≠ k) (f false) b σ0 L2 q2) : T σ c (P.atK k >>= f) b σ0 L2 q2 := by
  intro s a s' hi hc hr
  have hr' : (f (lookahead s.toks 0 == k)).runF s = .ok (a, s') := hr
  by_cases hk : lookahead s.toks 0 = k
  · rw [show (lookahead s.toks 0 == k) = true from by simpa using hk] at hr'
    exact h1 s a s' hi ⟨hc, hk⟩ hr'
  · rw [show (lookahead s.toks 0 == k) = false from by simpa using hk] at hr'
    exact h2 s a s' hi ⟨hc, hk⟩ hr'

theorem T.atTs {ts : TokenSet} {f : Bool → Prog β}
    (h1 : T σ (fun t i => c t i ∧ ts.contains (lookahead t 0) = true) (f true) b σ0 L2 q2)
    (h2 : T σ (fun t i => c t i ∧ ts.contains (lookahead t 0) = false) (f false) b σ0 L2 q2) :
    T σ c (P.atTs ts >>= f) b σ0 L2 q2 := by
  intro s a s' hi hc hr
  have hr' : (f (ts.contains (lookahead s.toks 0))).runF s = .ok (a, s') := hr
  cases hk : ts.contains (lookahead s.toks 0) with
  | true => rw [hk] at hr'; exact h1 s a s' hi ⟨hc, hk⟩ hr'
  | false => rw [hk] at hr'; exact h2 s a s' hi ⟨hc, hk⟩ hr'

theorem T.ite {x : Prop} [Decidable x] {p1 p2 : Prog α} (h1 : x → T σ c p1 b σ0 L q) (h2 : ¬ x → T σ c p2 b σ0 L q) :
    T σ c (if x then p1 else p2) b σ0 L q := by
  split
  · exact h1 ‹_›
  · exact h2 ‹_›

/-- a node is begun -/
theorem T.start {f : Nat → Prog β} {x : List Sym × List Sym}
    (h : ∀ m, T (([], []) :: x :: σ) (fun t _ => ∃ i, c t i) (f m) b0 σ0 L2 q2) : T (x :: σ) c (P.start >>= f) b0 σ0 L2 q2 := by
  intro s a s' hi hc hr
  exact h s.ev ⟨s.toks, s.ev + 1, [], ⟨s.ev, false, [], s.cur⟩ :: s.stack⟩ a s'
    ⟨rfl, trivial, trivial, hi⟩ ⟨_, hc⟩ (show (f s.ev).runF _ = .ok (a, s') from hr)

/-- a node is complete -/
theorem T.complete {k : SyntaxKind} {m : Nat} {f : Nat → Prog β} {b' acc' : List Sym} (hk : (shape k).Matches acc')
    (h : T ((b, acc ++ [.node k]) :: σ) (Top m) (f m) b0 σ0 L2 q2) :
    T (([], acc') :: (b, acc) :: σ) c (P.complete m k >>= f) b0 σ0 L2 q2 := by
  intro s a s' hi _ hr
  rw [show (P.complete m k >>= f) = (P.complete m k).bind f from rfl, runF_bind] at hr
  split at hr
  · rename_i x s1 h1
    simp only [P.complete, Prog.runF] at h1
    split at h1
    · rename_i pos bf outer st heq
      split at h1
      · rename_i hm
        simp only [Prog.runF, Except.ok.injEq, Prod.mk.injEq] at h1
        rw [At, heq] at hi
        obtain ⟨e1, e2, e3, e4⟩ := hi
        rw [← h1.1, ← h1.2] at hr
        refine h _ a s' ?_ ?_ hr
        · refine OpenAt.push e4 ⟨?_, e2, tolIL_reverse.2 e3⟩ rfl
          simp only at e1
          rw [e1]; exact hk
        · exact ⟨k, bf, s.cur.reverse, outer, by simp only [hm.1]⟩
      · simp at h1
    · simp at h1
  · simp at hr

/-- a node is complete, and that is all -/
theorem T.done {k : SyntaxKind} {m : Nat} {acc' : List Sym} {L : Nat → List Sym → Prop} (hk : (shape k).Matches acc')
    (hL : L m (acc ++ [.node k])) : T (([], acc') :: (b, acc) :: σ) c (P.complete m k) b σ L Top := by
  have h : T (([], acc') :: (b, acc) :: σ) c (P.complete m k >>= fun m => (Pure.pure m : Prog Nat)) b σ L Top :=
    T.complete (b' := []) hk (T.pure hL fun _ _ h => h)
  exact h

/-- a node is put around the last node -/
theorem T.precede {k : SyntaxKind} {l : Nat} {f : Nat → Prog β} (hc : ∀ t i, c t i → Top l t i)
    (h : ∀ m, T (([], [.node k]) :: (b, acc) :: σ) (fun t _ => ∃ i, c t i) (f m) b0 σ0 L2 q2) :
    T ((b, acc ++ [.node k]) :: σ) c (P.precede l >>= f) b0 σ0 L2 q2 := by
  intro s a s' hi hc' hr
  obtain ⟨kk, bf, af, cur, hcur⟩ := hc _ _ hc'
  have hr' : (match splitNode l s.cur [] with
    | some (bf, outer) => (f s.ev).runF { s with ev := s.ev + 1, cur := [], stack := ⟨s.ev, false, bf, outer⟩ :: s.stack }
    | none => .error .panic) = .ok (a, s') := hr
  simp only [hcur, splitNode, if_true] at hr'
  have hi' : OpenAt (.node l kk bf af :: cur) s.stack ((b, acc ++ [.node k]) :: σ) := by rw [← hcur]; exact hi
  have hk : kk = k := by
    have : ∀ {x y : List Sym}, x ++ [Sym.node kk] = y ++ [Sym.node k] → kk = k := by
      intro x y h
      have := (List.append_inj' h rfl).2
      simpa using this
    cases hst : s.stack with
    | nil =>
      rw [hst] at hi'
      cases σ with
      | nil =>
        obtain ⟨h1, -⟩ := hi'
        simp only [List.reverse_cons, symsI_append, symsI, symI, List.append_nil] at h1
        rw [← List.append_assoc] at h1
        exact this h1
      | cons x xs => exact hi'.elim
    | cons g gs =>
      rw [hst] at hi'
      obtain ⟨h1, -⟩ := hi'
      simp only [List.reverse_cons, symsI_append, symsI, symI, List.append_nil] at h1
      rw [← List.append_assoc, ← List.append_assoc] at h1
      exact this h1
  subst hk
  obtain ⟨h1, h2⟩ := hi'.pop rfl
  refine h _ _ _ _ ?_ ?_ hr'
  · exact ⟨rfl, ⟨h2, trivial⟩, trivial, h1⟩
  · exact ⟨_, hc'⟩

/-- a node is put around the last node and the token after it -/
theorem T.precede1 {k op : SyntaxKind} {l : Nat} {f : Nat → Prog β} (hc : ∀ t i, c t i → Top1 l t i)
    (h : ∀ m, T (([], [.node k, .tok op]) :: (b, acc) :: σ) (fun t _ => ∃ i, c t i) (f m) b0 σ0 L2 q2) :
    T ((b, acc ++ [.node k] ++ [.tok op]) :: σ) c (P.precede l >>= f) b0 σ0 L2 q2 := by
  intro s a s' hi hc' hr
  obtain ⟨t, kk, bf, af, cur, hcur⟩ := hc _ _ hc'
  have hr' : (match splitNode l s.cur [] with
    | some (bf, outer) => (f s.ev).runF { s with ev := s.ev + 1, cur := [], stack := ⟨s.ev, false, bf, outer⟩ :: s.stack }
    | none => .error .panic) = .ok (a, s') := hr
  simp only [hcur, splitNode, if_true] at hr'
  have hi' : OpenAt (.tok t :: .node l kk bf af :: cur) s.stack ((b, acc ++ [.node k] ++ [.tok op]) :: σ) := by
    rw [← hcur]; exact hi
  have hk : kk = k ∧ t = op := by
    have : ∀ {x y : List Sym}, x ++ [Sym.node kk, .tok t] = y ++ [Sym.node k, .tok op] → kk = k ∧ t = op := by
      intro x y h
      have := (List.append_inj' h rfl).2
      simpa using this
    cases hst : s.stack with
    | nil =>
      rw [hst] at hi'
      cases σ with
      | nil =>
        obtain ⟨h1, -⟩ := hi'
        simp only [List.reverse_cons, symsI_append, symsI, symI, List.append_nil, List.append_assoc, List.cons_append,
          List.nil_append] at h1
        rw [← List.append_assoc] at h1
        exact this h1
      | cons x xs => exact hi'.elim
    | cons g gs =>
      rw [hst] at hi'
      obtain ⟨h1, -⟩ := hi'
      simp only [List.reverse_cons, symsI_append, symsI, symI, List.append_nil, List.append_assoc, List.cons_append,
        List.nil_append] at h1
      rw [← List.append_assoc, ← List.append_assoc] at h1
      exact this h1
  obtain ⟨rfl, rfl⟩ := hk
  obtain ⟨h1, h2⟩ := hi'.pop rfl
  obtain ⟨h3, h4⟩ := h1.pop rfl
  refine h _ _ _ _ ?_ ?_ hr'
  · exact ⟨rfl, ⟨h4, trivial, trivial⟩, trivial, h3⟩
  · exact ⟨_, hc'⟩

/-- one token is taken -/
theorem E.bumpExpect {L : Unit → List Sym → Prop} (h : ∀ t i, c t i → ∀ x, lookahead t 0 = x → L () [.tok x]) : E c P.bumpExpect L fun _ t i =>
    ∃ t1 i1, c t1 i1 ∧ lookahead t1 0 ≠ .eof ∧ t = t1.tail ∧ i = .tok (lookahead t1 0) :: i1 := by
  intro b σ s a s' hi hc hr
  simp only [P.bumpExpect, Prog.runF] at hr
  split at hr
  · simp at hr
  · rename_i hne
    simp only [if_true, Prog.runF, Except.ok.injEq, Prod.mk.injEq] at hr
    rw [← hr.2]
    exact ⟨_, OpenAt.push hi trivial rfl, h _ _ hc _ rfl, _, _, hc, hne, rfl, rfl⟩

theorem E.error {e : ParseError} : E c (P.pushError e) (fun _ ss => ss = []) fun _ t i => ∃ i, c t i := by
  intro b σ s a s' hi hc hr
  simp only [P.pushError, Prog.runF, Except.ok.injEq, Prod.mk.injEq] at hr
  rw [← hr.2]
  exact ⟨_, OpenAt.push hi trivial rfl, rfl, _, hc⟩

/-- the token is taken if it is there -/
theorem E.accept {x : SyntaxKind} : E c (P.accept x) (fun a ss => a = true ∧ ss = [.tok x] ∨ a = false ∧ ss = [])
    fun a t i => (a = true → ∃ t1 i1, c t1 i1 ∧ lookahead t1 0 = x ∧ t = t1.tail ∧ i = .tok x :: i1) ∧
      (a = false → c t i ∧ lookahead t 0 ≠ x) := by
  intro b σ
  unfold P.accept
  refine T.atK ?_ ?_
  · refine T.ite (fun _ => ?_) (fun h => absurd rfl h)
    refine T.then (E.bumpExpect (L := fun _ ss => ss = [.tok x]) ?_) fun _ ss hs => ?_
    · rintro t i ⟨-, h⟩ y rfl; rw [h]
    · refine T.pure (.inl ⟨rfl, hs⟩) ?_
      rintro t i ⟨t1, i1, ⟨h1, h2⟩, h3, h4, h5⟩
      exact ⟨fun _ => ⟨t1, i1, h1, h2, h4, by rw [h5, h2]⟩, fun h => by simp at h⟩
  · refine T.ite (fun h => by simp at h) (fun _ => T.pure (.inr ⟨rfl, rfl⟩) ?_)
    exact fun t i h => ⟨fun h => by simp at h, fun _ => h⟩

theorem E.bump {x : SyntaxKind} : E c (P.bump x) (fun _ ss => ss = [.tok x]) fun _ t i =>
    ∃ t1 i1, c t1 i1 ∧ lookahead t1 0 = x ∧ t = t1.tail ∧ i = .tok x :: i1 := by
  intro b σ
  unfold P.bump
  refine T.then E.accept fun a ss hs => ?_
  rcases hs with ⟨rfl, rfl⟩ | ⟨rfl, rfl⟩
  · exact T.ite (fun _ => T.pure rfl fun t i h => h.1 rfl) (fun h => absurd rfl h)
  · exact T.ite (fun h => by simp at h) (fun _ => T.panic)

theorem E.acceptAny : E c P.acceptAny
    (fun a ss => a = true → ∃ x, ss = [.tok x] ∧ ∃ t i, c t i ∧ lookahead t 0 = x)
    fun a t i => a = true → ∃ t1 i1, c t1 i1 ∧ lookahead t1 0 ≠ .eof ∧ t = t1.tail ∧ i = .tok (lookahead t1 0) :: i1 := by
  intro b σ
  unfold P.acceptAny
  refine T.current fun y => T.ite (fun _ => ?_) (fun _ => T.pure (fun h => by simp at h) fun _ _ _ h => by simp at h)
  refine T.then (E.bumpExpect (L := fun _ ss => ∃ x, ss = [.tok x] ∧ ∃ t i, c t i ∧ lookahead t 0 = x) ?_) fun _ ss hs => ?_
  · rintro t i ⟨h1, -⟩ x rfl; exact ⟨_, rfl, t, i, h1, rfl⟩
  · refine T.pure (fun _ => hs) ?_
    rintro t i ⟨t1, i1, ⟨h1, h2⟩, h3, h4, h5⟩ -
    exact ⟨t1, i1, h1, h3, h4, h5⟩

theorem E.bumpAny : E c P.bumpAny (fun _ ss => ∃ x, ss = [.tok x] ∧ ∃ t i, c t i ∧ lookahead t 0 = x) fun _ t i =>
    ∃ t1 i1, c t1 i1 ∧ lookahead t1 0 ≠ .eof ∧ t = t1.tail ∧ i = .tok (lookahead t1 0) :: i1 := by
  intro b σ
  unfold P.bumpAny
  refine T.then E.acceptAny fun a ss hs => ?_
  exact T.ite (fun h => T.pure (by simpa using hs h) fun t i hh => hh h) (fun _ => T.panic)

/-- the token is taken if it is there -/
theorem T.accept {x : SyntaxKind} {f : Bool → Prog β}
    (h1 : T ((b, acc ++ [.tok x]) :: σ) any (f true) b0 σ0 L2 q2)
    (h2 : T ((b, acc) :: σ) (fun t i => c t i ∧ lookahead t 0 ≠ x) (f false) b0 σ0 L2 q2) :
    T ((b, acc) :: σ) c (P.accept x >>= f) b0 σ0 L2 q2 := by
  refine T.then E.accept fun a ss hs => ?_
  rcases hs with ⟨rfl, rfl⟩ | ⟨rfl, rfl⟩
  · exact h1.pre fun _ _ _ => trivial
  · rw [List.append_nil]
    exact h2.pre fun _ _ h => h.2 rfl

theorem E.expect {x : SyntaxKind} : E c (P.expect x) (fun _ ss => (opt (tk x)).Matches ss) fun _ => any := by
  intro b σ
  unfold P.expect
  refine T.current fun y => T.ite (fun h => ?_) (fun _ => ?_)
  · refine T.then E.bumpAny fun _ ss hs => T.pure ?_ fun _ _ _ => trivial
    obtain ⟨z, rfl, t, i, h1, rfl⟩ := hs
    refine .left (.one ?_)
    rw [h1.2]; simpa using h
  · refine T.then E.error fun _ ss hs => T.pure ?_ fun _ _ _ => trivial
    subst hs
    exact .right .eps

/-- the token is known to be there -/
theorem E.expectAt {x : SyntaxKind} (h : ∀ t i, c t i → lookahead t 0 = x) :
    E c (P.expect x) (fun _ ss => ss = [.tok x]) fun _ => any := by
  intro b σ
  unfold P.expect
  refine T.current fun y => T.ite (fun hy => ?_) (fun hy => ?_)
  · refine T.then E.bumpAny fun _ ss hs => T.pure ?_ fun _ _ _ => trivial
    obtain ⟨z, rfl, t, i, h1, rfl⟩ := hs
    simp [h t i h1.1]
  · intro s a s' hi hc hr
    have := h _ _ hc.1
    rw [hc.2] at this
    simp [this] at hy

/-- an error node around tokens -/
theorem E.errorNode {msg : String} {body : Prog α} {q : Cond}
    (hb : ∀ s a s', (∃ i, c s.toks i) → body.runF s = .ok (a, s') → ∃ (ks : List SyntaxKind) (ev : Nat),
      s' = ⟨s'.toks, ev, (ks.map Item.tok).reverse ++ s.cur, s.stack⟩ ∧ ∀ i, q s'.toks i) :
    E c (P.startError >>= fun m => body >>= fun _ => P.completeError m (.message msg)) (fun _ ss => ss = [.node .error])
      fun _ => q := by
  intro b σ s a s' hi hc hr
  have hr' : (body >>= fun _ => P.completeError s.ev (.message msg)).runF
    ⟨s.toks, s.ev + 1, [], ⟨s.ev, true, [], s.cur⟩ :: s.stack⟩ = .ok (a, s') := hr
  rw [show (body >>= fun _ => P.completeError s.ev (.message msg)) =
    body.bind fun _ => P.completeError s.ev (.message msg) from rfl, runF_bind] at hr'
  split at hr'
  · rename_i x s1 h1
    obtain ⟨ks, ev, e2, e3⟩ := hb _ _ _ (by exact ⟨_, hc⟩) h1
    simp only at e2
    rw [e2] at hr'
    simp only [P.completeError, Prog.runF, if_true, Except.ok.injEq, Prod.mk.injEq] at hr'
    rw [← hr'.2]
    exact ⟨_, OpenAt.push hi ⟨ks, by simp⟩ rfl, rfl, e3 _⟩
  · simp at hr'

theorem acceptAny_toks (s : FState) (a : Bool) (s' : FState) (h : P.acceptAny.runF s = .ok (a, s')) :
    ∃ (ks : List SyntaxKind) (ev : Nat), s' = ⟨s'.toks, ev, (ks.map Item.tok).reverse ++ s.cur, s.stack⟩ := by
  have hw : wpF P.acceptAny s (fun b s'' => b = a ∧ s'' = s') := (wpF_iff _ _ _).2 ⟨a, s', h, rfl, rfl⟩
  simp only [P.acceptAny, wpF_bind, wpF_current, wpF_ite, wpF_bumpExpect, wpF_pure] at hw
  by_cases hk : lookahead s.toks 0 = .eof
  · have := hw.2 (by simp [hk])
    rw [← this.2]
    exact ⟨[], s.ev, by simp⟩
  · have := hw.1 (by simpa using hk)
    rw [← this.2.2]
    exact ⟨[lookahead s.toks 0], s.ev + 1, by simp⟩

theorem E.errRecover {msg : String} {rec : TokenSet} :
    E c (P.errRecover msg rec) (fun _ ss => ss = [] ∨ ss = [.node .error]) fun _ => any := by
  intro b σ
  unfold P.errRecover
  refine T.current fun x => T.ite (fun hx => ?_) (fun hx => ?_)
  · exact T.last E.error (fun _ ss h => .inl h) fun _ _ _ _ => trivial
  refine T.atTs (T.ite (fun _ => ?_) (fun h => absurd rfl h)) (T.ite (fun h => by simp at h) (fun _ => ?_))
  · exact T.last E.error (fun _ ss h => .inl h) fun _ _ _ _ => trivial
  · refine T.last (E.errorNode (q := any) ?_) (fun _ ss h => .inr h) fun _ _ _ _ => trivial
    rintro s a s' - hr
    obtain ⟨ks, ev, e⟩ := acceptAny_toks s a s' hr
    exact ⟨ks, ev, e, fun _ => trivial⟩

/-- not at an `end`: always an error node -/
theorem E.errAndBump {msg : String} (h : ∀ t i, c t i → lookahead t 0 ≠ .endKw) :
    E c (P.errAndBump msg) (fun _ ss => ss = [.node .error]) fun _ => any := by
  intro b σ
  unfold P.errAndBump P.errRecover
  refine T.current fun x => T.ite (fun hx => ?_) (fun hx => ?_)
  · intro s a s' hi hc hr
    have := h _ _ hc.1
    rw [hc.2] at this
    simp at hx
    exact absurd hx this
  refine T.atTs (T.ite (fun _ => ?_) (fun h => absurd rfl h)) (T.ite (fun h => by simp at h) (fun _ => ?_))
  · intro s a s' hi hc hr
    have := hc.2
    rw [TokenSet.C24_contains_empty] at this
    simp at this
  · refine T.last (E.errorNode (q := any) ?_) (fun _ ss h => h) fun _ _ _ _ => trivial
    rintro s a s' - hr
    obtain ⟨ks, ev, e⟩ := acceptAny_toks s a s' hr
    exact ⟨ks, ev, e, fun _ => trivial⟩

/-- an error node, up to one of the tokens -/
theorem E.errUntil {fuel : Nat} {msg : String} {rec : TokenSet} :
    E c (P.errUntil fuel msg rec) (fun _ ss => ss = [.node .error]) fun _ t _ =>
      rec.contains (lookahead t 0) = true ∨ lookahead t 0 = .endKw ∨ lookahead t 0 = .eof := by
  unfold P.errUntil
  refine E.errorNode ?_
  rintro s a s' - hr
  obtain ⟨ks, ev, e1, e2, e3, e4⟩ := errUntilLoop_stop fuel s a s' hr
  simp only [TokenSet.contains_union, TokenSet.contains_new] at e4
  refine ⟨ks, ev, e2, fun _ => ?_⟩
  simpa [or_assoc] using e4

end Verif
