import Verif.Model.Accept

/-
C56: the acceptor combinators agree with lookahead and consume what they match.

The specification: a single-character pattern is a set of characters (`Acc.sat`).
-/
namespace Verif
namespace Accept

/-- The set of characters denoted by a single-character pattern. -/
def Acc.sat : Acc → Char → Bool
  | .ch c, x => x == c
  | .pred f, x => f x
  | .range lo hi, x => decide (lo.val ≤ x.val ∧ x.val < hi.val)
  | .any, _ => true
  | .and a b, x => a.sat x && b.sat x
  | .or a b, x => a.sat x || b.sat x
  | .not a, x => !a.sat x
  | _, _ => false

/-- The single-character patterns which do not match the `'\0'` that stands for the end of input. -/
def Acc.Single : Acc → Prop
  | .ch c => c ≠ EOF_CHAR
  | .pred f => f EOF_CHAR = false
  | .range lo _ => 0 < lo.val
  | .any => True
  | .and a b => a.Single ∧ b.Single
  | .or a b => a.Single ∧ b.Single
  | .not a => a.Single
  | _ => False

/-- As `Single`, but without `not` (which tests for the end of input at the current position even when
it looks further ahead). -/
def Acc.Positive : Acc → Prop
  | .ch c => c ≠ EOF_CHAR
  | .pred f => f EOF_CHAR = false
  | .range lo _ => 0 < lo.val
  | .any => True
  | .and a b => a.Positive ∧ b.Positive
  | .or a b => a.Positive ∧ b.Positive
  | _ => False

theorem Acc.Positive.single {a : Acc} (h : a.Positive) : a.Single := by
  induction a <;> simp_all [Acc.Positive, Acc.Single]

/-- The specified result of accepting a single-character pattern. -/
def acceptSpec (p : Char → Bool) : Text → Bool × Text
  | [] => (false, [])
  | c :: cs => if p c then (true, cs) else (false, c :: cs)

theorem nth_single {a : Acc} (h : a.Single) (s : Text) :
    a.nth s 0 = (s.head?.map a.sat).getD false := by
  induction a with
  | ch c =>
    cases s with
    | nil => simpa [Acc.nth, nthChar, Acc.Single] using fun e => h e.symm
    | cons x xs => simp [Acc.nth, nthChar, Acc.sat]
  | pred f =>
    cases s with
    | nil => simpa [Acc.nth, nthChar, Acc.Single] using h
    | cons x xs => simp [Acc.nth, nthChar, Acc.sat]
  | range lo hi =>
    cases s with
    | nil =>
      simp only [Acc.nth, nthChar, Acc.Single] at h ⊢
      simp only [List.getD_nil, List.head?_nil, Option.map_none, Option.getD_none]
      apply decide_eq_false
      intro h'
      have : EOF_CHAR.val = 0 := by decide
      rw [this] at h'
      exact absurd h (UInt32.not_lt.mpr h'.1)
    | cons x xs => simp [Acc.nth, nthChar, Acc.sat]
  | any => cases s <;> simp [Acc.nth, nthIsEof, Acc.sat]
  | and a b iha ihb =>
    have h : a.Single ∧ b.Single := h
    cases s <;> simp_all [Acc.nth, Acc.sat]
  | or a b iha ihb =>
    have h : a.Single ∧ b.Single := h
    cases s <;> simp_all [Acc.nth, Acc.sat]
  | not a iha =>
    have h : a.Single := h
    cases s <;> simp_all [Acc.nth, Acc.sat, nthIsEof]
  | _ => exact h.elim

theorem nth_positive {a : Acc} (h : a.Positive) (s : Text) (n : Nat) :
    a.nth s n = (s[n]?.map a.sat).getD false := by
  induction a with
  | ch c =>
    have h : c ≠ EOF_CHAR := h
    cases e : s[n]? <;> simp [Acc.nth, nthChar, Acc.sat, List.getD, e, Ne.symm h]
  | pred f =>
    have h : f EOF_CHAR = false := h
    cases e : s[n]? <;> simp [Acc.nth, nthChar, Acc.sat, List.getD, e, h]
  | range lo hi =>
    have h : 0 < lo.val := h
    cases e : s[n]? with
    | some x => simp [Acc.nth, nthChar, Acc.sat, List.getD, e]
    | none =>
      simp only [Acc.nth, nthChar, List.getD, e, Option.getD_none, Option.map_none]
      apply decide_eq_false
      intro h'
      have : EOF_CHAR.val = 0 := by decide
      rw [this] at h'
      exact absurd h (UInt32.not_lt.mpr h'.1)
  | any => cases e : s[n]? <;> simp [Acc.nth, nthIsEof, Acc.sat, e]
  | and a b iha ihb =>
    have h : a.Positive ∧ b.Positive := h
    cases e : s[n]? <;> simp_all [Acc.nth, Acc.sat]
  | or a b iha ihb =>
    have h : a.Positive ∧ b.Positive := h
    cases e : s[n]? <;> simp_all [Acc.nth, Acc.sat]
  | _ => exact h.elim

theorem acceptDefault_single {a : Acc} (h : a.Single) (s : Text) :
    acceptDefault a s = .ok (acceptSpec a.sat s) := by
  cases s with
  | nil => simp [acceptDefault, Acc.peek, nth_single h, acceptSpec]
  | cons c cs =>
    simp only [acceptDefault, Acc.peek, nth_single h, acceptSpec, List.head?_cons, Option.map_some,
      Option.getD_some]
    split <;> rfl

/-- Accepting a single-character pattern consumes one character if it is in the set, and nothing
otherwise; it never panics. -/
theorem accept_single {a : Acc} (h : a.Single) (s : Text) : a.accept s = .ok (acceptSpec a.sat s) := by
  induction a generalizing s with
  | ch c => exact acceptDefault_single h s
  | pred f => exact acceptDefault_single h s
  | range => exact acceptDefault_single h s
  | any => exact acceptDefault_single h s
  | and a b => exact acceptDefault_single h s
  | not a => exact acceptDefault_single h s
  | or a b iha ihb =>
    have h : a.Single ∧ b.Single := h
    cases s with
    | nil => simp [Acc.accept, iha h.1, ihb h.2, acceptSpec, bind, Except.bind]
    | cons c cs =>
      simp only [Acc.accept, iha h.1, acceptSpec, bind, Except.bind, Acc.sat]
      by_cases e : a.sat c = true <;> simp [e, ihb h.2, acceptSpec, pure, Except.pure]
  | _ => exact h.elim

theorem whileLoop_spec {f : Text → Except Fail (Bool × Text)} {p : Char → Bool}
    (hf : ∀ s, f s = .ok (acceptSpec p s)) :
    ∀ (n : Nat) (s : Text), s.length < n → whileLoop f n s = .ok (s.dropWhile p) := by
  intro n
  induction n with
  | zero => intro s h; exact absurd h (Nat.not_lt_zero _)
  | succ n ih =>
    intro s h
    cases s with
    | nil => simp [whileLoop, nthIsEof]
    | cons c cs =>
      simp only [whileLoop, nthIsEof, hf, acceptSpec]
      simp only [List.length_cons] at h
      by_cases hp : p c
      · simp [hp, ih cs (by omega)]
      · simp [hp]

/-- `While` consumes the maximal run of matching characters. -/
theorem accept_while {a : Acc} (h : a.Single) (s : Text) :
    (Acc.while a).accept s = .ok (!s.isEmpty, s.dropWhile a.sat) := by
  cases s with
  | nil => simp [Acc.accept, nthIsEof, Acc.peek, Acc.nth, nth_single h]
  | cons c cs =>
    simp only [Acc.accept]
    rw [whileLoop_spec (accept_single h) _ _ (Nat.lt_succ_self _)]
    simp [nthIsEof, bind, Except.bind, pure, Except.pure]

/-- `Until` consumes the maximal run of non-matching characters. -/
theorem accept_until {a : Acc} (h : a.Single) (s : Text) :
    (Acc.until a).accept s = .ok (!s.isEmpty, s.dropWhile fun c => !a.sat c) := by
  have hn : (Acc.not a).Single := h
  cases s with
  | nil => simp [Acc.accept, nthIsEof, Acc.peek, Acc.nth]
  | cons c cs =>
    simp only [Acc.accept]
    rw [whileLoop_spec (acceptDefault_single hn) _ _ (Nat.lt_succ_self _)]
    simp [nthIsEof, bind, Except.bind, pure, Except.pure]
    rfl

theorem countLoop_spec {f : Text → Except Fail (Bool × Text)} {p : Char → Bool}
    (hf : ∀ s, f s = .ok (acceptSpec p s)) :
    ∀ (n k : Nat) (s : Text), s.length < n →
      countLoop f n k s = .ok (k + (s.takeWhile p).length, s.dropWhile p) := by
  intro n
  induction n with
  | zero => intro k s h; exact absurd h (Nat.not_lt_zero _)
  | succ n ih =>
    intro k s h
    cases s with
    | nil => simp [countLoop, hf, acceptSpec]
    | cons c cs =>
      simp only [countLoop, hf, acceptSpec]
      simp only [List.length_cons] at h
      by_cases hp : p c
      · simp [hp, ih (k + 1) cs (by omega)]; omega
      · simp [hp]

/-- Counting `While` consumes and counts the maximal run. -/
theorem acceptCount_while {a : Acc} (h : a.Single) (s : Text) :
    (Acc.while a).acceptCount s = .ok ((s.takeWhile a.sat).length, s.dropWhile a.sat) := by
  simp only [Acc.acceptCount]
  rw [countLoop_spec (accept_single h) _ _ _ (Nat.lt_succ_self _)]
  simp

theorem acceptCount_until {a : Acc} (h : a.Single) (s : Text) :
    (Acc.until a).acceptCount s
      = .ok ((s.takeWhile fun c => !a.sat c).length, s.dropWhile fun c => !a.sat c) := by
  have hn : (Acc.not a).Single := h
  simp only [Acc.acceptCount]
  rw [countLoop_spec (acceptDefault_single hn) _ _ _ (Nat.lt_succ_self _)]
  simp [Acc.sat]

/-- The specified result of accepting a sequence of two characters. -/
def seqSpec (p q : Char → Bool) : Text → Bool × Text
  | c :: d :: cs => if p c && q d then (true, cs) else (false, c :: d :: cs)
  | s => (false, s)

theorem peek_seq {a b : Acc} (ha : a.Single) (hb : b.Positive) (s : Text) :
    (Acc.seq a b).peek s = (seqSpec a.sat b.sat s).1 := by
  match s with
  | [] => simp [Acc.peek, Acc.nth, nth_single ha, seqSpec]
  | [c] => simp [Acc.peek, Acc.nth, nth_single ha, nth_positive hb, seqSpec]
  | c :: d :: cs =>
    simp only [Acc.peek, Acc.nth, nth_single ha, nth_positive hb, seqSpec]
    cases h1 : a.sat c <;> cases h2 : b.sat d <;> simp [h1, h2]

/-- A sequence matches both characters or consumes nothing. -/
theorem accept_seq {a b : Acc} (ha : a.Single) (hb : b.Positive) (s : Text) :
    (Acc.seq a b).accept s = .ok (seqSpec a.sat b.sat s) := by
  have hp := peek_seq ha hb s
  simp only [Acc.accept, hp]
  match s with
  | [] => rfl
  | [c] => rfl
  | c :: d :: cs =>
    simp only [seqSpec]
    by_cases h1 : a.sat c = true <;> by_cases h2 : b.sat d = true <;>
      simp [h1, h2, accept_single ha, accept_single hb.single, acceptSpec, bind, Except.bind, pure,
        Except.pure]

theorem timesLoop_spec {f : Text → Except Fail (Bool × Text)} {p : Char → Bool}
    (hf : ∀ s, f s = .ok (acceptSpec p s)) :
    ∀ (n : Nat) (s : Text), n ≤ (s.takeWhile p).length → timesLoop f n s = .ok (s.drop n) := by
  intro n
  induction n with
  | zero => intro s _; simp [timesLoop]
  | succ n ih =>
    intro s h
    cases s with
    | nil => simp at h
    | cons c cs =>
      by_cases hp : p c
      · simp only [List.takeWhile_cons, hp, if_true, List.length_cons] at h
        simp [timesLoop, hf, acceptSpec, hp, ih cs (by omega)]
      · simp [hp] at h

theorem takeWhile_le_iff (p : Char → Bool) (s : Text) (n : Nat) :
    (n ≤ (s.takeWhile p).length) ↔ ∀ i < n, (s[i]?.map p).getD false = true := by
  induction s generalizing n with
  | nil =>
    cases n with
    | zero => simp
    | succ n =>
      simp only [List.takeWhile_nil, List.length_nil, List.getElem?_nil, Option.map_none,
        Option.getD_none, Bool.false_eq_true]
      constructor
      · intro h; omega
      · intro h; exact (h 0 (by omega)).elim
  | cons c cs ih =>
    cases n with
    | zero => simp
    | succ n =>
      by_cases hp : p c
      · simp only [List.takeWhile_cons, hp, if_true, List.length_cons]
        rw [Nat.add_le_add_iff_right, ih n]
        constructor
        · intro h i hi
          cases i with
          | zero => simp [hp]
          | succ i => simpa using h i (by omega)
        · intro h i hi
          simpa using h (i + 1) (by omega)
      · simp only [List.takeWhile_cons, hp]
        constructor
        · intro h; simp at h
        · intro h; have := h 0 (by omega); simp [hp] at this

/-- `Repeat(a, n)` matches `n` characters or consumes nothing. -/
theorem accept_repeat {a : Acc} (ha : a.Positive) (n : Nat) (s : Text) :
    (Acc.repeat a n).accept s
      = .ok (if n ≤ (s.takeWhile a.sat).length then (true, s.drop n) else (false, s)) := by
  have hp : (Acc.repeat a n).peek s = decide (n ≤ (s.takeWhile a.sat).length) := by
    simp only [Acc.peek, Acc.nth, nth_positive ha, Nat.zero_add]
    rw [Bool.eq_iff_iff]
    simp only [List.all_eq_true, List.mem_range, decide_eq_true_eq]
    rw [takeWhile_le_iff]
  simp only [Acc.accept, hp, decide_eq_true_eq]
  split
  · rename_i h
    rw [timesLoop_spec (accept_single ha.single) n s h]
    rfl
  · rfl

/-! ### the property -/

/-- C56: lookahead decides acceptance of a single-character pattern; acceptance consumes exactly the
matched character and failure consumes nothing. -/
theorem C56_single (a : Acc) (h : a.Single) (s : Text) :
    (∃ c cs, s = c :: cs ∧ a.sat c = true ∧ a.peek s = true ∧ a.accept s = .ok (true, cs)) ∨
    ((∀ c cs, s = c :: cs → a.sat c = false) ∧ a.peek s = false ∧ a.accept s = .ok (false, s)) := by
  rw [accept_single h]
  cases s with
  | nil => right; simp [Acc.peek, nth_single h, acceptSpec]
  | cons c cs =>
    cases hs : a.sat c with
    | true => left; exact ⟨c, cs, rfl, hs, by simp [Acc.peek, nth_single h, hs], by simp [acceptSpec, hs]⟩
    | false =>
      right
      refine ⟨?_, by simp [Acc.peek, nth_single h, hs], by simp [acceptSpec, hs]⟩
      rintro c' cs' e
      simp only [List.cons.injEq] at e
      rw [← e.1]; exact hs

/-- C56: a sequence of two patterns accepts exactly the texts starting with two matching characters,
which it consumes; otherwise it consumes nothing. -/
theorem C56_seq (a b : Acc) (ha : a.Single) (hb : b.Positive) (s : Text) :
    (∃ c d cs, s = c :: d :: cs ∧ a.sat c = true ∧ b.sat d = true ∧ (Acc.seq a b).peek s = true ∧
      (Acc.seq a b).accept s = .ok (true, cs)) ∨
    ((∀ c d cs, s = c :: d :: cs → (a.sat c && b.sat d) = false) ∧ (Acc.seq a b).peek s = false ∧
      (Acc.seq a b).accept s = .ok (false, s)) := by
  rw [accept_seq ha hb, peek_seq ha hb]
  match s with
  | [] => right; simp [seqSpec]
  | [c] => right; simp [seqSpec]
  | c :: d :: cs =>
    cases hs : (a.sat c && b.sat d) with
    | true =>
      left
      have h2 := hs
      rw [Bool.and_eq_true] at h2
      exact ⟨c, d, cs, rfl, h2.1, h2.2, by simp only [seqSpec, hs, if_true], by simp only [seqSpec, hs, if_true]⟩
    | false =>
      right
      refine ⟨?_, by simp [seqSpec, hs], by simp [seqSpec, hs]⟩
      rintro c' d' cs' e
      simp only [List.cons.injEq] at e
      rw [← e.1, ← e.2.1]; exact hs

/-- C56: `While`/`Until` consume the longest run: `s = run ++ rest`, everything in the run matches and
the rest does not start with a matching character.  They report success exactly if there is any input; lookahead says
whether the run is not empty. -/
theorem C56_while (a : Acc) (h : a.Single) (s : Text) :
    ∃ run rest r, s = run ++ rest ∧ (∀ c ∈ run, a.sat c = true) ∧
      (∀ c cs, rest = c :: cs → a.sat c = false) ∧
      (Acc.while a).accept s = .ok (r, rest) ∧
      (Acc.while a).acceptCount s = .ok (run.length, rest) ∧
      (r = true ↔ s ≠ []) ∧ ((Acc.while a).peek s = true ↔ run ≠ []) := by
  refine ⟨s.takeWhile a.sat, s.dropWhile a.sat, !s.isEmpty, (List.takeWhile_append_dropWhile).symm,
    ?_, ?_, accept_while h s, acceptCount_while h s, by simp, ?_⟩
  rotate_left 2
  · simp only [Acc.peek, Acc.nth, nth_single h]
    cases s with
    | nil => simp
    | cons c cs => cases hc : a.sat c <;> simp [hc]
  · intro c hc
    exact (List.all_eq_true.mp (List.all_takeWhile (p := a.sat) (l := s))) c hc
  · intro c cs e
    have := List.head?_dropWhile_not a.sat s
    rw [e] at this
    simpa using this

theorem C56_until (a : Acc) (h : a.Single) (s : Text) :
    ∃ run rest r, s = run ++ rest ∧ (∀ c ∈ run, a.sat c = false) ∧
      (∀ c cs, rest = c :: cs → a.sat c = true) ∧
      (Acc.until a).accept s = .ok (r, rest) ∧
      (Acc.until a).acceptCount s = .ok (run.length, rest) ∧
      (r = true ↔ s ≠ []) ∧ ((Acc.until a).peek s = true ↔ run ≠ []) := by
  refine ⟨s.takeWhile (fun c => !a.sat c), s.dropWhile (fun c => !a.sat c), !s.isEmpty,
    (List.takeWhile_append_dropWhile).symm, ?_, ?_, accept_until h s, acceptCount_until h s, by simp, ?_⟩
  rotate_left 2
  · simp only [Acc.peek, Acc.nth, nth_single h]
    cases s with
    | nil => simp [nthIsEof]
    | cons c cs => cases hc : a.sat c <;> simp [hc, nthIsEof]
  · intro c hc
    have := (List.all_eq_true.mp (List.all_takeWhile (p := fun c => !a.sat c) (l := s))) c hc
    simpa using this
  · intro c cs e
    have := List.head?_dropWhile_not (fun c => !a.sat c) s
    rw [e] at this
    simpa using this

/-- C56: `Repeat` consumes exactly `n` matching characters, or nothing. -/
theorem C56_repeat (a : Acc) (h : a.Positive) (n : Nat) (s : Text) :
    (∃ run rest, s = run ++ rest ∧ run.length = n ∧ (∀ c ∈ run, a.sat c = true) ∧
      (Acc.repeat a n).accept s = .ok (true, rest) ∧ (Acc.repeat a n).peek s = true) ∨
    ((¬ ∃ run rest, s = run ++ rest ∧ run.length = n ∧ ∀ c ∈ run, a.sat c = true) ∧
      (Acc.repeat a n).accept s = .ok (false, s) ∧ (Acc.repeat a n).peek s = false) := by
  have hp : (Acc.repeat a n).peek s = decide (n ≤ (s.takeWhile a.sat).length) := by
    simp only [Acc.peek, Acc.nth, nth_positive h, Nat.zero_add]
    rw [Bool.eq_iff_iff]
    simp only [List.all_eq_true, List.mem_range, decide_eq_true_eq]
    rw [takeWhile_le_iff]
  rw [accept_repeat h]
  by_cases hn : n ≤ (s.takeWhile a.sat).length
  · left
    have hl := hn
    refine ⟨s.take n, s.drop n, (List.take_append_drop n s).symm, ?_, ?_, by simp [hn], by simp [hp, hn]⟩
    · have : (s.takeWhile a.sat).length ≤ s.length := (List.takeWhile_prefix a.sat).length_le
      simp; omega
    · intro c hc
      have : s.take n = (s.takeWhile a.sat).take n := by
        obtain ⟨t, ht⟩ := List.takeWhile_prefix a.sat (l := s)
        conv => lhs; rw [← ht]
        rw [List.take_append_of_le_length hn]
      rw [this] at hc
      exact (List.all_eq_true.mp (List.all_takeWhile (p := a.sat) (l := s))) c (List.mem_of_mem_take hc)
  · right
    refine ⟨?_, by simp [hn], by simp [hp, hn]⟩
    rintro ⟨run, rest, rfl, hlen, hall⟩
    apply hn
    rw [List.takeWhile_append_of_pos hall]
    simp; omega

/-- A non-trivial instance of the hypotheses. -/
example : (Acc.or (.ch 'a') (.not (.ch 'b'))).Single ∧ (Acc.or (.ch 'a') (.range 'c' 'e')).Positive := by
  simp only [Acc.Single, Acc.Positive]; decide

/-- The exclusion of `Not` in second position of a `Seq` is necessary: `Not` tests for the end of input
at the current position, so `seq!('a', Not('b'))` accepts the one-character text `a`. -/
theorem C56_seq_not_fails :
    (Acc.seq (.ch 'a') (.not (.ch 'b'))).accept ['a'] = .ok (true, []) := by rfl

end Accept
end Verif
