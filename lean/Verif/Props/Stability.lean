import Verif.Spec.Stability
import Verif.Proof.PlaceLog
import Verif.Proof.LspProof
import Verif.Props.Reads
import Verif.Props.Walk
import Verif.Proof.Decide

/-
C96: what lies before an edit, and is complete, stays as it is.
-/
namespace Verif
open Lexer Lua Accept Spec PTree

/-! ### the lexer -/

private theorem exp_prefix {c : Char} {sign ds p q : Text} (hs : sign = [] ∨ sign = ['-'])
    (hd : ∀ d ∈ ds, d.isDigit = true) (hc : c = 'e' ∨ c = 'E') (e : c :: (sign ++ ds) = p ++ q) :
    p = [] ∨ ∃ c sign ds, p = c :: (sign ++ ds) ∧ (c = 'e' ∨ c = 'E') ∧ (sign = [] ∨ sign = ['-']) ∧
        ∀ d ∈ ds, d.isDigit = true := by
  cases p with
  | nil => exact .inl rfl
  | cons x p =>
    simp only [List.cons_append, List.cons.injEq] at e
    obtain ⟨rfl, e⟩ := e
    rcases List.append_eq_append_iff.1 e with ⟨m, rfl, h⟩ | ⟨m, rfl, rfl⟩
    · exact .inr ⟨c, sign, m, rfl, hc, hs, fun d hd' => hd d (by rw [h]; simp [hd'])⟩
    · refine .inr ⟨c, p, [], by simp, hc, ?_, by simp⟩
      rcases hs with hs | hs
      · left; simp at hs; exact hs.1
      · cases p with
        | nil => exact .inl rfl
        | cons y ys => right; simp at hs; rw [hs.1, hs.2.1]

private theorem tail_prefix {u v : Text} (h : NumberTail (u ++ v)) : NumberTail u := by
  generalize e : u ++ v = t at h
  cases h with
  | @mk frac ex h1 h2 =>
    rcases List.append_eq_append_iff.1 e with ⟨m, rfl, rfl⟩ | ⟨m, rfl, rfl⟩
    · have hex : ∀ p q, ex = p ++ q → p = [] ∨ ∃ c sign ds, p = c :: (sign ++ ds) ∧ (c = 'e' ∨ c = 'E') ∧
          (sign = [] ∨ sign = ['-']) ∧ ∀ d ∈ ds, d.isDigit = true := by
        intro p q hpq
        rcases h2 with rfl | ⟨c, sign, ds, rfl, hc, hs, hd⟩
        · left; simp at hpq; exact hpq.1
        · exact exp_prefix hs hd hc hpq
      have := @NumberTail.mk (u ++ m) [] h1 (.inl rfl)
      refine (?_ : NumberTail u)
      rcases h1 with h1 | ⟨ds, h1, hd⟩
      · simp at h1
        rw [h1.1]
        exact @NumberTail.mk [] [] (.inl rfl) (.inl rfl)
      · cases u with
        | nil => exact @NumberTail.mk [] [] (.inl rfl) (.inl rfl)
        | cons x u =>
          simp only [List.cons_append, List.cons.injEq] at h1
          obtain ⟨rfl, rfl⟩ := h1
          have := @NumberTail.mk ('.' :: u) [] (.inr ⟨u, rfl, fun d h => hd d (by simp [h])⟩) (.inl rfl)
          simpa using this
    · refine .mk h1 ?_
      rcases h2 with h2 | ⟨c, sign, ds, h2, hc, hs, hd⟩
      · left; simp at h2; exact h2.1
      · exact exp_prefix hs hd hc h2.symm

theorem number_prefix {u v : Text} (hu : u ≠ []) (h : Spelled .number (u ++ v)) : Spelled .number u := by
  generalize e : u ++ v = t at h
  generalize hk : SyntaxKind.number = k at h
  cases u with
  | nil => exact absurd rfl hu
  | cons x u =>
    cases h with
    | @fixed s k hm =>
      subst hk
      exact absurd hm (by
        intro hm
        have : ∀ p ∈ keywords ++ operators, p.2 ≠ .number := by decide
        exact this _ hm rfl)
    | name => cases hk
    | space => cases hk
    | lineComment => cases hk
    | blockComment => cases hk
    | quoted => cases hk
    | long => cases hk
    | tilde => cases hk
    | @number d ds tail h1 h2 h3 =>
      simp only [List.cons_append, List.cons.injEq] at e
      obtain ⟨rfl, e⟩ := e
      rcases List.append_eq_append_iff.1 e with ⟨m, rfl, rfl⟩ | ⟨m, rfl, rfl⟩
      · have := @Spelled.number x u [] h1 (fun d hd => h2 d (by simp [hd])) (@NumberTail.mk [] [] (.inl rfl) (.inl rfl))
        simpa using this
      · exact .number h1 h2 (tail_prefix h3)
    | @hex ds h1 =>
      simp only [List.cons_append, List.cons.injEq] at e
      obtain ⟨rfl, e⟩ := e
      cases u with
      | nil =>
        have := @Spelled.number '0' [] [] (by decide) (by simp) (@NumberTail.mk [] [] (.inl rfl) (.inl rfl))
        simpa using this
      | cons y u =>
        simp only [List.cons_append, List.cons.injEq] at e
        obtain ⟨rfl, rfl⟩ := e
        exact .hex fun d hd => h1 d (by simp [hd])

private theorem operators_grow : ∀ s ∈ operators, ∀ p ∈ operators, s.1.toList <+: p.1.toList →
    s.1.toList.length < p.1.toList.length →
    ∃ q ∈ operators, q.1.toList = p.1.toList.take (s.1.toList.length + 1) := by decide +kernel

/-- What a token is depends on the text before it is read and on one more character. -/
theorem reads_next {w : Text} {k : SyntaxKind} {err : Option String} {c : Char} {r1 : Text} (r2 : Text)
    (h : Reads w k err (c :: r1)) : Reads w k err (c :: r2) := by
  generalize e : c :: r1 = rest at h
  cases h with
  | keyword h1 h2 => exact .keyword h1 (by subst e; simpa using h2)
  | name h1 h2 h3 h4 => exact .name h1 h2 h3 (by subst e; simpa using h4)
  | space h1 h2 h3 => exact .space h1 h2 (by subst e; simpa using h3)
  | @operator s k rest h1 h2 h3 h4 =>
    subst e
    refine .operator h1 (fun p hp hpre => ?_) (by simpa using h3) (by simpa using h4)
    refine Nat.le_of_not_lt fun hlt => ?_
    have hsp : s.toList <+: p.1.toList := List.prefix_of_prefix_length_le (List.prefix_append _ _) hpre (Nat.le_of_lt hlt)
    obtain ⟨q, hq, eq⟩ := operators_grow (s, k) h1 p hp hsp hlt
    have hql : q.1.toList.length = s.toList.length + 1 := by rw [eq, List.length_take]; simp only; omega
    have hq2 : q.1.toList <+: s.toList ++ c :: r2 := by rw [eq]; exact (List.take_prefix _ _).trans hpre
    have hq3 : q.1.toList = s.toList ++ [c] := by
      have : s.toList ++ [c] <+: s.toList ++ c :: r2 := ⟨r2, by simp⟩
      exact (List.prefix_of_prefix_length_le hq2 this (by simp; omega)).eq_of_length (by simp; omega)
    have := h2 q hq (by rw [hq3]; exact ⟨r1, by simp⟩)
    omega
  | tilde h1 => subst e; exact .tilde (by simpa using h1)
  | number h1 h2 =>
    subst e
    refine .number h1 fun p q hpq hp hs => ?_
    cases p with
    | nil => exact hp rfl
    | cons x p =>
      simp only [List.cons_append, List.cons.injEq] at hpq
      obtain ⟨rfl, -⟩ := hpq
      have : Spelled .number (w ++ [c]) := number_prefix (v := p) (by simp) (by simpa using hs)
      exact h2 [c] r1 rfl (by simp) this
  | quoted h1 h2 h3 => exact .quoted h1 h2 h3
  | quotedEnd h1 h2 h3 => subst e; exact .quotedEnd h1 h2 (by simpa using h3)
  | quotedLine h1 h2 h3 => subst e; exact .quotedLine h1 h2 (by simpa using h3)
  | long h1 h2 => exact .long h1 h2
  | longBad h1 h2 h3 h4 h5 => subst e; exact .longBad h1 h2 h3 (by simpa using h4) h5
  | longEnd => cases e
  | lineComment h1 h2 h3 => subst e; exact .lineComment h1 h2 (by simpa using h3)
  | blockComment h1 h2 h3 h4 h5 =>
    subst e
    refine .blockComment h1 h2 ?_ h4 (by simpa using h5)
    rename_i line
    cases line <;> simpa using h3
  | blockCommentEnd => cases e
  | other h1 h2 h3 h4 h5 => exact .other h1 h2 h3 h4 h5

theorem firstLexeme_reads {w : Text} {k : SyntaxKind} {e : Option String} {rest : Text} :
    FirstLexeme (w ++ rest) ⟨w, k, e⟩ rest ↔ w ≠ [] ∧ Reads w k e rest := by
  constructor
  · intro h
    have hw : w ≠ [] := h.word_ne
    refine ⟨hw, (C82_first_token w rest k e hw).1 ?_⟩
    have := firstToken_eq h
    simpa [Range.upTo] using this
  · rintro ⟨hw, h⟩
    have h1 := (C82_first_token w rest k e hw).2 h
    cases w with
    | nil => exact absurd rfl hw
    | cons c cs =>
      obtain ⟨l, r, h2⟩ := firstLexeme_exists c (cs ++ rest)
      have h3 := h2.append
      obtain ⟨w', k', e'⟩ := l
      simp only at h3
      have h4 : Reads w' k' e' r := by
        refine (C82_first_token w' r k' e' h2.word_ne).1 ?_
        rw [← h3]
        have := firstToken_eq h2
        simpa [Range.upTo] using this
      obtain ⟨w0, k0, e0, rest0, -, hu⟩ := C82_rules_total (c :: cs ++ rest) (by simp)
      have a1 := hu _ _ _ _ rfl h
      have a2 := hu _ _ _ _ h3 h4
      obtain ⟨rfl, rfl, rfl, rfl⟩ := a1
      obtain ⟨rfl, rfl, rfl, rfl⟩ := a2
      exact h2

private theorem first_common {a b : Text} {l : Lexeme} {r : Text} (b' : Text) (h : FirstLexeme (a ++ b) l r)
    (hl : l.word.len < a.len) :
    ∃ m, a = l.word ++ m ∧ r = m ++ b ∧ FirstLexeme (a ++ b') l (m ++ b') := by
  have e := h.append
  rcases List.append_eq_append_iff.1 e with ⟨m, e1, e2⟩ | ⟨m, rfl, rfl⟩
  · rw [e1, Text.len_append] at hl; omega
  · cases m with
    | nil => simp at hl
    | cons c m =>
      obtain ⟨w, k, er⟩ := l
      simp only [List.cons_append, List.append_assoc] at h ⊢
      obtain ⟨hw, hr⟩ := firstLexeme_reads.1 h
      exact ⟨c :: m, rfl, rfl, firstLexeme_reads.2 ⟨hw, reads_next (m ++ b') hr⟩⟩

/-- The tokens that end before the end of a common front part are the same. -/
theorem lexemes_front {a b b' : Text} : ∀ {front back : List Lexeme}, Lexemes (a ++ b) (front ++ back) →
    Text.len (front.map (·.word)).flatten < a.len → ∃ back', Lexemes (a ++ b') (front ++ back')
  | [], _, _, _ => by
    obtain ⟨ls, h⟩ := lexemes_exists (a ++ b')
    exact ⟨ls, h⟩
  | l :: front, back, h, hl => by
    generalize ht : a ++ b = text at h
    cases h with
    | @cons _ _ rest _ h1 h2 =>
      subst ht
      simp only [List.map_cons, List.flatten_cons, Text.len_append] at hl
      obtain ⟨m, rfl, rfl, h3⟩ := first_common b' h1 (by omega)
      rw [Text.len_append] at hl
      obtain ⟨back', h4⟩ := lexemes_front (a := m) (b := b) (b' := b') h2 (by omega)
      exact ⟨back', .cons h3 h4⟩

private theorem attach_low {pos : Nat} : ∀ {ls : List Lexeme} {lim : Nat}, lim ≤ pos → (∀ l ∈ ls, l.word ≠ []) →
    (placed pos ((attach pos ls).map (·.1))).filter (fun x => x.2.2 < lim) = [] ∧
    ((attach pos ls).filterMap (·.2)).filter (fun e => e.range.stop < lim) = []
  | [], _, _, _ => by simp [attach, placed]
  | l :: ls, lim, h, hw => by
    have ih := attach_low (pos := pos + l.word.len) (ls := ls) (lim := lim) (by omega) fun x hx => hw x (by simp [hx])
    refine ⟨?_, ?_⟩
    · simp only [attach, List.map_cons, placed]
      rw [List.filter_cons_of_neg (by simp; omega)]
      exact ih.1
    · simp only [attach]
      cases l.err with
      | none => simpa using ih.2
      | some e =>
        simp only [Option.map_some, List.filterMap_cons]
        rw [List.filter_cons_of_neg (by
          have : ¬ pos + l.word.len < lim := by omega
          exact fun hh => this (of_decide_eq_true hh))]
        exact ih.2

private theorem tokens_common {b b' : Text} : ∀ {ls ls' : List Lexeme} {a : Text} (pos : Nat),
    Lexemes (a ++ b) ls → Lexemes (a ++ b') ls' →
    (placed pos ((attach pos ls).map (·.1))).filter (fun x => x.2.2 < pos + a.len) =
      (placed pos ((attach pos ls').map (·.1))).filter (fun x => x.2.2 < pos + a.len) ∧
    ((attach pos ls).filterMap (·.2)).filter (fun e => e.range.stop < pos + a.len) =
      ((attach pos ls').filterMap (·.2)).filter (fun e => e.range.stop < pos + a.len) := by
  have key : ∀ {b b' : Text} {ls ls' : List Lexeme} {a : Text} (pos : Nat), Lexemes (a ++ b) ls → Lexemes (a ++ b') ls' →
      (∃ l r r' m, a = l.word ++ m ∧ ls = l :: r ∧ ls' = l :: r' ∧ Lexemes (m ++ b) r ∧ Lexemes (m ++ b') r') ∨
      ((placed pos ((attach pos ls).map (·.1))).filter (fun x => x.2.2 < pos + a.len) = [] ∧
        ((attach pos ls).filterMap (·.2)).filter (fun e => e.range.stop < pos + a.len) = []) := by
    intro b b' ls ls' a pos h h'
    have hw := h.words_ne
    generalize ht : a ++ b = text at h
    cases h with
    | nil => right; simp [attach, placed]
    | @cons _ l rest ls h1 h2 =>
      subst ht
      by_cases hl : l.word.len < a.len
      · left
        obtain ⟨m, e, rfl, h3⟩ := first_common b' h1 hl
        generalize ht : a ++ b' = text at h' h3
        cases h' with
        | nil => cases h3
        | @cons _ l' rest' ls' h4 h5 =>
          obtain ⟨rfl, rfl⟩ := h3.unique h4
          exact ⟨l, ls, ls', m, e, rfl, rfl, h2, h5⟩
      · right
        have := attach_low (pos := pos + l.word.len) (ls := ls) (lim := pos + a.len) (by omega) fun x hx => hw x (by simp [hx])
        refine ⟨?_, ?_⟩
        · simp only [attach, List.map_cons, placed]
          rw [List.filter_cons_of_neg (by simp; omega)]
          exact this.1
        · simp only [attach]
          cases l.err with
          | none => simpa using this.2
          | some e =>
            simp only [Option.map_some, List.filterMap_cons]
            rw [List.filter_cons_of_neg (by simp [Range.ofLen]; omega)]
            exact this.2
  intro ls
  induction ls with
  | nil =>
    intro ls' a pos h h'
    rcases key pos h' h with ⟨l, r, r', m, -, -, e, -⟩ | ⟨h1, h2⟩
    · cases e
    · rw [h1, h2]; simp [attach, placed]
  | cons x xs ih =>
    intro ls' a pos h h'
    rcases key pos h h' with ⟨l, r, r', m, e, e1, e2, h3, h4⟩ | ⟨h1, h2⟩
    · cases e1
      subst e2 e
      have := ih (pos + x.word.len) h3 h4
      simp only [Nat.add_assoc, ← Text.len_append] at this ⊢
      simp only [attach, List.map_cons, placed, List.filterMap_cons]
      refine ⟨?_, ?_⟩
      · rw [List.filter_cons, List.filter_cons, this.1]
      · cases x.err with
        | none => exact this.2
        | some e => simp only [Option.map_some]; rw [List.filter_cons, List.filter_cons, this.2]
    · rcases key pos h' h with ⟨l, r, r', m, e, e1, e2, h3, h4⟩ | ⟨h1', h2'⟩
      · cases e2
        subst e1 e
        have := ih (pos + x.word.len) h4 h3
        simp only [Nat.add_assoc, ← Text.len_append] at this ⊢
        simp only [attach, List.map_cons, placed, List.filterMap_cons]
        refine ⟨?_, ?_⟩
        · rw [List.filter_cons, List.filter_cons, this.1]
        · cases x.err with
          | none => exact this.2
          | some e => simp only [Option.map_some]; rw [List.filter_cons, List.filter_cons, this.2]
      · rw [h1, h2, h1', h2']; exact ⟨rfl, rfl⟩

/-- C96: the tokens that end before the place of an edit are the same after it, and so are their errors. -/
theorem C96_tokens (a b b' : Text) : ∃ ts es ts' es', tokenize (a ++ b) = .ok (ts, es) ∧
    tokenize (a ++ b') = .ok (ts', es') ∧
    (placed 0 ts).filter (fun x => x.2.2 < a.len) = (placed 0 ts').filter (fun x => x.2.2 < a.len) ∧
    es.filter (fun e => e.range.stop < a.len) = es'.filter (fun e => e.range.stop < a.len) := by
  obtain ⟨ls, h⟩ := lexemes_exists (a ++ b)
  obtain ⟨ls', h'⟩ := lexemes_exists (a ++ b')
  have := tokens_common 0 h h'
  simp only [Nat.zero_add] at this
  exact ⟨_, _, _, _, tokenize_eq h, tokenize_eq h', this.1, this.2⟩

/-! ### nodes of a tree -/

private theorem mem_nodesAtL {path : List Nat} {x : Nat × Green} : ∀ {cs : List Green} {i off : Nat},
    x ∈ Green.nodesAtL off cs ↔ ∃ c ∈ Red.elemsFrom path i off cs, x ∈ Green.nodesAt c.off c.green
  | [], _, _ => by simp [Green.nodesAtL, Red.elemsFrom]
  | g :: gs, i, off => by
    have e : wlen g.leaves = g.len := by rw [wlen, ← text_leaves]; rfl
    simp only [Green.nodesAtL, Red.elemsFrom, List.mem_append, List.mem_cons, e,
      mem_nodesAtL (cs := gs) (i := i + 1) (off := off + g.len) (path := path)]
    constructor
    · rintro (h | ⟨c, h1, h2⟩)
      · exact ⟨_, .inl rfl, h⟩
      · exact ⟨c, .inr h1, h2⟩
    · rintro ⟨c, rfl | h1, h2⟩
      · exact .inl h2
      · exact .inr ⟨c, h1, h2⟩

private theorem mem_nodesAt (off : Nat) (g : Green) (r : Red) : (off, g) ∈ Green.nodesAt r.off r.green ↔
    r.green.isNode = true ∧ ∃ c, Below r c ∧ c.off = off ∧ c.green = g := by
  refine red_ind (P := fun r => (off, g) ∈ Green.nodesAt r.off r.green ↔
    r.green.isNode = true ∧ ∃ c, Below r c ∧ c.off = off ∧ c.green = g) (fun r ih => ?_) r
  rcases r with ⟨path, o, gr⟩
  cases gr with
  | token k w => simp [Green.nodesAt, Green.isNode]
  | node k cs =>
    simp only [Green.nodesAt, List.mem_append, List.mem_singleton, Green.isNode, true_and]
    rw [mem_nodesAtL (path := path) (i := 0)]
    constructor
    · rintro (⟨c, h1, h2⟩ | h)
      · have hn : c.green.isNode = true := by
          cases hg : c.green with
          | token => rw [hg] at h2; simp [Green.nodesAt] at h2
          | node => rfl
        have hc : c ∈ Red.children ⟨path, o, .node k cs⟩ := List.mem_filter.2 ⟨h1, hn⟩
        obtain ⟨-, c', h3, h4⟩ := (ih c hc).1 h2
        exact ⟨c', below_of_child hc h3, h4⟩
      · cases h
        exact ⟨_, .self, rfl, rfl⟩
    · rintro ⟨c, h1, h2, h3⟩
      rcases below_cases h1 with rfl | ⟨d, hd, h4⟩
      · right; rw [← h2, ← h3]
      · left
        have hd' := List.mem_filter.1 hd
        exact ⟨d, hd'.1, (ih d hd).2 ⟨hd'.2, c, h4, h2, h3⟩⟩

/-! ### tokens -/

private theorem placed_append (pos : Nat) (a b : List Lexeme) :
    placed pos ((a ++ b).map fun l => ⟨l.kind, l.word.len⟩) =
      placed pos (a.map fun l => ⟨l.kind, l.word.len⟩) ++
        placed (pos + Text.len (a.map (·.word)).flatten) (b.map fun l => ⟨l.kind, l.word.len⟩) := by
  induction a generalizing pos with
  | nil => simp [placed]
  | cons l a ih => simp [placed] at ih ⊢; rw [ih]; simp [Nat.add_assoc]

private theorem placed_mem {pos : Nat} {ls : List Lexeme} {k lo hi}
    (h : (k, lo, hi) ∈ placed pos (ls.map fun l => ⟨l.kind, l.word.len⟩)) :
    ∃ a l b, ls = a ++ l :: b ∧ l.kind = k ∧ lo = pos + Text.len (a.map (·.word)).flatten ∧ hi = lo + l.word.len := by
  induction ls generalizing pos with
  | nil => simp [placed] at h
  | cons l ls ih =>
    simp only [List.map_cons, placed, List.mem_cons, Prod.mk.injEq] at h
    rcases h with ⟨rfl, rfl, rfl⟩ | h
    · exact ⟨[], l, ls, rfl, rfl, by simp, rfl⟩
    · obtain ⟨a, l', b, rfl, h1, h2, h3⟩ := ih h
      exact ⟨l :: a, l', b, rfl, h1, by simp [h2, Nat.add_assoc], h3⟩

/-! ### the tree -/

mutual
private theorem log_stop (i : Nat) (f : Bool) (t : PTree) : ∀ d ∈ log i f t, d.stop ≤ i + (yield t).length := by
  cases t with
  | tok k => simp [log, yield]
  | err e => simp [log, yield]
  | errNode cs e =>
    intro d hd
    simp only [log, List.mem_append, List.mem_singleton] at hd
    rcases hd with hd | rfl
    · simpa [yield] using logL_stop i false cs d hd
    · simp [yield]
  | node k cs =>
    intro d hd
    simp only [log, List.mem_append, List.mem_singleton] at hd
    rcases hd with hd | rfl
    · simpa [yield] using logL_stop i false cs d hd
    · simp [yield]
private theorem logL_stop (i : Nat) (f : Bool) (ts : List PTree) : ∀ d ∈ logL i f ts, d.stop ≤ i + (yieldL ts).length := by
  cases ts with
  | nil => simp [logL]
  | cons t ts =>
    intro d hd
    simp only [logL, List.mem_append] at hd
    simp only [yieldL, List.length_append]
    rcases hd with hd | hd
    · have := log_stop i f t d hd; omega
    · have := logL_stop _ _ ts d hd; omega
end

/-- In front of a token: the pieces that end there or before, seen from any text that goes on the same way for two tokens. -/
private theorem errs_front {la lm lc m : List Lx} {x : Lx} {ts : List PTree} {p : Nat} (hx : isTriv x = false)
    (hw : 0 < x.2.len) (hlc : lc = la ++ x :: lm) (hn : (realKinds la).length + 2 ≤ (realKinds lc).length)
    (hp : p ≤ wlen la) (hy : yieldL ts = realKinds (lc ++ m)) :
    ((placeL (wlen (lc ++ m)) ts (lc ++ m)).errs).filter (fun e => e.range.stop ≤ p) =
      (((logL 0 true ts).filter (fun d => d.stop + 2 ≤ (realKinds lc).length)).filterMap (errOf (wlen lc) lc)).filter
        (fun e => e.range.stop ≤ p) := by
  have h0 : lc ++ m = atL (lc ++ m) 0 true := rfl
  have h1 := placeL_errOf (wlen (lc ++ m)) (lc ++ m) ts 0 true
  rw [← h0] at h1
  rw [h1]
  have hb : ∀ d ∈ logL 0 true ts, d.stop ≤ (realKinds (lc ++ m)).length ∧ d.stop = d.start + (yield d.tree).length := by
    intro d hd
    have a := logL_stop 0 true ts d hd
    rw [hy] at a
    exact ⟨by omega, (logL_shape 0 true ts d hd).2⟩
  have hk : lc ++ m = la ++ x :: (lm ++ m) := by rw [hlc]; simp
  generalize logL 0 true ts = ds at hb
  induction ds with
  | nil => rfl
  | cons d ds ih =>
    have ih := ih fun d' hd' => hb d' (by simp [hd'])
    obtain ⟨b1, b2⟩ := hb d (by simp)
    by_cases hd : d.stop + 2 ≤ (realKinds lc).length
    · rw [List.filter_cons_of_pos (by simpa using hd), List.filterMap_cons, List.filterMap_cons,
        errOf_append m (by omega) (by omega)]
      cases errOf (wlen lc) lc d with
      | none => exact ih
      | some e => simp only [List.filter_cons, ih]
    · rw [List.filter_cons_of_neg (by simpa using hd), List.filterMap_cons]
      cases he : errOf (wlen (lc ++ m)) (lc ++ m) d with
      | none => exact ih
      | some e =>
        rw [List.filter_cons_of_neg]
        · exact ih
        · have hs : ∃ f, e.range.stop = wlen (lc ++ m) - wlen (atL (lc ++ m) d.stop f) := by
            unfold errOf at he
            split at he
            · rename_i ee et
              rw [et] at b2
              simp only [yield, List.length_nil, Nat.add_zero] at b2
              cases he
              exact ⟨d.fresh, by rw [b2]; rfl⟩
            · rename_i cs ee et
              cases he
              exact ⟨frL false cs, rfl⟩
            · cases he
          obtain ⟨f, hs⟩ := hs
          simp only [decide_eq_true_eq]
          intro hle
          rw [hs] at hle
          have := (offset_le (lb := lm ++ m) hx hw d.stop f (by rw [← hk]; exact b1)).1 (by rw [← hk]; omega)
          omega

private theorem nodes_front {la lm lc m : List Lx} {x : Lx} {ts : List PTree} {p n : Nat} (hx : isTriv x = false)
    (hw : 0 < x.2.len) (hlc : lc = la ++ x :: lm) (hn : (realKinds la).length + 2 ≤ (realKinds lc).length)
    (hp : p ≤ wlen la) (hy : yieldL ts = realKinds (lc ++ m)) :
    (Green.nodesAtL 0 (placeL n ts (lc ++ m)).greens).filter (fun e => e.1 + wlen e.2.leaves ≤ p) =
      (((logL 0 true ts).filter (fun d => d.stop + 2 ≤ (realKinds lc).length)).filterMap (nodeOf' 0 lc)).filter
        (fun e => e.1 + wlen e.2.leaves ≤ p) := by
  have h0 : lc ++ m = atL (lc ++ m) 0 true := rfl
  have h1 := placeL_nodes n (lc ++ m) ts 0 true
  rw [← h0, Nat.sub_self] at h1
  rw [h1]
  have hb : ∀ d ∈ logL 0 true ts, d.stop ≤ (realKinds (lc ++ m)).length ∧ d.stop = d.start + (yield d.tree).length := by
    intro d hd
    have a := logL_stop 0 true ts d hd
    rw [hy] at a
    exact ⟨by omega, (logL_shape 0 true ts d hd).2⟩
  have hk : lc ++ m = la ++ x :: (lm ++ m) := by rw [hlc]; simp
  generalize logL 0 true ts = ds at hb
  induction ds with
  | nil => rfl
  | cons d ds ih =>
    have ih := ih fun d' hd' => hb d' (by simp [hd'])
    obtain ⟨b1, b2⟩ := hb d (by simp)
    by_cases hd : d.stop + 2 ≤ (realKinds lc).length
    · rw [List.filter_cons_of_pos (by simpa using hd), List.filterMap_cons, List.filterMap_cons,
        nodeOf_append n 0 m (by omega) b2]
      cases nodeOf' 0 lc d with
      | none => exact ih
      | some e => simp only [List.filter_cons, ih]
    · rw [List.filter_cons_of_neg (by simpa using hd), List.filterMap_cons]
      cases he : nodeOf' n (lc ++ m) d with
      | none => exact ih
      | some e =>
        rw [List.filter_cons_of_neg]
        · exact ih
        · have hs : ∃ f, e.1 + wlen e.2.leaves = wlen (lc ++ m) - wlen (atL (lc ++ m) d.stop f) := by
            have key : ∀ cs, d.stop = d.start + (yieldL cs).length →
                wlen (lc ++ m) - wlen (atL (lc ++ m) d.start false) +
                  wlen (Green.leavesL (placeL n cs (atL (lc ++ m) d.start false)).greens) =
                wlen (lc ++ m) - wlen (atL (lc ++ m) d.stop (frL false cs)) := by
              intro cs hcs
              have h3 := congrArg wlen (placeL_leaves n cs (atL (lc ++ m) d.start false))
              rw [placeL_atL, ← hcs] at h3
              have h4 := wlen_suffix (suffix_atL (lc ++ m) d.start false)
              simp only [wlen_append] at h3 h4 ⊢
              omega
            unfold nodeOf' at he
            split at he
            · rename_i k cs et
              rw [et] at b2
              cases he
              exact ⟨_, key cs b2⟩
            · rename_i cs ee et
              rw [et] at b2
              cases he
              exact ⟨_, key cs b2⟩
            · cases he
          obtain ⟨f, hs⟩ := hs
          simp only [decide_eq_true_eq]
          intro hle
          rw [hs] at hle
          have := (offset_le (lb := lm ++ m) hx hw d.stop f (by rw [← hk]; exact b1)).1 (by rw [← hk]; omega)
          omega

/-- What two tokens after `p` give. -/
private theorem settled_front {a b : Text} {p : Nat} (h : Settled (a ++ b) a.len p) (b' : Text) :
    ∃ (A M B B' : List Lexeme) (x y : Lexeme), Lexemes (a ++ b) (A ++ x :: M ++ y :: B) ∧
      Lexemes (a ++ b') (A ++ x :: M ++ y :: B') ∧ x.kind.isTrivia = false ∧ y.kind.isTrivia = false ∧
      p ≤ Text.len (A.map (·.word)).flatten ∧ p < a.len := by
  obtain ⟨lo, hi, lo', hi', ⟨t1, e1, k1, h1, h2, h3⟩, ⟨t2, e2, k2, h4, h5, h6⟩, h7, h8, h9⟩ := h
  obtain ⟨ls, hls⟩ := lexemes_exists (a ++ b)
  have ht := tokenize_eq hls
  rw [h1] at ht
  cases ht
  rw [tokenize_eq hls] at h4
  cases h4
  rw [attach_tokens] at h2 h5
  obtain ⟨A, x, R, eA, rfl, hlo, hhi⟩ := placed_mem h2
  obtain ⟨A', y, B, eA', rfl, hlo', hhi'⟩ := placed_mem h5
  have hxl : 0 < x.word.len := Text.len_pos (s := x.word) (hls.words_ne x (by rw [eA]; simp))
  have hsplit : ∃ M, A' = A ++ x :: M := by
    have e : A ++ x :: R = A' ++ y :: B := by rw [← eA, eA']
    rcases List.append_eq_append_iff.1 e with ⟨m, rfl, h⟩ | ⟨m, rfl, h⟩
    · cases m with
      | nil => simp at h hlo'; omega
      | cons z m =>
        simp at h
        obtain ⟨rfl, rfl⟩ := h
        exact ⟨m, rfl⟩
    · simp at hlo; omega
  obtain ⟨M, rfl⟩ := hsplit
  rw [eA'] at hls
  have hfr : Text.len ((A ++ x :: M ++ [y]).map (·.word)).flatten < a.len := by
    simp at hlo' ⊢; omega
  obtain ⟨back', hb⟩ := lexemes_front (b' := b') (front := A ++ x :: M ++ [y]) (back := B) (by simpa using hls) hfr
  exact ⟨A, M, B, back', x, y, by simpa using hls, by simpa using hb, h3, h6, by omega, by omega⟩

private theorem lexemes_words {s : Text} {ls : List Lexeme} (h : Lexemes s ls) : wlen (ls.map lxOf) = s.len := by
  rw [wlen, (lexemes_lx h).1]

private theorem wlen_words (A : List Lexeme) : wlen (A.map lxOf) = Text.len (A.map (·.word)).flatten := by
  simp [wlen, wordsOf, lxOf, Function.comp_def]

private theorem attach_append (pos : Nat) (a b : List Lexeme) :
    attach pos (a ++ b) = attach pos a ++ attach (pos + Text.len (a.map (·.word)).flatten) b := by
  induction a generalizing pos with
  | nil => simp [attach]
  | cons l a ih => simp [attach, ih, Nat.add_assoc]

private theorem ne_of {s : Text} {ls : List Lexeme} (h : Lexemes s ls) : NE (realKinds (ls.map lxOf)) := by
  intro hm
  simp only [realKinds, List.mem_map] at hm
  obtain ⟨l, hl, e⟩ := hm
  exact (lexemes_lx h).2.2.2 l (List.mem_filter.mp hl).1 e

/-- Both parses in terms of the common part. -/
private theorem stable_main {a b b' : Text} {p : Nat} {t t' : Green} {es es' : List SyntaxError}
    (h : parseText (a ++ b) = .ok (t, es)) (h' : parseText (a ++ b') = .ok (t', es'))
    (hs : Settled (a ++ b) a.len p) :
    es.filter (fun e => e.range.stop ≤ p) = es'.filter (fun e => e.range.stop ≤ p) ∧
    ∀ off g, off + Green.len g ≤ p → ((off, g) ∈ Green.nodesAt 0 t ↔ (off, g) ∈ Green.nodesAt 0 t') := by
  obtain ⟨A, M, B, B', x, y, hl, hl', hx, hy, hp, hpa⟩ := settled_front hs b'
  obtain ⟨ls, ts, h1, h2, h3, -, h4⟩ := parseText_main (a ++ b)
  obtain ⟨ls', ts', h1', h2', h3', -, h4'⟩ := parseText_main (a ++ b')
  cases h1.unique hl
  cases h1'.unique hl'
  rw [h] at h4
  rw [h'] at h4'
  simp only [Except.ok.injEq, Prod.mk.injEq] at h4 h4'
  obtain ⟨rfl, rfl⟩ := h4
  obtain ⟨rfl, rfl⟩ := h4'
  generalize hlc : (A ++ x :: M ++ [y]).map lxOf = lc
  have elc : lc = A.map lxOf ++ lxOf x :: (M.map lxOf ++ [lxOf y]) := by rw [← hlc]; simp
  have e1 : (A ++ x :: M ++ y :: B).map lxOf = lc ++ B.map lxOf := by rw [← hlc]; simp
  have e1' : (A ++ x :: M ++ y :: B').map lxOf = lc ++ B'.map lxOf := by rw [← hlc]; simp
  have hcount : (realKinds (A.map lxOf)).length + 2 ≤ (realKinds lc).length := by
    have ex : realKinds (lxOf x :: (M.map lxOf ++ [lxOf y])) = x.kind :: (realKinds (M.map lxOf) ++ [y.kind]) := by
      simp [realKinds, isTriv, lxOf, hx, hy]
    rw [elc, realKinds_append, ex]
    simp
  have hxl : 0 < (lxOf x).2.len := Text.len_pos (s := x.word) (hl.words_ne x (by simp))
  have hp' : p ≤ wlen (A.map lxOf) := by rw [wlen_words]; exact hp
  have n1 := lexemes_words hl
  have n1' := lexemes_words hl'
  have ne1 := ne_of hl
  have ne1' := ne_of hl'
  rw [e1] at h2 h3 n1 ne1
  rw [e1'] at h2' h3' n1' ne1'
  rw [realKinds_append] at ne1 ne1' h2 h2'
  obtain ⟨u, u', c1, c2, c1', c2', c3⟩ := parse_common ne1 ne1' (by omega)
  have hu : ts = u := by
    rw [c1] at h2
    have := calls_inj (.node .sourceFile [.node .block u]) (.node .sourceFile [.node .block ts]) [] [] [] []
      (by simpa using h2) (by simp [yield, yieldL, c2, h3, realKinds_append])
    simpa using this.1.symm
  have hu' : ts' = u' := by
    rw [c1'] at h2'
    have := calls_inj (.node .sourceFile [.node .block u']) (.node .sourceFile [.node .block ts']) [] [] [] []
      (by simpa using h2') (by simp [yield, yieldL, c2', h3', realKinds_append])
    simpa using this.1.symm
  subst hu hu'
  refine ⟨?_, ?_⟩
  · rw [List.filter_append, List.filter_append]
    congr 1
    · rw [e1, e1', ← n1, ← n1', errs_front (x := lxOf x) hx hxl elc hcount hp' h3,
        errs_front (x := lxOf x) hx hxl elc hcount hp' h3', c3]
    · have := tokens_common 0 hl hl'
      simp only [Nat.zero_add] at this
      have hf : ∀ es : List SyntaxError, es.filter (fun e => e.range.stop ≤ p) =
          (es.filter (fun e => e.range.stop < a.len)).filter (fun e => e.range.stop ≤ p) := by
        intro es
        rw [List.filter_filter]
        congr 1
        funext e
        by_cases hh : e.range.stop ≤ p
        · have : e.range.stop < a.len := by omega
          simp [hh, this]
        · simp [hh]
      rw [hf, this.2, ← hf]
  · intro off g hg
    have hlen : ∀ g : Green, wlen g.leaves = g.len := fun g => by rw [wlen, ← text_leaves]; rfl
    have key : ∀ (n : Nat) (ts : List PTree) (m : List Lx), p < wlen (lc ++ m) → yieldL ts = realKinds (lc ++ m) →
        ((off, g) ∈ Green.nodesAt 0 (.node .sourceFile [.node .block ((placeL n ts (lc ++ m)).greens ++
          (placeL n ts (lc ++ m)).rest.map leaf)]) ↔
        (off, g) ∈ (Green.nodesAtL 0 (placeL n ts (lc ++ m)).greens).filter (fun e => e.1 + wlen e.2.leaves ≤ p)) := by
      intro n ts m hm hy
      have hpl := placeL_leaves n ts (lc ++ m)
      have hlv : ∀ ls : List Lx, Green.leavesL (ls.map leaf) = ls := by
        intro ls
        induction ls with
        | nil => rfl
        | cons l ls ih => simp [Green.leavesL, Green.leaves, leaf, ih]
      simp only [Green.nodesAt, Green.nodesAtL, nodesAtL_append, nodesAtL_leaves, List.append_nil, List.mem_append,
        List.mem_filter, List.mem_singleton, hlen, hg, decide_true, and_true]
      constructor
      · rintro ((h | h) | h)
        · exact h
        · cases h
          rw [← hlen] at hg
          simp only [Green.leaves, leavesL_append, hlv, hpl] at hg
          omega
        · cases h
          rw [← hlen] at hg
          simp only [Green.leaves, Green.leavesL, leavesL_append, hlv, hpl, List.append_nil] at hg
          omega
      · intro h
        exact .inl (.inl h)
    rw [e1, e1']
    rw [key _ _ _ (by rw [n1, Text.len_append]; omega) h3, key _ _ _ (by rw [n1', Text.len_append]; omega) h3',
      nodes_front (x := lxOf x) hx hxl elc hcount hp' h3, nodes_front (x := lxOf x) hx hxl elc hcount hp' h3', c3]

/-- C96: an edit changes no node that two whole tokens keep from it. -/
theorem C96_nodes {a b b' : Text} {t t' : Green} {es es' : List SyntaxError} {p : Nat}
    (h : parseText (a ++ b) = .ok (t, es)) (h' : parseText (a ++ b') = .ok (t', es'))
    (hs : Settled (a ++ b) a.len p) (off : Nat) (g : Green) (hg : off + g.len ≤ p) :
    (∃ r, Below (Red.root t) r ∧ r.off = off ∧ r.green = g) ↔ (∃ r, Below (Red.root t') r ∧ r.off = off ∧ r.green = g) := by
  have h1 := (stable_main h h' hs).2 off g hg
  have hn : ∀ {s : Text} {t : Green} {es}, parseText s = .ok (t, es) → t.isNode = true := by
    intro s t es h
    obtain ⟨ls, ts, -, -, -, -, h4⟩ := parseText_main s
    rw [h] at h4
    cases h4
    rfl
  have h2 := mem_nodesAt off g (Red.root t)
  have h2' := mem_nodesAt off g (Red.root t')
  simp only [Red.root, hn h, hn h', true_and] at h2 h2'
  simp only [Red.root]
  rw [← h2, ← h2']
  exact h1

/-- C96: nor does it change a complaint of the lexer or of the parser about that part of the text. -/
theorem C96_errors {a b b' : Text} {t t' : Green} {es es' : List SyntaxError} {p : Nat}
    (h : parseText (a ++ b) = .ok (t, es)) (h' : parseText (a ++ b') = .ok (t', es'))
    (hs : Settled (a ++ b) a.len p) :
    es.filter (fun e => e.range.stop ≤ p) = es'.filter (fun e => e.range.stop ≤ p) :=
  (stable_main h h' hs).1

/-- C96 for an edit of a text, as the editor sends it. -/
theorem C96_edit {e : Indel} {text new : Text} {t t' : Green} {es es' : List SyntaxError} {p : Nat}
    (he : e.apply text = some new) (h : parseText text = .ok (t, es)) (h' : parseText new = .ok (t', es'))
    (hs : Settled text e.delete.start p) :
    es.filter (fun x => x.range.stop ≤ p) = es'.filter (fun x => x.range.stop ≤ p) ∧
    ∀ off g, off + Green.len g ≤ p → ((∃ r, Below (Red.root t) r ∧ r.off = off ∧ r.green = g) ↔
      (∃ r, Below (Red.root t') r ∧ r.off = off ∧ r.green = g)) := by
  obtain ⟨ins, del⟩ := e
  obtain ⟨X, D, Y, rfl, rfl, h1, -⟩ := Lsp.indel_apply_some he
  simp only [List.append_assoc] at h h' hs
  rw [← h1] at hs
  exact ⟨C96_errors h h' hs, fun off g hg => C96_nodes h h' hs off g hg⟩

/-- A text that goes on in two ways after `y`. -/
example : Settled ("local x = = 1 local y ".toList ++ "= 2".toList) (Text.len "local x = = 1 local y ".toList) 14 := by
  have h : tokenize ("local x = = 1 local y ".toList ++ "= 2".toList) = .ok
      ([⟨.localKw, 5⟩, ⟨.whitespace, 1⟩, ⟨.ident, 1⟩, ⟨.whitespace, 1⟩, ⟨.eq, 1⟩, ⟨.whitespace, 1⟩, ⟨.eq, 1⟩,
        ⟨.whitespace, 1⟩, ⟨.number, 1⟩, ⟨.whitespace, 1⟩, ⟨.localKw, 5⟩, ⟨.whitespace, 1⟩, ⟨.ident, 1⟩,
        ⟨.whitespace, 1⟩, ⟨.eq, 1⟩, ⟨.whitespace, 1⟩, ⟨.number, 1⟩], []) := by decide +kernel
  exact ⟨14, 19, 20, 21, ⟨_, _, .localKw, h, by decide, rfl⟩, ⟨_, _, .ident, h, by decide, rfl⟩, by decide, by decide,
    by decide⟩

/-- The complaints about the front part are the same two. -/
example : ∃ t t' es es', parseText ("local x = = 1 local y ".toList ++ "= 2".toList) = .ok (t, es) ∧
    parseText ("local x = = 1 local y ".toList ++ "z (".toList) = .ok (t', es') ∧
    es.filter (fun e => e.range.stop ≤ 14) = [⟨"Expected an expression", ⟨10, 11⟩⟩,
      ⟨"A literal cannot be the start of a statement", ⟨12, 13⟩⟩] ∧
    es'.filter (fun e => e.range.stop ≤ 14) = [⟨"Expected an expression", ⟨10, 11⟩⟩,
      ⟨"A literal cannot be the start of a statement", ⟨12, 13⟩⟩] ∧ es ≠ es' := by
  cases h : parseText ("local x = = 1 local y ".toList ++ "= 2".toList) with
  | error e =>
    exfalso
    have : (parseText ("local x = = 1 local y ".toList ++ "= 2".toList)).toOption.isSome = true := by
      rw [parseText_eq_eval]; decide +kernel
    rw [h] at this; cases this
  | ok p =>
    cases h' : parseText ("local x = = 1 local y ".toList ++ "z (".toList) with
    | error e =>
      exfalso
      have : (parseText ("local x = = 1 local y ".toList ++ "z (".toList)).toOption.isSome = true := by
        rw [parseText_eq_eval]; decide +kernel
      rw [h'] at this; cases this
    | ok p' =>
      have e : (parseText ("local x = = 1 local y ".toList ++ "= 2".toList)).toOption.map (·.2) = some
          [⟨"Expected an expression", ⟨10, 11⟩⟩, ⟨"A literal cannot be the start of a statement", ⟨12, 13⟩⟩] := by
        rw [parseText_eq_eval]; decide +kernel
      have e' : (parseText ("local x = = 1 local y ".toList ++ "z (".toList)).toOption.map (·.2) = some
          [⟨"Expected an expression", ⟨10, 11⟩⟩, ⟨"A literal cannot be the start of a statement", ⟨12, 13⟩⟩,
            ⟨"Expected an expression", ⟨25, 25⟩⟩, ⟨"Expected RParen, got Eof", ⟨25, 25⟩⟩] := by
        rw [parseText_eq_eval]; decide +kernel
      rw [h] at e
      rw [h'] at e'
      simp only [Except.toOption, Option.map_some, Option.some.injEq] at e e'
      refine ⟨p.1, p'.1, p.2, p'.2, rfl, rfl, ?_, ?_, ?_⟩
      · rw [e]; decide
      · rw [e']; decide
      · rw [e, e']; decide

private def path1 : Green :=
  .node .sourceFile [.node .block [.node .functionDefStmt [.token .functionKw "function".toList,
    .token .whitespace " ".toList, .node .functionDefContent [.node .functionStatic [
      .node .indexPath [.node .nameRef [.token .ident "a".toList], .token .dot ".".toList],
      .node .name [.token .ident "b".toList]]], .token .whitespace " ".toList,
    .node .paramList [.token .lParen "(".toList], .node .block []]]]

private def path2 : Green :=
  .node .sourceFile [.node .block [.node .functionDefStmt [.token .functionKw "function".toList,
    .token .whitespace " ".toList, .node .functionDefContent [.node .functionStatic [
      .node .indexPath [.node .nameRef [.token .ident "a".toList], .token .dot ".".toList,
        .node .nameRef [.token .ident "b".toList], .token .whitespace " ".toList, .token .dot ".".toList],
      .node .name [.token .ident "c".toList]]],
    .node .paramList [.token .lParen "(".toList], .node .block []]]]

/-- C96 with one token between the node and the edit would be wrong: `a.` is a node of `function a.b (` and not of
`function a.b .c(`, although `b` ends before the place where they differ. -/
theorem C96_one_token_is_not_enough : ∃ a b b' t t' es es' off g lo hi,
    parseText (a ++ b) = .ok (t, es) ∧ parseText (a ++ b') = .ok (t', es') ∧
    RealToken (a ++ b) lo hi ∧ off + Green.len g ≤ lo ∧ hi < Text.len a ∧
    (∃ r, Below (Red.root t) r ∧ r.off = off ∧ r.green = g) ∧ ¬ (∃ r, Below (Red.root t') r ∧ r.off = off ∧ r.green = g) := by
  have h : (parseText ("function a.b ".toList ++ "(".toList)).toOption.map (·.1) = some path1 := by
    rw [parseText_eq_eval]; decide +kernel
  have h' : (parseText ("function a.b ".toList ++ ".c(".toList)).toOption.map (·.1) = some path2 := by
    rw [parseText_eq_eval]; decide +kernel
  have ht : tokenize ("function a.b ".toList ++ "(".toList) = .ok
      ([⟨.functionKw, 8⟩, ⟨.whitespace, 1⟩, ⟨.ident, 1⟩, ⟨.dot, 1⟩, ⟨.ident, 1⟩, ⟨.whitespace, 1⟩, ⟨.lParen, 1⟩], []) := by
    decide +kernel
  cases e : parseText ("function a.b ".toList ++ "(".toList) with
  | error => rw [e] at h; cases h
  | ok p =>
    cases e' : parseText ("function a.b ".toList ++ ".c(".toList) with
    | error => rw [e'] at h'; cases h'
    | ok p' =>
      rw [e] at h
      rw [e'] at h'
      simp only [Except.toOption, Option.map_some, Option.some.injEq] at h h'
      refine ⟨"function a.b ".toList, "(".toList, ".c(".toList, p.1, p'.1, p.2, p'.2, 9,
        .node .indexPath [.node .nameRef [.token .ident "a".toList], .token .dot ".".toList], 11, 12, e, e',
        ⟨_, _, .ident, ht, by decide, rfl⟩, by decide, by decide, ?_, ?_⟩
      · rw [h]
        exact ((mem_nodesAt 9 _ (Red.root path1)).1 (by decide)).2
      · rw [h']
        rintro hr
        have := (mem_nodesAt 9 (.node .indexPath [.node .nameRef [.token .ident "a".toList], .token .dot ".".toList])
          (Red.root path2)).2 ⟨rfl, hr⟩
        revert this
        decide

/-- C96 does not hold for the checks made after parsing: what is wrong with `f()` here is the `=` at the end. -/
theorem C96_checks_look_further : ∃ a b b' t t' es es' p, sourceFileParse (a ++ b) = .ok (t, es) ∧
    sourceFileParse (a ++ b') = .ok (t', es') ∧ Settled (a ++ b) (Text.len a) p ∧
    es.filter (fun e => e.range.stop ≤ p) ≠ es'.filter (fun e => e.range.stop ≤ p) := by
  have h : (sourceFileParse ("f(),b,c ".toList ++ "= 1".toList)).toOption.map (·.2) = some
      [⟨"Can only assign name reference or index expression", ⟨0, 3⟩⟩] := by
    rw [sourceFileParse_eq_eval]; decide +kernel
  have h' : (sourceFileParse ("f(),b,c ".toList ++ "".toList)).toOption.map (·.2) = some
      [⟨"Expression statements can only be call expressions", ⟨4, 5⟩⟩,
        ⟨"Expression statements can only be call expressions", ⟨6, 7⟩⟩] := by
    rw [sourceFileParse_eq_eval]; decide +kernel
  have ht : tokenize ("f(),b,c ".toList ++ "= 1".toList) = .ok
      ([⟨.ident, 1⟩, ⟨.lParen, 1⟩, ⟨.rParen, 1⟩, ⟨.comma, 1⟩, ⟨.ident, 1⟩, ⟨.comma, 1⟩, ⟨.ident, 1⟩, ⟨.whitespace, 1⟩,
        ⟨.eq, 1⟩, ⟨.whitespace, 1⟩, ⟨.number, 1⟩], []) := by decide +kernel
  cases e : sourceFileParse ("f(),b,c ".toList ++ "= 1".toList) with
  | error => rw [e] at h; cases h
  | ok p =>
    cases e' : sourceFileParse ("f(),b,c ".toList ++ "".toList) with
    | error => rw [e'] at h'; cases h'
    | ok p' =>
      rw [e] at h
      rw [e'] at h'
      simp only [Except.toOption, Option.map_some, Option.some.injEq] at h h'
      refine ⟨"f(),b,c ".toList, "= 1".toList, "".toList, p.1, p'.1, p.2, p'.2, 3, e, e',
        ⟨3, 4, 4, 5, ⟨_, _, .comma, ht, by decide, rfl⟩, ⟨_, _, .ident, ht, by decide, rfl⟩, by decide, by decide,
          by decide⟩, ?_⟩
      rw [h, h']
      decide

/-- C96: the token that touches the edit may change. -/
example : (∃ es, tokenize ("x".toList ++ " ".toList) = .ok ([⟨.ident, 1⟩, ⟨.whitespace, 1⟩], es)) ∧
    (∃ es, tokenize ("x".toList ++ "y".toList) = .ok ([⟨.ident, 2⟩], es)) :=
  ⟨⟨[], by decide +kernel⟩, ⟨[], by decide +kernel⟩⟩

end Verif
