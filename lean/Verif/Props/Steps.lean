import Verif.Proof.CostGrammar
import Verif.Props.ParseText
import Verif.Proof.Decide

/-
C92: the work of the parser, its callbacks and the tree it builds grow linearly with the file.
-/
set_option linter.unusedSimpArgs false
namespace Verif
open PTree Lexer

/-! ### events -/

private def isLive : Event → Bool
  | .start k _ => k != .tombstone
  | _ => true

private def live (evs : List Event) : Nat := (evs.filter isLive).length

private theorem live_le (evs : List Event) : live evs ≤ evs.length := List.length_filter_le _ _

private theorem live_set : ∀ (evs : List Event) (i : Nat) (k fp), evs[i]? = some (.start k fp) →
    live (evs.set i Event.tombstone) + (if k ≠ .tombstone then 1 else 0) = live evs := by
  intro evs
  induction evs with
  | nil => intro i k fp h; simp at h
  | cons e es ih =>
    intro i k fp h
    cases i with
    | zero =>
      simp at h; subst h
      by_cases hk : k = .tombstone <;> simp [live, isLive, Event.tombstone, List.filter_cons, hk]
    | succ i =>
      simp at h
      have := ih i k fp h
      simp only [List.set_cons_succ]
      simp only [live, List.filter_cons] at this ⊢
      by_cases he : isLive e = true <;> by_cases hk : k = .tombstone <;> simp [he, hk] at this ⊢ <;> omega

private theorem walk_live : ∀ n off fp evs acc kinds evs', walkParents n off fp evs acc = .ok (kinds, evs') →
    kinds.length + live evs' ≤ acc.length + live evs := by
  intro n
  induction n with
  | zero =>
    intro off fp evs acc kinds evs' h
    cases fp <;> simp [walkParents] at h
    obtain ⟨rfl, rfl⟩ := h; omega
  | succ n ih =>
    intro off fp evs acc kinds evs' h
    cases fp with
    | none => simp [walkParents] at h; obtain ⟨rfl, rfl⟩ := h; omega
    | some f =>
      unfold walkParents at h
      split at h
      · simp at h; obtain ⟨rfl, rfl⟩ := h; omega
      · split at h
        · rename_i k fp' heq
          have h1 := ih _ _ _ _ _ _ h
          have h2 := live_set _ _ _ _ heq
          by_cases hk : k = .tombstone
          · simp [hk] at h1 h2; omega
          · simp [hk] at h1 h2; omega
        · simp at h

/-- the sink gets at most one call for every event -/
private theorem process_live (evs : List Event) : ∀ cs, processEvents evs = .ok cs → cs.length ≤ live evs := by
  fun_induction processEvents evs with
  | case1 => intro cs h; simp at h; subst h; simp
  | case2 fp rest ih => intro cs h; have := ih cs h; simpa [live, isLive, List.filter_cons] using this
  | case3 => intro cs h; simp at h
  | case4 => intro cs h; simp at h
  | case5 kind fp rest hk kinds rest' hw _ cs' hp ih =>
    intro cs h
    simp at h; subst h
    have h1 := walk_live _ _ _ _ _ _ _ hw
    have h2 := ih cs' hp
    simp [live, isLive, List.filter_cons, hk] at h1 h2 ⊢
    omega
  | case6 e rest ih =>
    intro cs h
    cases hp : processEvents rest with
    | error e => rw [hp] at h; simp [Except.map] at h
    | ok c => rw [hp] at h; simp [Except.map] at h; subst h; have := ih c hp; simp [live, isLive, List.filter_cons] at this ⊢; omega
  | case7 rest ih =>
    intro cs h
    cases hp : processEvents rest with
    | error e => rw [hp] at h; simp [Except.map] at h
    | ok c => rw [hp] at h; simp [Except.map] at h; subst h; have := ih c hp; simp [live, isLive, List.filter_cons] at this ⊢; omega
  | case8 rest ih =>
    intro cs h
    cases hp : processEvents rest with
    | error e => rw [hp] at h; simp [Except.map] at h
    | ok c => rw [hp] at h; simp [Except.map] at h; subst h; have := ih c hp; simp [live, isLive, List.filter_cons] at this ⊢; omega
  | case9 rest ih =>
    intro cs h
    cases hp : processEvents rest with
    | error e => rw [hp] at h; simp [Except.map] at h
    | ok c => rw [hp] at h; simp [Except.map] at h; subst h; have := ih c hp; simp [live, isLive, List.filter_cons] at this ⊢; omega
  | case10 e rest ih =>
    intro cs h
    cases hp : processEvents rest with
    | error e => rw [hp] at h; simp [Except.map] at h
    | ok c => rw [hp] at h; simp [Except.map] at h; subst h; have := ih c hp; simp [live, isLive, List.filter_cons] at this ⊢; omega

/-- a step adds at most one event -/
private theorem steps_events {α : Type} (p : Prog α) : ∀ s a s', p.run s = .ok (a, s') →
    s'.events.length ≤ s.events.length + p.steps s := by
  induction p with
  | pure a => intro s a s' h; simp [Prog.run] at h; simp [h]
  | nth n k ih =>
    intro s a s' h; simp only [Prog.run] at h
    have := ih _ _ _ _ h; simp only [Prog.steps]; omega
  | advance k ih =>
    intro s a s' h; simp only [Prog.run] at h; simp only [Prog.steps]
    split at h
    · rename_i hc; have := ih _ _ _ _ h; simp at this; rw [if_pos hc]; omega
    · rename_i hc; have := ih _ _ _ _ h; simp at this; rw [if_neg hc]; omega
  | start k ih =>
    intro s a s' h; simp only [Prog.run] at h
    have := ih _ _ _ _ h; simp only [Prog.steps]; simp at this; omega
  | startError k ih =>
    intro s a s' h; simp only [Prog.run] at h
    have := ih _ _ _ _ h; simp only [Prog.steps]; simp at this; omega
  | complete m kd k ih =>
    intro s a s' h; simp only [Prog.run] at h; simp only [Prog.steps]
    split at h
    · rename_i hc; have := ih _ _ _ h; simp only [hc]; simp at this; omega
    · simp at h
  | precede c k ih =>
    intro s a s' h; simp only [Prog.run] at h; simp only [Prog.steps]
    split at h
    · rename_i hc; have := ih _ _ _ _ h; simp only [hc]; simp at this; omega
    · simp at h
  | completeError m e k ih =>
    intro s a s' h; simp only [Prog.run] at h; simp only [Prog.steps]
    split at h
    · rename_i hc; have := ih _ _ _ h; simp only [hc]; simp at this; omega
    · simp at h
  | error e k ih =>
    intro s a s' h; simp only [Prog.run] at h
    have := ih _ _ _ h; simp only [Prog.steps]; simp at this; omega
  | panic => intro s a s' h; simp [Prog.run] at h
  | outOfFuel => intro s a s' h; simp [Prog.run] at h

/-- **C92**: parsing a file of `n` tokens finishes within `100 * n + 5` calls of the parser's API (each of which takes
constant time) and makes at most that many callbacks: no input, however malformed, makes recovery go back or loop. -/
theorem C92_steps (toks : List SyntaxKind) (h : SyntaxKind.eof ∉ toks) :
    ∃ cs, parseKinds toks = .ok cs ∧
      (Grammar.root (2 * toks.length + 3)).steps { toks := toks, events := [] } ≤ 100 * toks.length + 5 ∧
      cs.length ≤ 100 * toks.length + 5 := by
  obtain ⟨ts, h1, -⟩ := parseKinds_main toks h
  refine ⟨_, h1, ?_⟩
  unfold parseKinds at h1
  cases hr : (Grammar.root (2 * toks.length + 3)).run { toks := toks, events := [] } with
  | error e => rw [hr] at h1; simp at h1
  | ok r =>
    obtain ⟨u, s'⟩ := r
    rw [hr] at h1
    simp only at h1
    have hs : (Grammar.root (2 * toks.length + 3)).steps { toks := toks, events := [] } ≤ 100 * toks.length + 5 := by
      rcases (Cost.root (c := fun _ => True)) _ _ _ trivial hr with ⟨-, n, e, l⟩ | ⟨d, e, l⟩
      · cases e; omega
      · simp only at e
        have : rate * d + 94 ≤ 100 * toks.length + 5 := by simp only [rate]; omega
        omega
    refine ⟨hs, ?_⟩
    have h2 := steps_events _ _ _ _ hr
    have h3 := process_live _ _ h1
    have h4 := live_le s'.events
    simp at h2
    omega

/-! ### trees -/

open Green in
private theorem nodeCountL_append (a b : List Green) : nodeCountL (a ++ b) = nodeCountL a + nodeCountL b := by
  induction a with
  | nil => simp [nodeCountL]
  | cons x xs ih => simp [nodeCountL, ih]; omega

open Green in
private theorem nodeCountL_leaf (ls : List Lx) : nodeCountL (ls.map leaf) = 0 := by
  induction ls with
  | nil => rfl
  | cons x xs ih => simp [nodeCountL, ih, leaf, nodeCount]

open Green in
private theorem nodeCountL_lead (ls : List Lx) : nodeCountL (lead ls) = 0 := nodeCountL_leaf _

mutual
private theorem place_count (n : Nat) (t : PTree) (todo : List Lx) :
    Green.nodeCountL (place n t todo).greens + (place n t todo).errs.length ≤ (calls t).length := by
  cases t with
  | tok k =>
    simp only [place, calls]
    split
    · simp [nodeCountL_lead]
    · simp [nodeCountL_append, nodeCountL_lead, Green.nodeCountL, leaf, Green.nodeCount]
  | err e => simp [place, calls, Green.nodeCountL]
  | node k cs =>
    have := placeL_count n cs (afterTriv todo)
    simp [place, calls, nodeCountL_append, nodeCountL_lead, Green.nodeCountL, Green.nodeCount]; omega
  | errNode cs e =>
    have := placeL_count n cs (afterTriv todo)
    simp [place, calls, nodeCountL_append, nodeCountL_lead, Green.nodeCountL, Green.nodeCount]; omega
private theorem placeL_count (n : Nat) (ts : List PTree) (todo : List Lx) :
    Green.nodeCountL (placeL n ts todo).greens + (placeL n ts todo).errs.length ≤ (callsL ts).length := by
  cases ts with
  | nil => simp [placeL, callsL, Green.nodeCountL]
  | cons t ts =>
    have h1 := place_count n t todo
    have h2 := placeL_count n ts (place n t todo).rest
    simp [placeL, callsL, nodeCountL_append]; omega
end

private theorem lexemes_length {text : Text} {ls : List Lexeme} (h : Lexemes text ls) : ls.length ≤ text.length := by
  induction h with
  | nil => simp
  | cons h _ ih => have := h.length_lt; simp; omega

private theorem attach_length : ∀ (ls : List Lexeme) n, (attach n ls).length = ls.length := by
  intro ls
  induction ls with
  | nil => intro n; rfl
  | cons l ls ih => intro n; simp [attach, ih]

/-- **C92**: the tree and the list of errors of a file of `n` characters have linear size. -/
theorem C92_tree (text : Text) : ∃ tree errors, parseText text = .ok (tree, errors) ∧
    tree.nodeCount ≤ 100 * text.length + 5 ∧ errors.length ≤ 101 * text.length + 5 := by
  obtain ⟨ls, ts, h1, h2, h3, h4, h5⟩ := parseText_main text
  refine ⟨_, _, h5, ?_⟩
  have hl := lexemes_length h1
  have hk : (realKinds (ls.map lxOf)).length ≤ ls.length := by
    have := List.length_filter_le (fun l => !isTriv l) (ls.map lxOf)
    simp only [realKinds, List.length_map] at this ⊢; exact this
  have hne : SyntaxKind.eof ∉ realKinds (ls.map lxOf) := by
    intro hm
    simp only [realKinds, List.mem_map] at hm
    obtain ⟨l, hl, e⟩ := hm
    exact (lexemes_lx h1).2.2.2 l (List.mem_map.mpr (by simpa using (List.mem_filter.mp hl).1)) e
  obtain ⟨cs, e1, -, e3⟩ := C92_steps _ hne
  rw [h2] at e1
  simp only [Except.ok.injEq] at e1
  subst e1
  have hp := placeL_count text.len ts (ls.map lxOf)
  simp only [calls, callsL, List.length_cons, List.length_append, List.length_nil] at e3
  simp only [Green.nodeCount, Green.nodeCountL, nodeCountL_append, nodeCountL_leaf, List.length_append]
  have hf := List.length_filterMap_le (fun x : Token × Option SyntaxError => x.2) (attach 0 ls)
  rw [attach_length] at hf
  omega

/-! ### examples: a statement and a malformed one -/

example : (Grammar.root 11).steps { toks := [.localKw, .ident, .eq, .number], events := [] } = 38 := by decide +kernel
example : (Grammar.root 13).steps { toks := [.lBrace, .endKw, .eq, .rParen, .functionKw], events := [] } = 87 := by
  decide +kernel
example : SyntaxKind.eof ∉ [SyntaxKind.lBrace, .endKw, .eq, .rParen, .functionKw] := by decide

end Verif
