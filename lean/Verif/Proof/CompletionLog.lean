import Verif.Proof.LookAhead
import Verif.Proof.ParseMain

/-
The completed pieces of a tree in the order in which the parser completes them.  A run only ever appends to this list,
and two runs over token lists with a common prefix agree on everything that is complete two tokens before the end of the
prefix.
-/
namespace Verif
open Item PTree P Grammar

/-- A completed piece: the tree, how many tokens come before it and before its end, and, for an error, whether no node
started since the last token. -/
structure Done where
  tree : PTree
  start : Nat
  stop : Nat
  fresh : Bool

namespace PTree
mutual
/-- no node started since the last token, after the tree -/
def fr (f : Bool) : PTree → Bool
  | .tok _ => true
  | .err _ => f
  | .errNode cs _ => frL false cs
  | .node _ cs => frL false cs
def frL (f : Bool) : List PTree → Bool
  | [] => f
  | t :: ts => frL (fr f t) ts
end

mutual
/-- the pieces of a tree in the order of completion -/
def log (i : Nat) (f : Bool) : PTree → List Done
  | .tok k => [⟨.tok k, i, i + 1, false⟩]
  | .err e => [⟨.err e, i, i, f⟩]
  | .errNode cs e => logL i false cs ++ [⟨.errNode cs e, i, i + (yieldL cs).length, false⟩]
  | .node k cs => logL i false cs ++ [⟨.node k cs, i, i + (yieldL cs).length, false⟩]
def logL (i : Nat) (f : Bool) : List PTree → List Done
  | [] => []
  | t :: ts => log i f t ++ logL (i + (yield t).length) (fr f t) ts
end

theorem frL_append (f : Bool) (a b : List PTree) : frL f (a ++ b) = frL (frL f a) b := by
  induction a generalizing f with
  | nil => rfl
  | cons x xs ih => simp [frL, ih]

theorem logL_append (i : Nat) (f : Bool) (a b : List PTree) :
    logL i f (a ++ b) = logL i f a ++ logL (i + (yieldL a).length) (frL f a) b := by
  induction a generalizing i f with
  | nil => simp [logL, frL, yieldL]
  | cons x xs ih => simp [logL, frL, ih, yieldL, Nat.add_assoc]

mutual
theorem log_stop (i : Nat) (f : Bool) (t : PTree) : ∀ d ∈ log i f t, d.stop ≤ i + (yield t).length := by
  cases t with
  | tok k => simp [log, yield]
  | err e => simp [log, yield]
  | errNode cs e =>
    intro d hd
    simp only [log, List.mem_append, List.mem_singleton] at hd
    rcases hd with hd | rfl
    · simpa [yield] using logL_stop i false cs d hd
    · simp [yield]
  | node k cs =>
    intro d hd
    simp only [log, List.mem_append, List.mem_singleton] at hd
    rcases hd with hd | rfl
    · simpa [yield] using logL_stop i false cs d hd
    · simp [yield]
theorem logL_stop (i : Nat) (f : Bool) (ts : List PTree) : ∀ d ∈ logL i f ts, d.stop ≤ i + (yieldL ts).length := by
  cases ts with
  | nil => simp [logL]
  | cons t ts =>
    intro d hd
    simp only [logL, List.mem_append] at hd
    rcases hd with hd | hd
    · have := log_stop i f t d hd
      simp [yieldL]; omega
    · have := logL_stop _ _ ts d hd
      simp [yieldL]; omega
end

/-- a node that starts clears the mark, so whether it was set before does not matter -/
theorem logL_head {ts : List PTree} (h : ∃ k cs rest, ts = .node k cs :: rest) (i : Nat) (f g : Bool) :
    logL i f ts = logL i g ts ∧ frL f ts = frL g ts := by
  obtain ⟨k, cs, rest, rfl⟩ := h
  simp [logL, log, frL, fr]

end PTree

/-! ### the pieces in a state of the parser -/

/-- number of tokens and the mark after the open nodes -/
def stackAt : List Frame → Nat × Bool
  | [] => (0, true)
  | f :: st => ((stackAt st).1 + (yieldL (toTreeL f.outer.reverse)).length + (yieldL (toTreeL f.before)).length,
      frL false (toTreeL f.before))

def stackLog : List Frame → List Done
  | [] => []
  | f :: st =>
    let s := stackAt st
    stackLog st ++ logL s.1 s.2 (toTreeL f.outer.reverse) ++
      logL (s.1 + (yieldL (toTreeL f.outer.reverse)).length) false (toTreeL f.before)

/-- the tokens consumed so far -/
def FState.count (s : FState) : Nat := (stackAt s.stack).1 + (yieldL (toTreeL s.cur.reverse)).length

/-- everything completed so far -/
def FState.log (s : FState) : List Done :=
  stackLog s.stack ++ logL (stackAt s.stack).1 (stackAt s.stack).2 (toTreeL s.cur.reverse)

theorem stackLog_stop (st : List Frame) : ∀ d ∈ stackLog st, d.stop ≤ (stackAt st).1 := by
  induction st with
  | nil => simp [stackLog]
  | cons f st ih =>
    intro d hd
    simp only [stackLog, List.mem_append] at hd
    rcases hd with (hd | hd) | hd
    · have := ih d hd; simp only [stackAt]; omega
    · have := logL_stop _ _ _ d hd; simp only [stackAt]; omega
    · have := logL_stop _ _ _ d hd; simp only [stackAt]; omega

theorem FState.log_stop (s : FState) : ∀ d ∈ s.log, d.stop ≤ s.count := by
  intro d hd
  simp only [FState.log, List.mem_append] at hd
  rcases hd with hd | hd
  · have := stackLog_stop _ d hd; simp only [FState.count]; omega
  · exact logL_stop _ _ _ d hd

/-- one more piece at the end of the current node -/
private theorem log_push (s : FState) (i : Item) (toks : List SyntaxKind) (ev : Nat) :
    FState.log ⟨toks, ev, i :: s.cur, s.stack⟩ = s.log ++
      PTree.log s.count (frL (stackAt s.stack).2 (toTreeL s.cur.reverse)) (toTree i) ∧
    FState.count ⟨toks, ev, i :: s.cur, s.stack⟩ = s.count + (PTree.yield (toTree i)).length := by
  refine ⟨?_, ?_⟩
  · simp only [FState.log, FState.count, List.reverse_cons, toTreeL_append, logL_append, List.append_assoc]
    simp [toTreeL, logL]
  · simp only [FState.count, List.reverse_cons, toTreeL_append, yieldL_append]
    simp [toTreeL, yieldL]; omega

private theorem log_open (s : FState) (toks : List SyntaxKind) (ev pos : Nat) (b : Bool) :
    FState.log ⟨toks, ev, [], ⟨pos, b, [], s.cur⟩ :: s.stack⟩ = s.log ∧
    FState.count ⟨toks, ev, [], ⟨pos, b, [], s.cur⟩ :: s.stack⟩ = s.count := by
  constructor <;> simp [FState.log, FState.count, stackLog, stackAt, toTreeL, logL, yieldL]

private theorem log_precede {s : FState} {cm : Nat} {bf outer : List Item}
    (h : splitNode cm s.cur [] = some (bf, outer)) (toks : List SyntaxKind) (ev pos : Nat) (b : Bool) :
    FState.log ⟨toks, ev, [], ⟨pos, b, bf, outer⟩ :: s.stack⟩ = s.log ∧
    FState.count ⟨toks, ev, [], ⟨pos, b, bf, outer⟩ :: s.stack⟩ = s.count := by
  obtain ⟨k, b', a, post, rfl, e⟩ := splitNode_spec h
  simp only [List.append_nil] at e
  have hd := logL_head (ts := toTreeL (.node cm k b' a :: post)) ⟨_, _, _, by simp only [toTreeL, toTree]; rfl⟩
  constructor
  · simp only [FState.log, stackLog, ← e, toTreeL_append, logL_append]
    rw [(hd _ false (frL (stackAt s.stack).2 (toTreeL outer.reverse))).1]
    simp [toTreeL, logL]
  · simp only [FState.count, stackAt, ← e, toTreeL_append, yieldL_append]
    simp [toTreeL, yieldL]; omega

private theorem log_close (toks toks' : List SyntaxKind) (ev ev' pos : Nat) (cur bf outer : List Item) (b : Bool)
    (st : List Frame) (i : Item) (hi : ∃ cs, cs = toTreeL bf ++ toTreeL cur.reverse ∧
      ((∃ k, toTree i = .node k cs) ∨ (∃ e, toTree i = .errNode cs e)))  :
    FState.log ⟨toks', ev', i :: outer, st⟩ = FState.log ⟨toks, ev, cur, ⟨pos, b, bf, outer⟩ :: st⟩ ++
      [⟨toTree i, (stackAt st).1 + (yieldL (toTreeL outer.reverse)).length,
        FState.count ⟨toks, ev, cur, ⟨pos, b, bf, outer⟩ :: st⟩, false⟩] ∧
    FState.count ⟨toks', ev', i :: outer, st⟩ = FState.count ⟨toks, ev, cur, ⟨pos, b, bf, outer⟩ :: st⟩ := by
  obtain ⟨cs, hcs, hi⟩ := hi
  have hy : PTree.yield (toTree i) = yieldL (toTreeL bf) ++ yieldL (toTreeL cur.reverse) := by
    rcases hi with ⟨k, e⟩ | ⟨k, e⟩ <;> simp [e, PTree.yield, hcs]
  have hl : ∀ n f, PTree.log n f (toTree i) = logL n false cs ++
      [⟨toTree i, n, n + (yieldL cs).length, false⟩] := by
    intro n f
    rcases hi with ⟨k, e⟩ | ⟨k, e⟩ <;> simp [e, PTree.log]
  constructor
  · simp only [FState.log, FState.count, List.reverse_cons, toTreeL_append, logL_append, stackLog, stackAt]
    simp only [toTreeL, logL, hl, hcs, logL_append, List.append_assoc, List.append_nil]
    simp [Nat.add_assoc]
  · simp only [FState.count, List.reverse_cons, toTreeL_append, yieldL_append, stackAt]
    simp [toTreeL, yieldL, hy]; omega

/-! ### runs -/

/-- open error nodes did not take over anything -/
def Tame : List Frame → Prop
  | [] => True
  | f :: st => (f.isErr = true → f.before = []) ∧ Tame st

/-- A run appends pieces that end where the parser is or later. -/
theorem run_log {α : Type} (p : Prog α) : ∀ (s : FState) (a : α) (s' : FState), Tame s.stack →
    p.runF s = .ok (a, s') →
    ∃ new, s'.log = s.log ++ new ∧ (∀ d ∈ new, s.count ≤ d.stop) ∧ s.count ≤ s'.count := by
  induction p with
  | pure a =>
    intro s a' s' hg h
    simp [Prog.runF] at h
    obtain ⟨rfl, rfl⟩ := h
    exact ⟨[], by simp, by simp, Nat.le_refl _⟩
  | nth n k ih => intro s a s' hg h; exact ih _ s a s' hg h
  | advance k ih =>
    intro s a s' hg h
    simp only [Prog.runF] at h
    split at h
    · simp at h
    · obtain ⟨new, h1, h2, h3⟩ := ih _ _ a s' (by exact hg) h
      obtain ⟨e1, e2⟩ := log_push s (.tok (lookahead s.toks 0)) s.toks.tail (s.ev + 1)
      rw [e1] at h1
      rw [e2] at h2 h3
      refine ⟨_, by rw [h1, List.append_assoc], ?_, by simp [toTree, PTree.yield] at h3; omega⟩
      intro d hd
      simp only [List.mem_append, toTree, PTree.log, List.mem_singleton] at hd
      rcases hd with rfl | hd
      · simp
      · have := h2 d hd; omega
  | start k ih =>
    intro s a s' hg h
    simp only [Prog.runF] at h
    obtain ⟨new, h1, h2, h3⟩ := ih _ _ a s' (show Tame (_ :: _) from ⟨fun _ => rfl, hg⟩) h
    obtain ⟨e1, e2⟩ := log_open s s.toks (s.ev + 1) s.ev false
    rw [e1] at h1
    rw [e2] at h2 h3
    exact ⟨new, h1, h2, h3⟩
  | startError k ih =>
    intro s a s' hg h
    simp only [Prog.runF] at h
    obtain ⟨new, h1, h2, h3⟩ := ih _ _ a s' (show Tame (_ :: _) from ⟨fun _ => rfl, hg⟩) h
    obtain ⟨e1, e2⟩ := log_open s s.toks (s.ev + 1) s.ev true
    rw [e1] at h1
    rw [e2] at h2 h3
    exact ⟨new, h1, h2, h3⟩
  | complete m kind k ih =>
    intro s a s' hg h
    obtain ⟨toks, ev, cur, st⟩ := s
    cases st with
    | nil => simp [Prog.runF] at h
    | cons fr st =>
      obtain ⟨pos, isErr, bf, outer⟩ := fr
      cases isErr with
      | true => simp [Prog.runF] at h
      | false =>
        simp only [Prog.runF] at h
        split at h
        · obtain ⟨new, h1, h2, h3⟩ := ih _ a s' hg.2 h
          obtain ⟨e1, e2⟩ := log_close toks toks ev (ev + 1) pos cur bf outer false st
            (.node pos kind bf cur.reverse) ⟨_, rfl, .inl ⟨kind, by simp [toTree]⟩⟩
          rw [e1] at h1
          rw [e2] at h2 h3
          refine ⟨_, by rw [h1, List.append_assoc], ?_, h3⟩
          intro d hd
          simp only [List.mem_append, List.mem_singleton] at hd
          rcases hd with rfl | hd
          · exact Nat.le_refl _
          · exact h2 d hd
        · simp at h
  | precede cm k ih =>
    intro s a s' hg h
    simp only [Prog.runF] at h
    split at h
    · rename_i bf outer hs
      obtain ⟨new, h1, h2, h3⟩ := ih _ _ a s' (show Tame (_ :: _) from ⟨fun e => by simp at e, hg⟩) h
      obtain ⟨e1, e2⟩ := log_precede hs s.toks (s.ev + 1) s.ev false
      rw [e1] at h1
      rw [e2] at h2 h3
      exact ⟨new, h1, h2, h3⟩
    · simp at h
  | completeError m e k ih =>
    intro s a s' hg h
    obtain ⟨toks, ev, cur, st⟩ := s
    cases st with
    | nil => simp [Prog.runF] at h
    | cons fr st =>
      obtain ⟨pos, isErr, bf, outer⟩ := fr
      cases isErr with
      | false => simp [Prog.runF] at h
      | true =>
        simp only [Prog.runF] at h
        split at h
        · obtain ⟨new, h1, h2, h3⟩ := ih _ a s' hg.2 h
          have hb : bf = [] := hg.1 rfl
          subst hb
          obtain ⟨e1, e2⟩ := log_close toks toks ev (ev + 1) pos cur [] outer true st
            (.errNode cur.reverse e) ⟨_, rfl, .inr ⟨e, by simp [toTree, toTreeL]⟩⟩
          rw [e1] at h1
          rw [e2] at h2 h3
          refine ⟨_, by rw [h1, List.append_assoc], ?_, h3⟩
          intro d hd
          simp only [List.mem_append, List.mem_singleton] at hd
          rcases hd with rfl | hd
          · exact Nat.le_refl _
          · exact h2 d hd
        · simp at h
  | error e k ih =>
    intro s a s' hg h
    simp only [Prog.runF] at h
    obtain ⟨new, h1, h2, h3⟩ := ih _ a s' (by exact hg) h
    obtain ⟨e1, e2⟩ := log_push s (.err e) s.toks (s.ev + 1)
    rw [e1] at h1
    rw [e2] at h2 h3
    refine ⟨_, by rw [h1, List.append_assoc], ?_, by simp [toTree, PTree.yield] at h3; omega⟩
    intro d hd
    simp only [List.mem_append, toTree, PTree.log, List.mem_singleton] at hd
    rcases hd with rfl | hd
    · simp
    · have := h2 d hd; omega
  | panic => intro s a s' hg h; simp [Prog.runF] at h
  | outOfFuel => intro s a s' hg h; simp [Prog.runF] at h

/-- Two runs over tokens with a common part that is at least two tokens long complete the same pieces up to two tokens
before its end. -/
theorem run_common {α : Type} (p : Prog α) (hp : p.Look) : ∀ (com r1 r2 : List SyntaxKind) (ev : Nat) (cur : List Item)
    (st : List Frame) (a1 a2 : α) (s1 s2 : FState), Tame st → 2 ≤ com.length →
    p.runF ⟨com ++ r1, ev, cur, st⟩ = .ok (a1, s1) → p.runF ⟨com ++ r2, ev, cur, st⟩ = .ok (a2, s2) →
    ∀ c, c + 2 = FState.count ⟨[], ev, cur, st⟩ + com.length →
    s1.log.filter (fun d => d.stop ≤ c) = s2.log.filter (fun d => d.stop ≤ c) := by
  have la : ∀ (n : Nat) (com r1 r2 : List SyntaxKind), n < com.length →
      lookahead (com ++ r1) n = lookahead (com ++ r2) n := by
    intro n com r1 r2 h
    simp [lookahead, List.getD, List.getElem?_append_left h]
  induction p with
  | pure a =>
    intro com r1 r2 ev cur st a1 a2 s1 s2 hg hc h1 h2 c hn
    simp [Prog.runF] at h1 h2
    obtain ⟨-, rfl⟩ := h1
    obtain ⟨-, rfl⟩ := h2
    rfl
  | nth n k ih =>
    intro com r1 r2 ev cur st a1 a2 s1 s2 hg hc h1 h2 c hn
    simp only [Prog.runF] at h1 h2
    rw [la n com r2 r1 (by have := hp.1; omega)] at h2
    exact ih _ (hp.2 _) com r1 r2 ev cur st a1 a2 s1 s2 hg hc h1 h2 c hn
  | advance k ih =>
    intro com r1 r2 ev cur st a1 a2 s1 s2 hg hc h1 h2 c hn
    simp only [Prog.runF] at h1 h2
    rw [la 0 com r2 r1 (by omega)] at h2
    split at h1
    · simp at h1
    · rename_i hne
      rw [if_neg hne] at h2
      cases com with
      | nil => simp at hc
      | cons x com =>
        simp only [List.cons_append, List.tail_cons] at h1 h2
        have e0 : ∀ r, lookahead (x :: r) 0 = x := fun r => rfl
        simp only [e0] at h1 h2
        obtain ⟨e1, e2⟩ := log_push ⟨[], ev, cur, st⟩ (.tok x) [] (ev + 1)
        by_cases hl : 2 ≤ com.length
        · refine ih _ (hp _) com r1 r2 (ev + 1) (.tok x :: cur) st a1 a2 s1 s2 hg hl h1 h2 c ?_
          rw [e2, hn]
          simp [toTree, PTree.yield]; omega
        · -- past the common part: everything new ends too late
          simp only [List.length_cons] at hn hc
          have hlate : ∀ (r : List SyntaxKind) (a : α) (s : FState),
              (k true).runF ⟨r, ev + 1, .tok x :: cur, st⟩ = .ok (a, s) →
              s.log.filter (fun d => d.stop ≤ c) = (FState.log ⟨[], ev, cur, st⟩).filter (fun d => d.stop ≤ c) := by
            intro r a s h
            obtain ⟨new, n1, n2, -⟩ := run_log _ _ a s hg h
            obtain ⟨e1, e2⟩ := log_push ⟨[], ev, cur, st⟩ (.tok x) r (ev + 1)
            rw [n1, e1, List.append_assoc, List.filter_append]
            have : ((PTree.log (FState.count ⟨[], ev, cur, st⟩)
                (frL (stackAt st).2 (toTreeL cur.reverse)) (toTree (.tok x)) ++ new).filter
                  (fun d => d.stop ≤ c)) = [] := by
              rw [List.filter_eq_nil_iff]
              intro d hd
              simp only [List.mem_append, toTree, PTree.log, List.mem_singleton] at hd
              rcases hd with rfl | hd
              · simp; omega
              · have := n2 d hd
                rw [e2] at this
                simp [toTree, PTree.yield] at this ⊢
                omega
            simp only [this, List.append_nil]
          rw [hlate _ _ _ h1, hlate _ _ _ h2]
  | start k ih =>
    intro com r1 r2 ev cur st a1 a2 s1 s2 hg hc h1 h2 c hn
    simp only [Prog.runF] at h1 h2
    refine ih _ (hp _) com r1 r2 _ _ _ a1 a2 s1 s2 (show Tame (_ :: _) from ⟨fun _ => rfl, hg⟩) hc h1 h2 c ?_
    rw [(log_open ⟨[], ev, cur, st⟩ [] (ev + 1) ev false).2, hn]
  | startError k ih =>
    intro com r1 r2 ev cur st a1 a2 s1 s2 hg hc h1 h2 c hn
    simp only [Prog.runF] at h1 h2
    refine ih _ (hp _) com r1 r2 _ _ _ a1 a2 s1 s2 (show Tame (_ :: _) from ⟨fun _ => rfl, hg⟩) hc h1 h2 c ?_
    rw [(log_open ⟨[], ev, cur, st⟩ [] (ev + 1) ev true).2, hn]
  | complete m kind k ih =>
    intro com r1 r2 ev cur st a1 a2 s1 s2 hg hc h1 h2 c hn
    cases st with
    | nil => simp [Prog.runF] at h1
    | cons fr st =>
      obtain ⟨pos, isErr, bf, outer⟩ := fr
      cases isErr with
      | true => simp [Prog.runF] at h1
      | false =>
        simp only [Prog.runF] at h1 h2
        split at h1
        · rename_i hm
          rw [if_pos hm] at h2
          refine ih hp com r1 r2 _ _ _ a1 a2 s1 s2 hg.2 hc h1 h2 c ?_
          rw [(log_close [] [] ev (ev + 1) pos cur bf outer false st
            (.node pos kind bf cur.reverse) ⟨_, rfl, .inl ⟨kind, by simp [toTree]⟩⟩).2, hn]
        · simp at h1
  | precede cm k ih =>
    intro com r1 r2 ev cur st a1 a2 s1 s2 hg hc h1 h2 c hn
    simp only [Prog.runF] at h1 h2
    split at h1
    · rename_i bf outer hs
      rw [hs] at h2
      simp only at h2
      refine ih _ (hp _) com r1 r2 _ _ _ a1 a2 s1 s2 (show Tame (_ :: _) from ⟨fun e => by simp at e, hg⟩) hc
        h1 h2 c ?_
      rw [(log_precede (s := ⟨[], ev, cur, st⟩) hs [] (ev + 1) ev false).2, hn]
    · simp at h1
  | completeError m e k ih =>
    intro com r1 r2 ev cur st a1 a2 s1 s2 hg hc h1 h2 c hn
    cases st with
    | nil => simp [Prog.runF] at h1
    | cons fr st =>
      obtain ⟨pos, isErr, bf, outer⟩ := fr
      cases isErr with
      | false => simp [Prog.runF] at h1
      | true =>
        simp only [Prog.runF] at h1 h2
        split at h1
        · rename_i hm
          rw [if_pos hm] at h2
          have hb : bf = [] := hg.1 rfl
          subst hb
          refine ih hp com r1 r2 _ _ _ a1 a2 s1 s2 hg.2 hc h1 h2 c ?_
          rw [(log_close [] [] ev (ev + 1) pos cur [] outer true st
            (.errNode cur.reverse e) ⟨_, rfl, .inr ⟨e, by simp [toTree, toTreeL]⟩⟩).2, hn]
        · simp at h1
  | error e k ih =>
    intro com r1 r2 ev cur st a1 a2 s1 s2 hg hc h1 h2 c hn
    simp only [Prog.runF] at h1 h2
    refine ih hp com r1 r2 _ _ _ a1 a2 s1 s2 hg hc h1 h2 c ?_
    rw [(log_push ⟨[], ev, cur, st⟩ (.err e) [] (ev + 1)).2, hn]
    simp [toTree, PTree.yield]
  | panic => intro com r1 r2 ev cur st a1 a2 s1 s2 hg hc h1 h2 c hn; simp [Prog.runF] at h1
  | outOfFuel => intro com r1 r2 ev cur st a1 a2 s1 s2 hg hc h1 h2 c hn; simp [Prog.runF] at h1

/-- Nodes that are open already do not matter. -/
theorem runF_frame {α : Type} (st0 : List Frame) (p : Prog α) : ∀ (toks : List SyntaxKind) (ev : Nat) (cur : List Item)
    (st : List Frame) (a : α) (s' : FState), p.runF ⟨toks, ev, cur, st⟩ = .ok (a, s') →
    p.runF ⟨toks, ev, cur, st ++ st0⟩ = .ok (a, { s' with stack := s'.stack ++ st0 }) := by
  induction p with
  | pure a => intro toks ev cur st a s' h; simp [Prog.runF] at h ⊢; obtain ⟨rfl, rfl⟩ := h; simp
  | nth n k ih => intro toks ev cur st a s' h; exact ih _ _ _ _ _ _ _ h
  | advance k ih =>
    intro toks ev cur st a s' h
    simp only [Prog.runF] at h ⊢
    split at h
    · simp at h
    · rename_i hn
      rw [if_neg hn]
      exact ih _ _ _ _ _ _ _ h
  | start k ih => intro toks ev cur st a s' h; exact ih _ _ _ _ _ _ _ h
  | startError k ih => intro toks ev cur st a s' h; exact ih _ _ _ _ _ _ _ h
  | complete m kind k ih =>
    intro toks ev cur st a s' h
    cases st with
    | nil => simp [Prog.runF] at h
    | cons fr st =>
      obtain ⟨pos, isErr, bf, outer⟩ := fr
      cases isErr with
      | true => simp [Prog.runF] at h
      | false =>
        simp only [Prog.runF, List.cons_append] at h ⊢
        split at h
        · rename_i hm
          rw [if_pos hm]
          exact ih _ _ _ _ _ _ h
        · simp at h
  | precede cm k ih =>
    intro toks ev cur st a s' h
    simp only [Prog.runF] at h ⊢
    split at h
    · exact ih _ _ _ _ _ _ _ h
    · simp at h
  | completeError m e k ih =>
    intro toks ev cur st a s' h
    cases st with
    | nil => simp [Prog.runF] at h
    | cons fr st =>
      obtain ⟨pos, isErr, bf, outer⟩ := fr
      cases isErr with
      | false => simp [Prog.runF] at h
      | true =>
        simp only [Prog.runF, List.cons_append] at h ⊢
        split at h
        · rename_i hm
          rw [if_pos hm]
          exact ih _ _ _ _ _ _ h
        · simp at h
  | error e k ih => intro toks ev cur st a s' h; exact ih _ _ _ _ _ _ h
  | panic => intro toks ev cur st a s' h; simp [Prog.runF] at h
  | outOfFuel => intro toks ev cur st a s' h; simp [Prog.runF] at h

/-- The statements of a file, in the frame semantics and with as much fuel as one likes. -/
theorem root_runs (toks : List SyntaxKind) (hne : NE toks) (n : Nat) (hn : 2 * toks.length + 3 ≤ n) :
    ∃ ts ev items, parseKinds toks = .ok (calls (.node .sourceFile [.node .block ts])) ∧ yieldL ts = toks ∧
      toTreeL items = ts ∧
      (blockLoop (recN n) n ROOT_END n).runF ⟨toks, 2, [], []⟩ = .ok ((), ⟨[], ev, items.reverse, []⟩) := by
  have h := blockLoop_spec (recN_ok n) n ROOT_END (by simp [ROOT_END, TokenSet.contains_new]) n toks hne (by omega)
    (by omega) (by omega) 2 [] []
  rw [wpF_iff] at h
  obtain ⟨a, s', h1, items, toks', ev', rfl, h2, -, h3⟩ := h
  have hnil : toks' = [] := by
    cases toks' with
    | nil => rfl
    | cons x xs =>
      have hx : x ≠ .eof := fun e => hne (by rw [h2, e]; simp)
      simp [ROOT_END, TokenSet.contains_new, la, lookahead] at h3
      exact absurd h3 hx
  subst hnil
  have hf := runF_frame [⟨1, false, [], []⟩, ⟨0, false, [], []⟩] _ _ _ _ _ _ _ h1
  have hroot : (root n).runF ⟨toks, 0, [], []⟩ =
      .ok ((), ⟨[], ev' + 2, [Item.node 0 .sourceFile [] [Item.node 1 .block [] items]], []⟩) := by
    have : wpF (root n) ⟨toks, 0, [], []⟩ fun _ s => s =
        ⟨[], ev' + 2, [Item.node 0 .sourceFile [] [Item.node 1 .block [] items]], []⟩ := by
      simp only [root, rootBlock, blockRaw, wpF_bind, wpF_start]
      rw [wpF_iff]
      exact ⟨_, _, hf, by simp⟩
    rw [wpF_iff] at this
    obtain ⟨_, _, h, rfl⟩ := this
    exact h
  have hy : yieldL (toTreeL items) = toks := by simpa [yld] using h2.symm
  refine ⟨toTreeL items, ev', items, ?_, hy, rfl, by simpa using h1⟩
  obtain ⟨s2, h4, -, h5⟩ := run_process _ _ _ _ hroot rfl
  obtain ⟨ts, h6, h7, -⟩ := parseKinds_main toks hne
  have h8 : parseKinds toks = processEvents s2.events := by
    unfold parseKinds at h6 ⊢
    cases hr : (Grammar.root (2 * toks.length + 3)).run { toks := toks, events := [] } with
    | error e => rw [hr] at h6; simp at h6
    | ok x =>
      have := PLe.root_mono hn _ _ hr
      rw [h4] at this
      cases this
      rfl
  rw [h8, h5]
  simp [toTreeL, toTree, callsL]

/-- Token sequences with a common part: the same pieces up to two tokens before its end. -/
theorem parse_common {com r1 r2 : List SyntaxKind} (h1 : NE (com ++ r1)) (h2 : NE (com ++ r2)) (hc : 2 ≤ com.length) :
    ∃ ts1 ts2, parseKinds (com ++ r1) = .ok (calls (.node .sourceFile [.node .block ts1])) ∧
      yieldL ts1 = com ++ r1 ∧
      parseKinds (com ++ r2) = .ok (calls (.node .sourceFile [.node .block ts2])) ∧ yieldL ts2 = com ++ r2 ∧
      (logL 0 true ts1).filter (fun d => d.stop + 2 ≤ com.length) =
        (logL 0 true ts2).filter (fun d => d.stop + 2 ≤ com.length) := by
  obtain ⟨ts1, ev1, i1, a1, b1, c1, d1⟩ := root_runs _ h1
    (2 * (com ++ r1).length + 3 + (2 * (com ++ r2).length + 3)) (by omega)
  obtain ⟨ts2, ev2, i2, a2, b2, c2, d2⟩ := root_runs _ h2
    (2 * (com ++ r1).length + 3 + (2 * (com ++ r2).length + 3)) (by omega)
  have := run_common _ (Look.blockLoop (Look.recN _) _) com r1 r2 2 [] [] () () _ _ trivial hc d1 d2 (com.length - 2)
    (by simp [FState.count, stackAt, toTreeL, yieldL]; omega)
  refine ⟨ts1, ts2, a1, b1, a2, b2, ?_⟩
  simp only [FState.log, stackLog, stackAt, List.nil_append, List.reverse_reverse, c1, c2] at this
  have hf : (fun d : Done => decide (d.stop + 2 ≤ com.length)) = (fun d => decide (d.stop ≤ com.length - 2)) := by
    funext d
    exact decide_eq_decide.2 (by omega)
  rw [hf]
  exact this

end Verif
