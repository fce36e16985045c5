import Verif.Model.Sink
import Verif.Proof.ParseMain
import Verif.Proof.Lexemes

/-
What the tree sinks build from the callbacks of a tree.
-/
namespace Verif
open PTree

/-- A token with its text. -/
abbrev Lx := SyntaxKind × Text

def toksOf (ls : List Lx) : List Token := ls.map fun l => ⟨l.1, l.2.len⟩
def wordsOf (ls : List Lx) : Text := (ls.map (·.2)).flatten
def wlen (ls : List Lx) : Nat := Text.len (wordsOf ls)
def leaf (l : Lx) : Green := .token l.1 l.2
def isTriv (l : Lx) : Bool := l.1.isTrivia
/-- leading trivia and what follows them -/
def lead (ls : List Lx) : List Green := (ls.takeWhile isTriv).map leaf
def afterTriv (ls : List Lx) : List Lx := ls.dropWhile isTriv

@[simp] theorem toksOf_append (a b) : toksOf (a ++ b) = toksOf a ++ toksOf b := by simp [toksOf]
@[simp] theorem wordsOf_append (a b) : wordsOf (a ++ b) = wordsOf a ++ wordsOf b := by simp [wordsOf]
@[simp] theorem wordsOf_cons (a b) : wordsOf (a :: b) = a.2 ++ wordsOf b := by simp [wordsOf]
@[simp] theorem wordsOf_nil : wordsOf [] = [] := rfl
@[simp] theorem wlen_append (a b) : wlen (a ++ b) = wlen a + wlen b := by simp [wlen]
@[simp] theorem wlen_cons (a b) : wlen (a :: b) = a.2.len + wlen b := by simp [wlen]
@[simp] theorem wlen_nil : wlen [] = 0 := rfl

/-- Result of placing a tree over a token list. -/
structure Placed where
  greens : List Green
  errs : List SyntaxError
  rest : List Lx

mutual
/-- Where a `TextTreeSink` puts a tree's nodes and the trivia; `n` is the length of the text. -/
def place (n : Nat) : PTree → List Lx → Placed
  | .tok _, todo =>
    match afterTriv todo with
    | [] => ⟨lead todo, [], []⟩
    | l :: r => ⟨lead todo ++ [leaf l], [], r⟩
  | .err e, todo => ⟨[], [⟨e.display, Range.empty (n - wlen todo)⟩], todo⟩
  | .node k cs, todo =>
    let r := placeL n cs (afterTriv todo)
    ⟨lead todo ++ [.node k r.greens], r.errs, r.rest⟩
  | .errNode cs e, todo =>
    let r := placeL n cs (afterTriv todo)
    ⟨lead todo ++ [.node .error r.greens],
      r.errs ++ [⟨e.display, ⟨n - wlen (afterTriv todo), n - wlen r.rest⟩⟩], r.rest⟩
def placeL (n : Nat) : List PTree → List Lx → Placed
  | [], todo => ⟨[], [], todo⟩
  | t :: ts, todo =>
    let a := place n t todo
    let b := placeL n ts a.rest
    ⟨a.greens ++ b.greens, a.errs ++ b.errs, b.rest⟩
end

/-- The sink state is at the point where the tokens `todo` are left. -/
structure Here (text : Text) (tokens : List Token) (todo : List Lx) (s : Sink) : Prop where
  toks : tokens.drop s.tokenPos = toksOf todo
  txt : ∃ pre, text = pre ++ wordsOf todo ∧ pre.len = s.textPos
  rng : ∀ r ∈ s.errorRanges, r.start ≤ r.stop ∧ r.stop = s.textPos

theorem Here.pos {text tokens todo s} (h : Here text tokens todo s) : s.textPos = Text.len text - wlen todo := by
  obtain ⟨pre, rfl, h2⟩ := h.txt
  simp [wlen, h2]

theorem Here.congr {text tokens todo s s'} (h : Here text tokens todo s) (h1 : s'.tokenPos = s.tokenPos)
    (h2 : s'.textPos = s.textPos) (h3 : s'.errorRanges = s.errorRanges) : Here text tokens todo s' :=
  ⟨by rw [h1]; exact h.toks, by rw [h2]; exact h.txt, by rw [h2, h3]; exact h.rng⟩

/-- What running the callbacks of a tree does to the sink. -/
structure Built (text : Text) (tokens : List Token) (s : Sink) (p : Placed) (s' : Sink) : Prop where
  here : Here text tokens p.rest s'
  parents : s'.inner.parents = s.inner.parents
  children : s'.inner.children = s.inner.children ++ p.greens
  errors : s'.errors = s.errors ++ p.errs
  starts : s'.errorRanges.map (·.start) = s.errorRanges.map (·.start)

theorem Built.trans {text tokens s s1 s2 g1 e1 g2 e2 r1 r2} (h1 : Built text tokens s ⟨g1, e1, r1⟩ s1)
    (h2 : Built text tokens s1 ⟨g2, e2, r2⟩ s2) :
    Built text tokens s ⟨g1 ++ g2, e1 ++ e2, r2⟩ s2 :=
  ⟨h2.here, by rw [h2.parents, h1.parents], by rw [h2.children, h1.children]; simp,
    by rw [h2.errors, h1.errors]; simp, by rw [h2.starts, h1.starts]⟩

variable {text : Text} {tokens : List Token}

theorem getElem?_of_drop {α} {l m : List α} {i : Nat} (h : l.drop i = m) : l[i]? = m.head? := by
  subst h; simp

theorem doToken_eq {l todo s} (h : Here text tokens (l :: todo) s) :
    ∃ s', s.doToken text tokens = .ok s' ∧ Built text tokens s ⟨[leaf l], [], todo⟩ s' := by
  have h1 : tokens[s.tokenPos]? = some ⟨l.1, l.2.len⟩ := by
    rw [getElem?_of_drop h.toks]; rfl
  obtain ⟨pre, h2, h3⟩ := h.txt
  have h4 : text.slice s.textPos (s.textPos + l.2.len) = some l.2 := by
    rw [h2, ← h3]
    have := Text.slice_append pre l.2 (wordsOf todo)
    simpa using this
  refine ⟨{ s with
      tokenPos := s.tokenPos + 1
      textPos := s.textPos + l.2.len
      inner := s.inner.token l.1 l.2
      errorRanges := s.errorRanges.map (·.cover (Range.ofLen s.textPos l.2.len)) },
    by simp only [Sink.doToken, h1, Range.ofLen, h4], ⟨⟨?_, ?_, ?_⟩, rfl, rfl, by simp, ?_⟩⟩
  · have := h.toks
    rw [← List.drop_drop, this]; rfl
  · exact ⟨pre ++ l.2, by simp [h2], by simp [h3]⟩
  · intro r hr
    simp only [List.mem_map] at hr
    obtain ⟨r0, hr0, rfl⟩ := hr
    have := h.rng r0 hr0
    simp [Range.cover, Range.ofLen]
    omega
  · simp only [List.map_map]
    apply List.map_congr_left
    intro r hr
    have := h.rng r hr
    simp [Range.cover, Range.ofLen]
    omega

theorem eatLoop_eq {todo s} (n : Nat) (h : Here text tokens todo s) (hn : todo.length < n) :
    ∃ s', Sink.eatTriviasLoop text tokens n s = .ok s' ∧
      Built text tokens s ⟨lead todo, [], afterTriv todo⟩ s' := by
  induction todo generalizing n s with
  | nil =>
    cases n with
    | zero => simp at hn
    | succ n =>
      have h1 : tokens[s.tokenPos]? = none := by rw [getElem?_of_drop h.toks]; rfl
      exact ⟨s, by simp [Sink.eatTriviasLoop, h1], h, rfl, by simp [lead], by simp, rfl⟩
  | cons l todo ih =>
    cases n with
    | zero => simp at hn
    | succ n =>
      have h1 : tokens[s.tokenPos]? = some ⟨l.1, l.2.len⟩ := by rw [getElem?_of_drop h.toks]; rfl
      by_cases ht : isTriv l = true
      · obtain ⟨s1, h2, h3⟩ := doToken_eq h
        obtain ⟨s2, h4, h5⟩ := ih n h3.here (by simp at hn; omega)
        refine ⟨s2, ?_, ?_⟩
        · have : (!l.1.isTrivia) = false := by simpa [isTriv] using ht
          simp only [Sink.eatTriviasLoop, h1, this, h2]
          exact h4
        · have := h3.trans h5
          simpa [lead, afterTriv, ht] using this
      · refine ⟨s, ?_, ?_⟩
        · have : (!l.1.isTrivia) = true := by simpa [isTriv] using ht
          simp [Sink.eatTriviasLoop, h1, this]
        · have e1 : lead (l :: todo) = [] := by simp [lead, ht]
          have e2 : afterTriv (l :: todo) = l :: todo := by simp [afterTriv, ht]
          rw [e1, e2]
          exact ⟨h, rfl, by simp, by simp, rfl⟩

theorem eat_eq {todo s} (h : Here text tokens todo s) :
    ∃ s', s.eatTrivias text tokens = .ok s' ∧ Built text tokens s ⟨lead todo, [], afterTriv todo⟩ s' := by
  refine eatLoop_eq _ h ?_
  have := congrArg List.length h.toks
  simp [toksOf] at this
  omega

theorem afterTriv_idem (ls : List Lx) : afterTriv (afterTriv ls) = afterTriv ls ∧ lead (afterTriv ls) = [] := by
  induction ls with
  | nil => simp [afterTriv, lead]
  | cons l ls ih =>
    by_cases h : isTriv l = true
    · have : afterTriv (l :: ls) = afterTriv ls := by simp [afterTriv, h]
      rw [this]; exact ih
    · have : afterTriv (l :: ls) = l :: ls := by simp [afterTriv, h]
      rw [this]
      exact ⟨this, by simp [lead, h]⟩

/-- the kinds the parser sees -/
def realKinds (ls : List Lx) : List SyntaxKind := (ls.filter fun l => !isTriv l).map (·.1)

theorem sourceKinds_toksOf (ls : List Lx) : sourceKinds (toksOf ls) = realKinds ls := by
  induction ls with
  | nil => rfl
  | cons l ls ih =>
    simp only [sourceKinds, toksOf, realKinds, List.map_cons, List.filter_cons, isTriv] at ih ⊢
    cases l.1.isTrivia <;> simp_all

theorem realKinds_afterTriv (ls : List Lx) : realKinds (afterTriv ls) = realKinds ls := by
  induction ls with
  | nil => rfl
  | cons l ls ih =>
    by_cases h : isTriv l = true
    · have : afterTriv (l :: ls) = afterTriv ls := by simp [afterTriv, h]
      rw [this, ih]; simp [realKinds, h]
    · have : afterTriv (l :: ls) = l :: ls := by simp [afterTriv, h]
      rw [this]

theorem afterTriv_head {ls l r} (h : afterTriv ls = l :: r) : isTriv l = false := by
  have := (afterTriv_idem ls).2
  rw [h] at this
  cases ht : isTriv l
  · rfl
  · simp [lead, ht] at this

theorem afterTriv_of_kinds {ls k ks} (h : realKinds ls = k :: ks) : ∃ w r, afterTriv ls = (k, w) :: r ∧ realKinds r = ks := by
  rw [← realKinds_afterTriv] at h
  cases e : afterTriv ls with
  | nil => rw [e] at h; simp [realKinds] at h
  | cons l r =>
    have ht := afterTriv_head e
    rw [e] at h
    simp [realKinds, ht] at h
    obtain ⟨h1, h2⟩ := h
    exact ⟨l.2, r, by rw [← h1], h2⟩

theorem runCalls_append (a b : List SinkCall) (s : Sink) : Sink.runCalls text tokens (a ++ b) s =
    (Sink.runCalls text tokens a s).bind (Sink.runCalls text tokens b) := by
  induction a generalizing s with
  | nil => rfl
  | cons c cs ih =>
    simp only [List.cons_append, Sink.runCalls]
    cases Sink.step text tokens c s with
    | error e => rfl
    | ok s' => exact ih s'

theorem startNode_eq {todo s} (k : SyntaxKind) (h : Here text tokens todo s) :
    ∃ s1 s2, s.startNode text tokens k = .ok s2 ∧ Built text tokens s ⟨lead todo, [], afterTriv todo⟩ s1 ∧
      Built text tokens { s1 with inner := s1.inner.startNode k } ⟨[], [], afterTriv todo⟩ s2 := by
  obtain ⟨s1, h1, h2⟩ := eat_eq h
  obtain ⟨s2, h3, h4⟩ := eat_eq (s := { s1 with inner := s1.inner.startNode k }) (h2.here.congr rfl rfl rfl)
  refine ⟨s1, s2, ?_, h2, ?_⟩
  · simp only [Sink.startNode, h1]; exact h3
  · have := afterTriv_idem todo
    simpa [this.1, this.2] using h4

/-- `finish_node` after the children of a node have been added -/
theorem finishNode_eq {s0 s1 : Sink} {k : SyntaxKind} {p : Placed}
    (h : Built text tokens { s0 with inner := s0.inner.startNode k } p s1) :
    s1.finishNode = .ok { s1 with inner := ⟨s0.inner.parents, s0.inner.children ++ [.node k p.greens]⟩ } := by
  have h1 : s1.inner.parents = (k, s0.inner.children.length) :: s0.inner.parents := h.parents
  have h2 : s1.inner.children = s0.inner.children ++ p.greens := h.children
  simp [Sink.finishNode, Builder.finishNode, h1, h2, Except.map]

mutual
theorem run_calls (t : PTree) (todo : List Lx) (s : Sink) (ks : List SyntaxKind)
    (h : Here text tokens todo s) (hk : realKinds todo = yield t ++ ks) :
    ∃ s', Sink.runCalls text tokens (calls t) s = .ok s' ∧ Built text tokens s (place text.len t todo) s' ∧
      realKinds (place text.len t todo).rest = ks := by
  cases t with
  | tok k =>
    obtain ⟨w, r, h1, h2⟩ := afterTriv_of_kinds (ls := todo) (by simpa [PTree.yield] using hk)
    obtain ⟨s1, h3, h4⟩ := eat_eq h
    rw [h1] at h4
    obtain ⟨s2, h5, h6⟩ := doToken_eq h4.here
    refine ⟨s2, ?_, ?_, ?_⟩
    · simp only [calls, Sink.runCalls, Sink.step, Sink.token, h3, Except.bind, h5]
    · simp only [place, h1]
      exact h4.trans h6
    · simp only [place, h1]; exact h2
  | err e =>
    refine ⟨{ s with errors := s.errors ++ [⟨e.display, Range.empty s.textPos⟩] },
      by simp only [calls, Sink.runCalls, Sink.step, Sink.error, Except.bind], ⟨h.congr rfl rfl rfl, rfl, by simp [place], ?_, rfl⟩, ?_⟩
    · simp [place, h.pos]
    · simpa [place, PTree.yield] using hk
  | node k cs =>
    obtain ⟨s1, s2, h1, h2, h3⟩ := startNode_eq k h
    obtain ⟨s3, h4, h5, h6⟩ := run_callsL cs (afterTriv todo) s2 ks h3.here
      (by rw [realKinds_afterTriv]; simpa [PTree.yield] using hk)
    have h7 := h3.trans (g2 := (placeL text.len cs (afterTriv todo)).greens)
      (e2 := (placeL text.len cs (afterTriv todo)).errs) (r2 := (placeL text.len cs (afterTriv todo)).rest) h5
    have h8 := finishNode_eq h7
    refine ⟨?w, ?_, ⟨?_, ?_, ?_, ?_, ?_⟩, ?_⟩
    case w => exact { s3 with inner := ⟨s1.inner.parents, s1.inner.children ++ [.node k (placeL text.len cs (afterTriv todo)).greens]⟩ }
    · simp only [calls, Sink.runCalls, Sink.step, h1, Except.bind]
      rw [runCalls_append, h4]
      simp only [Except.bind, Sink.runCalls, Sink.step]
      rw [h8]; simp
    · exact h5.here.congr rfl rfl rfl
    · exact h2.parents
    · simp [place, h2.children]
    · have a := h7.errors; have b := h2.errors
      simp at a b
      simp [place, a, b]
    · exact h7.starts.trans h2.starts
    · simpa [place] using h6
  | errNode cs e =>
    obtain ⟨s1, s2, h1, h2, h3⟩ := startNode_eq .error h
    have hpos : s2.textPos = text.len - wlen (afterTriv todo) := h3.here.pos
    have hhere : Here text tokens (afterTriv todo) { s2 with errorRanges := Range.empty s2.textPos :: s2.errorRanges } :=
      ⟨h3.here.toks, h3.here.txt, by
        intro r hr
        simp at hr
        rcases hr with rfl | hr
        · simp [Range.empty]
        · exact h3.here.rng r hr⟩
    obtain ⟨s3, h4, h5, h6⟩ := run_callsL cs (afterTriv todo) _ ks hhere
      (by rw [realKinds_afterTriv]; simpa [PTree.yield] using hk)
    have h7 : Built text tokens { s1 with
        inner := s1.inner.startNode .error
        errorRanges := Range.empty s2.textPos :: s1.errorRanges } (placeL text.len cs (afterTriv todo)) s3 := by
      refine ⟨h5.here, h5.parents.trans h3.parents, ?_, ?_, ?_⟩
      · rw [h5.children]; simp [h3.children]
      · rw [h5.errors]; simp [h3.errors]
      · rw [h5.starts]
        have := h3.starts
        simp at this
        simp [this]
    have h8 := finishNode_eq (s0 := { s1 with errorRanges := Range.empty s2.textPos :: s1.errorRanges }) h7
    have hst := h7.starts
    cases hr : s3.errorRanges with
    | nil => rw [hr] at hst; simp at hst
    | cons r rs =>
      rw [hr] at hst
      simp [Range.empty] at hst
      have hrr := h5.here.rng r (by simp [hr])
      refine ⟨?w, ?_, ⟨?_, ?_, ?_, ?_, ?_⟩, ?_⟩
      case w => exact { s3 with
          inner := ⟨s1.inner.parents, s1.inner.children ++ [.node .error (placeL text.len cs (afterTriv todo)).greens]⟩
          errorRanges := rs
          errors := s3.errors ++ [⟨e.display, r⟩] }
      · simp only [calls, Sink.runCalls, Sink.step, Sink.startErrorNode, h1, Except.bind, Except.map]
        rw [runCalls_append, h4]
        simp only [Except.bind, Sink.runCalls, Sink.step, Sink.finishErrorNode]
        rw [h8]; simp [hr]
      · refine ⟨h5.here.toks, h5.here.txt, ?_⟩
        intro r' hr'
        exact h5.here.rng r' (by rw [hr]; exact List.mem_cons_of_mem _ hr')
      · exact h2.parents
      · simp [place, h2.children]
      · have a := h7.errors; have b := h2.errors
        simp at a b
        have c := h5.here.pos
        obtain ⟨rs1, rs2⟩ := r
        simp only at hst hrr
        rw [hpos] at hst
        rw [c] at hrr
        simp only [place, a, b, hst.1, hrr.2]
        simp
      · exact hst.2.trans h2.starts
      · simpa [place] using h6
theorem run_callsL (ts : List PTree) (todo : List Lx) (s : Sink) (ks : List SyntaxKind)
    (h : Here text tokens todo s) (hk : realKinds todo = yieldL ts ++ ks) :
    ∃ s', Sink.runCalls text tokens (callsL ts) s = .ok s' ∧ Built text tokens s (placeL text.len ts todo) s' ∧
      realKinds (placeL text.len ts todo).rest = ks := by
  cases ts with
  | nil =>
    exact ⟨s, rfl, ⟨h, rfl, by simp [placeL], by simp [placeL], rfl⟩, by simpa [placeL, yieldL] using hk⟩
  | cons t ts =>
    obtain ⟨s1, h1, h2, h3⟩ := run_calls t todo s (yieldL ts ++ ks) h (by simpa [yieldL] using hk)
    obtain ⟨s2, h4, h5, h6⟩ := run_callsL ts _ s1 ks h2.here h3
    refine ⟨s2, ?_, h2.trans h5, by simpa [placeL] using h6⟩
    simp only [callsL]
    rw [runCalls_append, h1]
    exact h4
end

/-! ### the deferring sink -/

/-- The deferring sink `d` with its pending finishes done is the sink `s`. -/
def DSim (d : DSink) (s : Sink) : Prop :=
  d.started = 2 ∧ d.finished ≤ 2 ∧ DSink.finishN d.finished d.sink = .ok s

theorem finishN_succ (n : Nat) (s : Sink) :
    DSink.finishN (n + 1) s = (DSink.finishN n s).bind Sink.finishNode := by
  induction n generalizing s with
  | zero => simp [DSink.finishN, Except.bind]; cases s.finishNode <;> rfl
  | succ n ih =>
    rw [DSink.finishN]
    cases h : s.finishNode with
    | error e => simp [DSink.finishN, h, Except.bind]
    | ok s1 =>
      simp only [Except.bind]
      rw [ih, DSink.finishN, h]
      rfl

theorem finishN_other (n : Nat) {s s' : Sink} (h : DSink.finishN n s = .ok s') :
    ∃ b, s' = { s with inner := b } := by
  induction n generalizing s with
  | zero => simp [DSink.finishN] at h; exact ⟨s.inner, by rw [← h]⟩
  | succ n ih =>
    rw [DSink.finishN] at h
    cases h1 : s.finishNode with
    | error e => simp [h1, Except.bind] at h
    | ok s1 =>
      simp [h1, Except.bind] at h
      obtain ⟨b, rfl⟩ := ih h
      simp only [Sink.finishNode] at h1
      cases h2 : s.inner.finishNode with
      | error e => simp [h2, Except.map] at h1
      | ok b1 =>
        simp [h2, Except.map] at h1
        exact ⟨b, by rw [← h1]⟩

/-- builder-only change commutes with changes to the other fields -/
theorem finishN_with (n : Nat) {s s' : Sink} (es : List SyntaxError) (rs : List Range) (h : DSink.finishN n s = .ok s') :
    DSink.finishN n { s with errors := es, errorRanges := rs } = .ok { s' with errors := es, errorRanges := rs } := by
  induction n generalizing s with
  | zero => simp [DSink.finishN] at h ⊢; simp [h]
  | succ n ih =>
    rw [DSink.finishN] at h ⊢
    cases h2 : s.inner.finishNode with
    | error e => simp [Sink.finishNode, h2, Except.map, Except.bind] at h
    | ok b1 =>
      simp [Sink.finishNode, h2, Except.map, Except.bind] at h ⊢
      exact ih h

theorem sim_consume {d s} (h : DSim d s) : d.consume = .ok ⟨s, 2, 0⟩ := by
  simp [DSink.consume, h.2.2, Except.map, h.1]

theorem sim_zero (s : Sink) : DSim ⟨s, 2, 0⟩ s := ⟨rfl, by simp, rfl⟩

theorem sim_step {d s s'} (c : SinkCall) (h : DSim d s) (hs : Sink.step text tokens c s = .ok s') :
    ∃ d', DSink.step text tokens 2 c d = .ok d' ∧ DSim d' s' := by
  have hc := sim_consume h
  cases c with
  | token =>
    refine ⟨⟨s', 2, 0⟩, ?_, sim_zero _⟩
    simp only [Sink.step] at hs
    simp [DSink.step, h.1, hc, DSink.lift, hs, Except.bind, Except.map]
  | startNode k =>
    refine ⟨⟨s', 2, 0⟩, ?_, sim_zero _⟩
    simp only [Sink.step] at hs
    simp [DSink.step, hc, DSink.lift, hs, Except.bind, Except.map]
  | startErrorNode =>
    refine ⟨⟨s', 2, 0⟩, ?_, sim_zero _⟩
    simp only [Sink.step] at hs
    simp [DSink.step, h.1, hc, DSink.lift, hs, Except.bind, Except.map]
  | finishNode =>
    simp only [Sink.step] at hs
    by_cases hf : d.finished < 2
    · refine ⟨{ d with finished := d.finished + 1 }, by simp [DSink.step, hf], h.1, by simp; omega, ?_⟩
      simp only
      rw [finishN_succ, h.2.2]; exact hs
    · have h2 : d.finished = 2 := by have := h.2.1; omega
      have h3 := h.2.2
      have h4 : DSink.finishN (d.finished + 1) d.sink = .ok s' := by
        rw [finishN_succ, h3]; exact hs
      rw [DSink.finishN] at h4
      cases h5 : d.sink.finishNode with
      | error e => simp [h5, Except.bind] at h4
      | ok s1 =>
        simp [h5, Except.bind] at h4
        refine ⟨{ d with sink := s1 }, by simp [DSink.step, hf, DSink.lift, h5, Except.map], h.1, h.2.1, h4⟩
  | error e =>
    simp only [Sink.step, Sink.error] at hs
    simp at hs
    obtain ⟨b, hb⟩ := finishN_other _ h.2.2
    refine ⟨{ d with sink := { d.sink with errors := d.sink.errors ++ [⟨e.display, Range.empty d.sink.textPos⟩] } },
      by simp [DSink.step, h.1, DSink.lift, Sink.error, Except.map], h.1, h.2.1, ?_⟩
    have := finishN_with d.finished (d.sink.errors ++ [⟨e.display, Range.empty d.sink.textPos⟩]) d.sink.errorRanges h.2.2
    simp only
    rw [← hs]
    refine Eq.trans this ?_
    rw [hb]
  | finishErrorNode e =>
    simp only [Sink.step, Sink.finishErrorNode] at hs
    obtain ⟨b, hb⟩ := finishN_other _ h.2.2
    cases h1 : s.finishNode with
    | error e => simp [h1, Except.bind] at hs
    | ok s1 =>
      obtain ⟨b1, hb1⟩ := finishN_other 1 (s := s) (s' := s1) (by simp [DSink.finishN, h1, Except.bind])
      have h4 : DSink.finishN (d.finished + 1) d.sink = .ok s1 := by
        rw [finishN_succ, h.2.2]; exact h1
      rw [DSink.finishN] at h4
      cases h5 : d.sink.finishNode with
      | error e => simp [h5, Except.bind] at h4
      | ok s2 =>
        simp [h5, Except.bind] at h4
        obtain ⟨b2, hb2⟩ := finishN_other 1 (s := d.sink) (s' := s2) (by simp [DSink.finishN, h5, Except.bind])
        have e1 : s1.errorRanges = d.sink.errorRanges := by rw [hb1, hb]
        have e2 : s2.errorRanges = d.sink.errorRanges := by rw [hb2]
        have e3 : s2.errors = s1.errors := by rw [hb2, hb1, hb]
        simp only [h1, Except.bind, e1] at hs
        cases hr : d.sink.errorRanges with
        | nil => rw [hr] at hs; simp at hs
        | cons r rs =>
          rw [hr] at hs
          simp at hs
          refine ⟨{ d with sink := { s2 with errors := s2.errors ++ [⟨e.display, r⟩], errorRanges := rs } },
            by simp only [DSink.step, DSink.lift, Sink.finishErrorNode, h5, Except.map, Except.bind, e2, hr], h.1, h.2.1, ?_⟩
          have := finishN_with d.finished (s2.errors ++ [⟨e.display, r⟩]) rs h4
          simp only
          rw [← hs]
          refine Eq.trans this ?_
          rw [e3]

theorem sim_run (cs : List SinkCall) {d s s'} (h : DSim d s) (hs : Sink.runCalls text tokens cs s = .ok s') :
    ∃ d', DSink.runCalls text tokens 2 cs d = .ok d' ∧ DSim d' s' := by
  induction cs generalizing d s with
  | nil => simp [Sink.runCalls] at hs; subst hs; exact ⟨d, rfl, h⟩
  | cons c cs ih =>
    simp only [Sink.runCalls] at hs
    cases h1 : Sink.step text tokens c s with
    | error e => simp [h1, Except.bind] at hs
    | ok s1 =>
      simp [h1, Except.bind] at hs
      obtain ⟨d1, h2, h3⟩ := sim_step c h h1
      obtain ⟨d2, h4, h5⟩ := ih h3 hs
      exact ⟨d2, by simp only [DSink.runCalls, h2, Except.bind]; exact h4, h5⟩

theorem dRunCalls_append (a b : List SinkCall) (d : DSink) : DSink.runCalls text tokens 2 (a ++ b) d =
    (DSink.runCalls text tokens 2 a d).bind (DSink.runCalls text tokens 2 b) := by
  induction a generalizing d with
  | nil => rfl
  | cons c cs ih =>
    simp only [List.cons_append, DSink.runCalls]
    cases DSink.step text tokens 2 c d with
    | error e => rfl
    | ok s' => exact ih s'

/-- Two finishes at the end leave the pending count at two and the sink at the simulated state. -/
theorem sim_two {d s} (h : DSim d s) :
    DSink.runCalls text tokens 2 [.finishNode, .finishNode] d = .ok ⟨s, 2, 2⟩ := by
  obtain ⟨sk, st, f⟩ := d
  obtain ⟨h1, h2, h3⟩ := h
  simp only at h1 h2 h3
  subst h1
  have hf : f = 0 ∨ f = 1 ∨ f = 2 := by omega
  rcases hf with rfl | rfl | rfl
  · simp [DSink.finishN] at h3
    subst h3
    simp [DSink.runCalls, DSink.step, Except.bind]
  · simp [DSink.finishN] at h3
    cases h4 : sk.finishNode with
    | error e => simp [h4, Except.bind] at h3
    | ok s1 =>
      simp [h4, Except.bind] at h3
      subst h3
      simp [DSink.runCalls, DSink.step, Except.bind, DSink.lift, h4, Except.map]
  · simp [DSink.finishN] at h3
    cases h4 : sk.finishNode with
    | error e => simp [h4, Except.bind] at h3
    | ok s1 =>
      simp [h4, Except.bind] at h3
      cases h5 : s1.finishNode with
      | error e => simp [h5] at h3
      | ok s2 =>
        simp [h5] at h3
        subst h3
        simp [DSink.runCalls, DSink.step, Except.bind, DSink.lift, h4, h5, Except.map]

/-- The tree built for the callbacks of `SourceFile(Block(ts))`. -/
theorem dsink_tree (lexs : List Lx) (ts : List PTree) (hk : realKinds lexs = yieldL ts) :
    ∃ d, DSink.runCalls (wordsOf lexs) (toksOf lexs) 2 (calls (.node .sourceFile [.node .block ts])) {} = .ok d ∧
      DSink.finish (wordsOf lexs) (toksOf lexs) d = .ok
        (let p := placeL (Text.len (wordsOf lexs)) ts lexs
         (.node .sourceFile [.node .block (p.greens ++ p.rest.map leaf)], p.errs)) := by
  have h0 : Here (wordsOf lexs) (toksOf lexs) lexs { inner := ⟨[(.block, 0), (.sourceFile, 0)], []⟩ } :=
    ⟨by simp, ⟨[], by simp⟩, by simp⟩
  obtain ⟨s1, h1, h2, h3⟩ := run_callsL ts lexs _ [] h0 (by simpa using hk)
  have hsim : DSim ⟨{ inner := ⟨[(.block, 0), (.sourceFile, 0)], []⟩ }, 2, 0⟩ _ := sim_zero _
  obtain ⟨d1, h4, h5⟩ := sim_run _ hsim h1
  refine ⟨⟨s1, 2, 2⟩, ?_, ?_⟩
  · have e : calls (.node .sourceFile [.node .block ts]) =
        [.startNode .sourceFile, .startNode .block] ++ (callsL ts ++ [.finishNode, .finishNode]) := by
      simp [calls, callsL]
    rw [e, dRunCalls_append]
    have e2 : DSink.runCalls (wordsOf lexs) (toksOf lexs) 2 [.startNode .sourceFile, .startNode .block] {}
        = .ok ⟨{ inner := ⟨[(.block, 0), (.sourceFile, 0)], []⟩ }, 2, 0⟩ := by
      simp [DSink.runCalls, DSink.step, DSink.consume, DSink.finishN, Except.map, Except.bind,
        Builder.startNode]
    rw [e2]
    simp only [Except.bind]
    rw [dRunCalls_append, h4]
    exact sim_two h5
  · obtain ⟨s2, h6, h7⟩ := eat_eq h2.here
    generalize hp : placeL (Text.len (wordsOf lexs)) ts lexs = p at *
    have hr : ∀ ls : List Lx, realKinds ls = [] → lead ls = ls.map leaf := by
      intro ls h
      induction ls with
      | nil => rfl
      | cons l ls ih =>
        by_cases ht : isTriv l = true
        · have := ih (by simpa [realKinds, ht] using h)
          simp [lead, ht] at this ⊢
          exact this
        · simp [realKinds, ht] at h
    have hpar := h7.parents.trans h2.parents
    have hch := h7.children
    rw [h2.children] at hch
    have her := h7.errors
    rw [h2.errors] at her
    simp at hpar hch her
    simp [DSink.finish, DSink.lift, h6, Except.map, Except.bind, DSink.consume, DSink.finishN,
      Sink.finishNode, Builder.finishNode, hpar, hch, her, hr _ h3, Sink.finish, Builder.finish]

end Verif
