import Verif.Proof.Frame

/-
`Prog.run` simulates the frame semantics, and `processEvents` on the encoding of a tree yields exactly
the callbacks describing that tree.
-/
namespace Verif
open Item

/-- Events of the open nodes. -/
def ctxEnc : List Frame → List Event
  | [] => []
  | f :: st => ctxEnc st ++ encL f.outer.reverse ++
      (if f.isErr then [Event.startError] else encB f.before ++ [Event.tombstone])

def ctxOK : List Frame → Prop
  | [] => True
  | f :: st =>
    ctxOK st ∧ okL f.outer.reverse ∧ posOK (ctxEnc st).length f.outer.reverse ∧
    (if f.isErr then f.pos = (ctxEnc st).length + sizeL f.outer.reverse
     else headNode f.before ∧ okL f.before ∧
       posOK ((ctxEnc st).length + sizeL f.outer.reverse) f.before ∧
       f.pos = (ctxEnc st).length + sizeL f.outer.reverse + sizeL f.before)

/-- The simulation relation. -/
structure Sim (s : PState) (f : FState) : Prop where
  toks : s.toks = f.toks
  events : s.events = ctxEnc f.stack ++ encL f.cur.reverse
  ev : f.ev = s.events.length
  ctx : ctxOK f.stack
  curOK : okL f.cur.reverse
  curPos : posOK (ctxEnc f.stack).length f.cur.reverse

theorem splitNode_spec {cm : Nat} {l acc bf outer : List Item}
    (h : splitNode cm l acc = some (bf, outer)) :
    ∃ k b a post, bf = .node cm k b a :: post ∧ outer.reverse ++ bf = l.reverse ++ acc := by
  induction l generalizing acc with
  | nil => simp [splitNode] at h
  | cons x xs ih =>
    cases x with
    | node pos k b a =>
      simp only [splitNode] at h
      split at h
      · rename_i hp
        simp at h
        obtain ⟨rfl, rfl⟩ := h
        subst hp
        exact ⟨k, b, a, acc, rfl, by simp⟩
      · obtain ⟨k', b', a', post, h1, h2⟩ := ih h
        exact ⟨k', b', a', post, h1, by simp [h2]⟩
    | tok k =>
      obtain ⟨k', b', a', post, h1, h2⟩ := ih (by simpa [splitNode] using h)
      exact ⟨k', b', a', post, h1, by simp [h2]⟩
    | err k =>
      obtain ⟨k', b', a', post, h1, h2⟩ := ih (by simpa [splitNode] using h)
      exact ⟨k', b', a', post, h1, by simp [h2]⟩
    | errNode c k =>
      obtain ⟨k', b', a', post, h1, h2⟩ := ih (by simpa [splitNode] using h)
      exact ⟨k', b', a', post, h1, by simp [h2]⟩

theorem getElem?_append_mid {α} {a b : List α} {x : α} {n : Nat} (h : n = a.length) :
    (a ++ x :: b)[n]? = some x := by subst h; simp

theorem set_append_mid {α} {a b : List α} {x y : α} {n : Nat} (h : n = a.length) :
    (a ++ x :: b).set n y = a ++ y :: b := by
  subst h; simp [List.set_append_right]

theorem run_sim {α : Type} (p : Prog α) : ∀ (s : PState) (f : FState) (a : α) (f' : FState),
    Sim s f → p.runF f = .ok (a, f') → ∃ s', p.run s = .ok (a, s') ∧ Sim s' f' := by
  induction p with
  | pure a =>
    intro s f a' f' hs h
    simp [Prog.runF] at h
    obtain ⟨rfl, rfl⟩ := h
    exact ⟨s, rfl, hs⟩
  | nth n k ih =>
    intro s f a f' hs h
    simp only [Prog.runF] at h
    obtain ⟨s', h1, h2⟩ := ih _ s f a f' hs h
    exact ⟨s', by simpa [Prog.run, hs.toks] using h1, h2⟩
  | advance k ih =>
    intro s f a f' hs h
    simp only [Prog.runF] at h
    split at h
    · simp at h
    · rename_i hne
      have hs' : Sim { toks := s.toks.tail, events := s.events ++ [.token] }
          { f with toks := f.toks.tail, ev := f.ev + 1,
                   cur := .tok (lookahead f.toks 0) :: f.cur } := by
        refine ⟨by simp [hs.toks], by simp [hs.events, encL, enc], by simp [hs.ev], hs.ctx, ?_, ?_⟩
        · simp [okL, ok]; simpa using hs.curOK
        · simp [posOK_append, posOK]; simpa using hs.curPos
      obtain ⟨s', h1, h2⟩ := ih _ _ _ a f' hs' h
      exact ⟨s', by simpa [Prog.run, hs.toks, hne] using h1, h2⟩
  | start k ih =>
    intro s f a f' hs h
    simp only [Prog.runF] at h
    have hs' : Sim { s with events := s.events ++ [Event.tombstone] }
        { f with ev := f.ev + 1, cur := [], stack := ⟨f.ev, false, [], f.cur⟩ :: f.stack } := by
      refine ⟨hs.toks, by simp [hs.events, ctxEnc, encL, encB], by simp [hs.ev], ?_, ?_, ?_⟩
      · refine ⟨hs.ctx, hs.curOK, hs.curPos, ?_⟩
        simp [headNode, okL, posOK, hs.ev, hs.events, encL_length, sizeL]
      · simp [okL]
      · simp [posOK]
    obtain ⟨s', h1, h2⟩ := ih _ _ _ a f' hs' h
    exact ⟨s', by simpa [Prog.run, hs.ev] using h1, h2⟩
  | startError k ih =>
    intro s f a f' hs h
    simp only [Prog.runF] at h
    have hs' : Sim { s with events := s.events ++ [Event.startError] }
        { f with ev := f.ev + 1, cur := [], stack := ⟨f.ev, true, [], f.cur⟩ :: f.stack } := by
      refine ⟨hs.toks, by simp [hs.events, ctxEnc, encL], by simp [hs.ev], ?_, ?_, ?_⟩
      · refine ⟨hs.ctx, hs.curOK, hs.curPos, ?_⟩
        simp [hs.ev, hs.events, encL_length]
      · simp [okL]
      · simp [posOK]
    obtain ⟨s', h1, h2⟩ := ih _ _ _ a f' hs' h
    exact ⟨s', by simpa [Prog.run, hs.ev] using h1, h2⟩
  | complete m kind k ih =>
    intro s f a f' hs h
    simp only [Prog.runF] at h
    obtain ⟨ftoks, fev, fcur, fst⟩ := f
    cases fst with
    | nil => simp at h
    | cons fr st =>
      obtain ⟨pos, isErr, bf, outer⟩ := fr
      cases isErr with
      | true => simp at h
      | false =>
        simp only at h
        split at h
        · rename_i hc
          obtain ⟨rfl, hk⟩ := hc
          obtain ⟨hc1, hc2, hc3, hc4, hc5, hc6, hc7⟩ := hs.ctx
          simp only at hc2 hc3 hc4 hc5 hc6 hc7
          have hev := hs.events
          simp only [ctxEnc, Bool.false_eq_true, if_false] at hev
          have hpos : pos = (ctxEnc st ++ encL outer.reverse ++ encB bf).length := by
            simp [encL_length, encB_length, hc7]; omega
          have hget : s.events[pos]? = some Event.tombstone := by
            rw [hev]
            have : ctxEnc st ++ encL outer.reverse ++ (encB bf ++ [Event.tombstone]) ++
                encL fcur.reverse = (ctxEnc st ++ encL outer.reverse ++ encB bf) ++
                  Event.tombstone :: encL fcur.reverse := by simp
            rw [this]
            exact getElem?_append_mid hpos
          have hset : s.events.set pos (.start kind none) =
              (ctxEnc st ++ encL outer.reverse ++ encB bf) ++
                  .start kind none :: encL fcur.reverse := by
            rw [hev]
            have : ctxEnc st ++ encL outer.reverse ++ (encB bf ++ [Event.tombstone]) ++
                encL fcur.reverse = (ctxEnc st ++ encL outer.reverse ++ encB bf) ++
                  Event.tombstone :: encL fcur.reverse := by simp
            rw [this]
            exact set_append_mid hpos
          have hs' : Sim { s with events := s.events.set pos (.start kind none) ++ [.finish] }
              ⟨ftoks, fev + 1, .node pos kind bf fcur.reverse :: outer, st⟩ := by
            refine ⟨hs.toks, ?_, ?_, hc1, ?_, ?_⟩
            · rw [hset]; simp [encL, enc]
            · have := hs.ev; simp at this ⊢; omega
            · have := hs.curOK
              simp [okL, ok, hk, hc4, hc5] at this ⊢
              exact ⟨by simpa using hc2, this⟩
            · simp [posOK_append, posOK, hc7]
              simpa using hc3
          obtain ⟨s', h1, h2⟩ := ih _ _ a f' hs' h
          refine ⟨s', ?_, h2⟩
          simp only [Prog.run, hget, Event.tombstone]
          exact h1
        · simp at h
  | precede cm k ih =>
    intro s f a f' hs h
    simp only [Prog.runF] at h
    split at h
    · rename_i bf outer hsp
      obtain ⟨kd, b, a', post, hbf, hcat⟩ := splitNode_spec hsp
      simp only [List.append_nil] at hcat
      have hok := hs.curOK
      have hpos := hs.curPos
      rw [← hcat] at hok hpos
      rw [okL_append] at hok
      rw [posOK_append] at hpos
      have hcm : cm = (ctxEnc f.stack).length + sizeL outer.reverse + sizeL b := by
        have := hpos.2
        rw [hbf] at this
        simp [posOK] at this
        simpa using this.1
      have hev : s.events = (ctxEnc f.stack ++ encL outer.reverse ++ encB b) ++
          .start kd none :: (encL a' ++ [.finish] ++ encL post) := by
        rw [hs.events, ← hcat, hbf]; simp [encL, enc]
      have hlen : cm = (ctxEnc f.stack ++ encL outer.reverse ++ encB b).length := by
        simp [encL_length, encB_length, hcm]; omega
      have hfp : s.events.length - cm =
          size (.node cm kd b a') + sizeL post - startOff (.node cm kd b a') := by
        rw [hev, hcm]
        simp [encL_length, encB_length, size, startOff]; omega
      have hget : (s.events ++ [Event.tombstone])[cm]? = some (.start kd none) := by
        rw [hev, List.append_assoc]
        exact getElem?_append_mid hlen
      have hset : (s.events ++ [Event.tombstone]).set cm (.start kd (some (s.events.length - cm))) =
          ctxEnc f.stack ++ encL outer.reverse ++ (encB bf ++ [Event.tombstone]) := by
        rw [hfp]
        rw [hev, List.append_assoc (ctxEnc f.stack ++ encL outer.reverse ++ encB b),
          List.cons_append, set_append_mid hlen, hbf]
        simp [encB, enc]
      have hsz : s.events.length = (ctxEnc f.stack).length + sizeL outer.reverse + sizeL bf := by
        rw [hev, hbf]; simp [encL_length, encB_length, sizeL, size]; omega
      have hs' : Sim (PState.mk s.toks ((s.events ++ [Event.tombstone]).set cm
              (.start kd (some (s.events.length - cm)))))
          { f with ev := f.ev + 1, cur := [], stack := ⟨f.ev, false, bf, outer⟩ :: f.stack } := by
        refine ⟨hs.toks, ?_, ?_, ?_, ?_, ?_⟩
        · simp only [hset]; simp [ctxEnc, encL]
        · simp [hs.ev]
        · refine ⟨hs.ctx, hok.1, hpos.1, ?_⟩
          simp only [Bool.false_eq_true, if_false]
          exact ⟨by simp [hbf, headNode], hok.2, by simpa using hpos.2, by rw [hs.ev, hsz]⟩
        · simp [okL]
        · simp [posOK]
      obtain ⟨s', h1, h2⟩ := ih _ _ _ a f' hs' h
      refine ⟨s', ?_, h2⟩
      simp only [Prog.run, hget]
      rw [hs.ev] at h1
      exact h1
    · simp at h
  | completeError m e k ih =>
    intro s f a f' hs h
    simp only [Prog.runF] at h
    obtain ⟨ftoks, fev, fcur, fst⟩ := f
    cases fst with
    | nil => simp at h
    | cons fr st =>
      obtain ⟨pos, isErr, bf, outer⟩ := fr
      cases isErr with
      | false => simp at h
      | true =>
        simp only at h
        split at h
        · rename_i hc
          subst hc
          obtain ⟨hc1, hc2, hc3, hc4⟩ := hs.ctx
          simp only [if_true] at hc2 hc3 hc4
          have hev := hs.events
          simp only [ctxEnc, if_true] at hev
          have hget : s.events[pos]? = some Event.startError := by
            rw [hev]
            have : ctxEnc st ++ encL outer.reverse ++ [Event.startError] ++
                encL fcur.reverse = (ctxEnc st ++ encL outer.reverse) ++
                  Event.startError :: encL fcur.reverse := by simp
            rw [this]
            exact getElem?_append_mid (by simp [encL_length, hc4])
          have hs' : Sim { s with events := s.events ++ [.finishError e] }
              ⟨ftoks, fev + 1, .errNode fcur.reverse e :: outer, st⟩ := by
            refine ⟨hs.toks, ?_, ?_, hc1, ?_, ?_⟩
            · simp [hev, encL, enc]
            · have := hs.ev; simp at this ⊢; omega
            · have := hs.curOK
              simp [okL, ok] at this ⊢
              exact ⟨by simpa using hc2, this⟩
            · simp [posOK_append, posOK]
              simpa using hc3
          obtain ⟨s', h1, h2⟩ := ih _ _ a f' hs' h
          refine ⟨s', ?_, h2⟩
          simp only [Prog.run, hget]
          exact h1
        · simp at h
  | error e k ih =>
    intro s f a f' hs h
    simp only [Prog.runF] at h
    have hs' : Sim { s with events := s.events ++ [.error e] }
        { f with ev := f.ev + 1, cur := .err e :: f.cur } := by
      refine ⟨hs.toks, by simp [hs.events, encL, enc], by simp [hs.ev], hs.ctx, ?_, ?_⟩
      · simp [okL, ok]; simpa using hs.curOK
      · simp [posOK_append, posOK]; simpa using hs.curPos
    obtain ⟨s', h1, h2⟩ := ih _ _ a f' hs' h
    exact ⟨s', by simpa [Prog.run] using h1, h2⟩
  | panic => intro s f a f' hs h; simp [Prog.runF] at h
  | outOfFuel => intro s f a f' hs h; simp [Prog.runF] at h

end Verif
