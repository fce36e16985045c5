import Verif.Proof.MarkerForest
import Verif.Proof.ParseMain
import Verif.Proof.Eval
import Verif.Proof.Decide

/-
C105: the marker API of the parser builds the tree its calls describe, for any grammar.
-/
namespace Verif
open Spec

/-- **C105.** For any code driving the parser — any grammar, not only the Lua one — that follows the
marker discipline (`Builds`) and leaves nothing open: no call panics, every call returns what it should,
the tokens consumed are those consumed, and `process` reports to the tree sink exactly the forest the
calls describe: every node with its last kind, containing everything between its (possibly later
inserted) beginning and its end; abandoned nodes are not there and their children are in place.

Partial: abandoning a marker right after it came from `precede` is outside the discipline, see
`C105_abandon_fails`. -/
theorem C105_builds_partial {α : Type} (p : Api α) (toks : List SyntaxKind) (a : α) (f : Forest)
    (b : Builds p ⟨toks, 0, []⟩ a f) (hc : closed f.pieces) :
    ∃ evs, p.run ⟨toks, []⟩ = .ok (a, ⟨f.toks, evs⟩) ∧
      processEvents evs = .ok (PTree.callsL (treesL f.pieces)) := by
  obtain ⟨evs, h1, h2⟩ := Markers.run_describes b (Markers.describes_nil toks)
  exact ⟨evs, h1, h2.process hc⟩

/-- The programs of the Lua grammar's model are programs over this API, with the same meaning. -/
theorem C105_prog {α : Type} (p : Prog α) (s : PState) : p.api.run s = p.run s := by
  induction p generalizing s with
  | pure a => rfl
  | nth n k ih => simp [Prog.api, Api.run, Op.run, Prog.run, ih]
  | advance k ih =>
    simp only [Prog.api, Api.run, Op.run, Prog.run]
    by_cases h : lookahead s.toks 0 = .eof
    · simp [h, ih]
    · simp [h, ih]
  | start k ih => simp [Prog.api, Api.run, Op.run, Prog.run, ih]
  | complete m kd k ih =>
    simp only [Prog.api, Api.run, Op.run, Prog.run]
    cases e : s.events[m]? with
    | none => rfl
    | some x => cases x <;> simp [ih]
  | precede c k ih =>
    simp only [Prog.api, Api.run, Op.run, Prog.run]
    cases e : (s.events ++ [Event.tombstone])[c]? with
    | none => rfl
    | some x => cases x <;> simp [ih]
  | startError k ih => simp [Prog.api, Api.run, Op.run, Prog.run, ih]
  | completeError m e k ih =>
    simp only [Prog.api, Api.run, Op.run, Prog.run]
    cases e : s.events[m]? with
    | none => rfl
    | some x => cases x <;> simp [ih]
  | error e k ih => simp [Prog.api, Api.run, Op.run, Prog.run, ih]
  | panic => rfl
  | outOfFuel => rfl

/-! ### The Lua grammar follows the discipline -/

namespace Markers

/-- A completed item as a piece of the forest. -/
def Same : Item → Piece → Prop
  | .tok k, p => p = .tok k
  | .err e, p => p = .err e
  | .errNode _ e, p => ∃ m ps, p = .errNode m ps e
  | .node pos k _ _, p => ∃ fin ps, p = .node pos fin true k ps

def SameL : List Item → List Piece → Prop
  | [], ps => ps = []
  | i :: is, ps => ∃ q qs, ps = q :: qs ∧ Same i q ∧ SameL is qs

theorem SameL.append {a b : List Item} {ps qs : List Piece} (h : SameL a ps) (h' : SameL b qs) :
    SameL (a ++ b) (ps ++ qs) := by
  induction a generalizing ps with
  | nil => cases h; exact h'
  | cons i is ih =>
    obtain ⟨q, rs, rfl, h1, h2⟩ := h
    exact ⟨q, rs ++ qs, rfl, h1, ih h2⟩

theorem SameL.split {a b : List Item} {ps : List Piece} (h : SameL (a ++ b) ps) :
    ∃ qs rs, ps = qs ++ rs ∧ SameL a qs ∧ SameL b rs := by
  induction a generalizing ps with
  | nil => exact ⟨[], ps, rfl, rfl, h⟩
  | cons i is ih =>
    obtain ⟨q, rs, rfl, h1, h2⟩ := h
    obtain ⟨x, y, rfl, h3, h4⟩ := ih h2
    exact ⟨q :: x, y, rfl, ⟨q, x, rfl, h1, h3⟩, h4⟩

theorem SameL.closed {a : List Item} {ps : List Piece} (h : SameL a ps) : Spec.closed ps := by
  induction a generalizing ps with
  | nil => cases h; trivial
  | cons i is ih =>
    obtain ⟨q, rs, rfl, h1, h2⟩ := h
    have := ih h2
    cases i with
    | tok k => cases h1; exact this
    | err k => cases h1; exact this
    | errNode c e => obtain ⟨m, ps, rfl⟩ := h1; exact this
    | node p k b f => obtain ⟨m, ps, rfl⟩ := h1; exact this

theorem SameL.snoc {a : List Item} {ps : List Piece} {i : Item} {q : Piece} (h : SameL a.reverse ps)
    (hi : Same i q) : SameL (i :: a).reverse (ps ++ [q]) := by
  rw [List.reverse_cons]
  exact h.append ⟨q, [], rfl, hi, rfl⟩

/-- The open nodes as pieces of the forest. -/
def SameStack : List Frame → List Piece → Prop
  | [], ps => ps = []
  | fr :: st, ps => ∃ P O, SameStack st P ∧ SameL fr.outer.reverse O ∧
      if fr.isErr then ps = P ++ O ++ [.errMark fr.pos]
      else ∃ b B, Spec.closed B ∧ ps = P ++ O ++ (.mark fr.pos b :: B)

theorem discipline {α : Type} (p : Prog α) : ∀ (f f' : FState) (a : α) (S C : List Piece),
    p.runF f = .ok (a, f') → SameStack f.stack S → SameL f.cur.reverse C →
    ∃ S' C', SameStack f'.stack S' ∧ SameL f'.cur.reverse C' ∧
      Builds p.api ⟨f.toks, f.ev, S ++ C⟩ a ⟨f'.toks, f'.ev, S' ++ C'⟩ := by
  induction p with
  | pure a =>
    intro f f' a' S C h hS hC
    simp [Prog.runF] at h
    obtain ⟨rfl, rfl⟩ := h
    exact ⟨S, C, hS, hC, .pure _ _⟩
  | nth n k ih =>
    intro f f' a S C h hS hC
    simp only [Prog.runF] at h
    obtain ⟨S', C', h1, h2, h3⟩ := ih _ f f' a S C h hS hC
    exact ⟨S', C', h1, h2, .call (.nth n _) h3⟩
  | advance k ih =>
    intro f f' a S C h hS hC
    simp only [Prog.runF] at h
    split at h
    · simp at h
    · rename_i hne
      obtain ⟨toks, ev, cur, st⟩ := f
      cases toks with
      | nil => simp [lookahead] at hne
      | cons t ts =>
        simp only [lookahead, List.getD_cons_zero] at hne h
        obtain ⟨S', C', h1, h2, h3⟩ := ih _ _ f' a S (C ++ [.tok t]) h hS (hC.snoc (i := .tok t) (q := .tok t) (by exact rfl))
        refine ⟨S', C', h1, h2, .call (.advance t ts ev (S ++ C) hne) ?_⟩
        simpa using h3
  | start k ih =>
    intro f f' a S C h hS hC
    simp only [Prog.runF] at h
    obtain ⟨S', C', h1, h2, h3⟩ := ih _ _ f' a (S ++ C ++ [.mark f.ev true]) [] h
      ⟨S, C, hS, hC, true, [], trivial, rfl⟩ rfl
    refine ⟨S', C', h1, h2, .call (.start f.toks f.ev (S ++ C)) ?_⟩
    simpa using h3
  | startError k ih =>
    intro f f' a S C h hS hC
    simp only [Prog.runF] at h
    obtain ⟨S', C', h1, h2, h3⟩ := ih _ _ f' a (S ++ C ++ [.errMark f.ev]) [] h
      ⟨S, C, hS, hC, by simp⟩ rfl
    refine ⟨S', C', h1, h2, .call (.startError f.toks f.ev (S ++ C)) ?_⟩
    simpa using h3
  | complete m kind k ih =>
    intro f f' a S C h hS hC
    simp only [Prog.runF] at h
    obtain ⟨toks, ev, cur, st⟩ := f
    cases st with
    | nil => simp at h
    | cons fr st =>
      obtain ⟨pos, isErr, bf, outer⟩ := fr
      cases isErr with
      | true => simp at h
      | false =>
        simp only at h
        split at h
        · rename_i hc
          obtain ⟨rfl, hk⟩ := hc
          obtain ⟨P, O, hP, hO, b, B, hB, rfl⟩ := hS
          obtain ⟨S', C', h1, h2, h3⟩ := ih _ f' a P (O ++ [.node pos ev true kind (B ++ C)]) h hP
            (hO.snoc ⟨_, _, rfl⟩)
          refine ⟨S', C', h1, h2, ?_⟩
          have d := Does.complete pos b kind toks ev (P ++ O) (B ++ C)
            ((closed_append _ _).2 ⟨hB, hC.closed⟩) hk
          have e : P ++ O ++ .mark pos b :: (B ++ C) = P ++ O ++ (.mark pos b :: B) ++ C := by simp
          rw [e] at d
          refine .call d ?_
          simpa using h3
        · simp at h
  | precede cm k ih =>
    intro f f' a S C h hS hC
    simp only [Prog.runF] at h
    split at h
    · rename_i bf outer hsp
      obtain ⟨kd, b, a', post, rfl, hcat⟩ := splitNode_spec hsp
      simp only [List.append_nil] at hcat
      rw [← hcat] at hC
      obtain ⟨O, R, rfl, hO, q, T, rfl, ⟨fin, cs, rfl⟩, hT⟩ := hC.split
      obtain ⟨S', C', h1, h2, h3⟩ := ih _ _ f' a
        (S ++ O ++ (.mark f.ev false :: .node cm fin false kd cs :: T)) [] h
        ⟨S, O, hS, hO, false, .node cm fin false kd cs :: T, hT.closed, rfl⟩ rfl
      refine ⟨S', C', h1, h2, ?_⟩
      have d := Does.precede cm fin 0 .tombstone kd f.toks f.ev (S ++ O) cs T
      rw [List.append_assoc] at d
      refine .call d ?_
      simpa using h3
    · simp at h
  | completeError m e k ih =>
    intro f f' a S C h hS hC
    simp only [Prog.runF] at h
    obtain ⟨toks, ev, cur, st⟩ := f
    cases st with
    | nil => simp at h
    | cons fr st =>
      obtain ⟨pos, isErr, bf, outer⟩ := fr
      cases isErr with
      | false => simp at h
      | true =>
        simp only at h
        split at h
        · rename_i hc
          subst hc
          obtain ⟨P, O, hP, hO, rfl⟩ := hS
          obtain ⟨S', C', h1, h2, h3⟩ := ih _ f' a P (O ++ [.errNode pos C e]) h hP
            (hO.snoc ⟨_, _, rfl⟩)
          refine ⟨S', C', h1, h2, ?_⟩
          have d := Does.completeError pos e toks ev (P ++ O) C hC.closed
          have e : P ++ O ++ .errMark pos :: C = P ++ O ++ [.errMark pos] ++ C := by simp
          rw [e] at d
          refine .call d ?_
          simpa using h3
        · simp at h
  | error e k ih =>
    intro f f' a S C h hS hC
    simp only [Prog.runF] at h
    obtain ⟨S', C', h1, h2, h3⟩ := ih _ f' a S (C ++ [.err e]) h hS (hC.snoc (i := .err e) (q := .err e) (by exact rfl))
    refine ⟨S', C', h1, h2, .call (.error e f.toks f.ev (S ++ C)) ?_⟩
    simpa using h3
  | panic => intro f f' a S C h; simp [Prog.runF] at h
  | outOfFuel => intro f f' a S C h; simp [Prog.runF] at h

end Markers

/-- **C105.** The Lua grammar follows the discipline on every input, and completes every node. -/
theorem C105_lua (toks : List SyntaxKind) (h : NE toks) :
    ∃ f : Forest, Builds (Grammar.root (2 * toks.length + 3)).api ⟨toks, 0, []⟩ () f ∧
      closed f.pieces ∧ f.toks = [] := by
  have hs := root_spec toks h 0 [] []
  rw [wpF_iff] at hs
  obtain ⟨a, s', h1, items, toks', ev', rfl, h2, h3, _⟩ := hs
  obtain ⟨S', C', h4, h5, h6⟩ := Markers.discipline _ _ _ _ [] [] h1 rfl rfl
  cases h4
  exact ⟨_, h6, h5.closed, h3⟩

/-! ### A program using every call -/

/-- `a + b ;`: a name is turned into the left operand of an infix expression begun later; the right
operand is first completed as a literal, then becomes a name reference; an attempted node is abandoned,
and a block is reopened to take an error node. -/
def sampleGrammar : Api Nat :=
  .call .start fun block =>
  .call .start fun left =>
  .call .advance fun _ =>
  .call (.complete left .nameRef) fun l =>
  .call (.precede l) fun infix_ =>
  .call .start fun attempt =>
  .call .advance fun _ =>
  .call .start fun right =>
  .call .advance fun _ =>
  .call (.complete right .literal) fun r =>
  .call (.changeKind r .nameRef) fun _ =>
  .call (.abandon attempt) fun _ =>
  .call (.complete infix_ .infixExpr) fun _ =>
  .call (.complete block .block) fun b =>
  .call (.undoCompletion b) fun again =>
  .call .start fun nothing =>
  .call (.abandon nothing) fun _ =>
  .call .startError fun bad =>
  .call .advance fun _ =>
  .call (.completeError bad (.message "stray")) fun _ =>
  .call (.error (.message "done")) fun _ =>
  .call (.complete again .sourceFile) fun c =>
  .pure c.startPos

/-- What it builds. -/
def sampleForest : List Piece :=
  [.node 0 16 true .sourceFile
    [.node 4 10 true .infixExpr
      [.node 1 3 false .nameRef [.tok .ident], .tok .plus,
        .node 7 9 true .nameRef [.tok .ident]],
     .errNode 12 [.tok .semicolon] (.message "stray"),
     .err (.message "done")]]

theorem sampleGrammar_builds :
    Builds sampleGrammar ⟨[.ident, .plus, .ident, .semicolon], 0, []⟩ 0 ⟨[], 17, sampleForest⟩ := by
  refine .call (.start _ _ _) ?_
  refine .call (.start _ _ _) ?_
  refine .call (.advance _ _ _ _ (by decide)) ?_
  refine .call (.complete 1 true _ _ _ [.mark 0 true] [.tok .ident] trivial (by decide)) ?_
  refine .call (.precede 1 3 3 _ _ _ _ [.mark 0 true] _ []) ?_
  refine .call (.start _ _ _) ?_
  refine .call (.advance _ _ _ _ (by decide)) ?_
  refine .call (.start _ _ _) ?_
  refine .call (.advance _ _ _ _ (by decide)) ?_
  refine .call (.complete 7 true _ _ _
    [.mark 0 true, .mark 4 false, .node 1 3 false .nameRef [.tok .ident], .mark 5 true, .tok .plus]
    [.tok .ident] trivial (by decide)) ?_
  refine .call (.changeKind 7 9 _ _ _ _ _
    [.mark 0 true, .mark 4 false, .node 1 3 false .nameRef [.tok .ident], .mark 5 true, .tok .plus]
    _ [] (by decide)) ?_
  refine .call (.abandon 5 true _ _
    [.mark 0 true, .mark 4 false, .node 1 3 false .nameRef [.tok .ident]] _ (by decide)) ?_
  refine .call (.complete 4 false _ _ _ [.mark 0 true] _ (by trivial) (by decide)) ?_
  refine .call (.complete 0 true _ _ _ [] _ (by trivial) (by decide)) ?_
  refine .call (.undoCompletion 0 11 _ _ _ _ [] _ []) ?_
  refine .call (.start _ _ _) ?_
  refine .call (.abandonLast 12 _ [_, _] []) ?_
  refine .call (.startError _ _ _) ?_
  refine .call (.advance _ _ _ _ (by decide)) ?_
  refine .call (.completeError 12 _ _ _ [_, _] _ (by trivial)) ?_
  refine .call (.error _ _ _ _) ?_
  refine .call (.complete 0 false _ _ _ [] _ (by trivial) (by decide)) ?_
  exact .pure _ _

/-- The hypotheses of `C105_builds_partial` are met by it, and so the tree it describes is built. -/
example : ∃ evs, sampleGrammar.run ⟨[.ident, .plus, .ident, .semicolon], []⟩ = .ok (0, ⟨[], evs⟩) ∧
    processEvents evs = .ok (PTree.calls (.node .sourceFile
      [.node .infixExpr [.node .nameRef [.tok .ident], .tok .plus, .node .nameRef [.tok .ident]],
       .errNode [.tok .semicolon] (.message "stray"), .err (.message "done")])) := by
  obtain ⟨evs, h1, h2⟩ := C105_builds_partial _ _ _ _ sampleGrammar_builds trivial
  exact ⟨evs, h1, by simpa [sampleForest, treesL, Piece.trees, PTree.callsL] using h2⟩

/-! ### Where the API does not do what it should -/

/-- A node is completed, a node before it is begun and abandoned at once, then a token is consumed. -/
def abandonThenToken : Api Unit :=
  .call .start fun m =>
  .call .advance fun _ =>
  .call (.complete m .nameRef) fun c =>
  .call (.precede c) fun b =>
  .call (.abandon b) fun _ =>
  .call .advance fun _ =>
  .pure ()

/-- The same, then another node is built. -/
def abandonThenNode : Api Unit :=
  .call .start fun m =>
  .call .advance fun _ =>
  .call (.complete m .nameRef) fun c =>
  .call (.precede c) fun b =>
  .call (.abandon b) fun _ =>
  .call .start fun m' =>
  .call .advance fun _ =>
  .call (.complete m' .argList) fun _ =>
  .pure ()

/-- **C105, why partial.** Abandoning a marker right after `precede` removes its event but not the link
to it.  With a token in its place, `process` panics; with another node in its place, that node swallows
the earlier one: instead of `nameRef` followed by `argList` the sink is told `argList` containing
`nameRef`. -/
theorem C105_abandon_fails :
    (∃ evs, abandonThenToken.run ⟨[.ident, .ident], []⟩ = .ok ((), ⟨[], evs⟩) ∧
      processEvents evs = .error .panic) ∧
    ∃ evs, abandonThenNode.run ⟨[.ident, .ident], []⟩ = .ok ((), ⟨[], evs⟩) ∧
      processEvents evs = .ok [.startNode .argList, .startNode .nameRef, .token, .finishNode, .token,
        .finishNode] ∧
      processEvents evs ≠ .ok (PTree.callsL
        [.node .nameRef [.tok .ident], .node .argList [.tok .ident]]) := by
  refine ⟨⟨[.start .nameRef (some 3), .token, .finish, .token], rfl, ?_⟩,
    [.start .nameRef (some 3), .token, .finish, .start .argList none, .token, .finish], rfl, ?_⟩
  · rw [← processFuel_eq 5 _ (by decide)]; decide +kernel
  · have : processEvents
        [.start .nameRef (some 3), .token, .finish, .start .argList none, .token, .finish] =
        .ok [.startNode .argList, .startNode .nameRef, .token, .finishNode, .token, .finishNode] := by
      rw [← processFuel_eq 7 _ (by decide)]; decide +kernel
    refine ⟨this, ?_⟩
    rw [this]
    simp [PTree.callsL, PTree.calls]

/-- **C105.** `kind()` of a completed marker is the kind it was completed with, which is also the kind of the node. -/
theorem C105_kind (m : Nat) (k : SyntaxKind) (s s' : PState) (c : Completed) (h : (Op.complete m k).run s = .ok (c, s')) :
    c.kindOf = k ∧ ∃ fp, s'.events[c.startPos]? = some (.start k fp) := by
  simp only [Op.run] at h
  split at h
  · rename_i k' fp hs
    simp only [Except.ok.injEq, Prod.mk.injEq] at h
    obtain ⟨rfl, rfl⟩ := h
    have hlt := (List.getElem?_eq_some_iff.1 hs).1
    refine ⟨rfl, fp, ?_⟩
    rw [List.getElem?_append_left (by simpa using hlt), Markers.get_set hs, if_pos rfl]
  · cases h

/-- **C105.** `kind()` of the marker `change_kind` returns is the kind the node was completed with, never the new one, while
the node gets the new kind. -/
theorem C105_kind_fails (m : Nat) (k0 : SyntaxKind) (c c' : Completed) (k : SyntaxKind) (s0 s1 s s' : PState)
    (h0 : (Op.complete m k0).run s0 = .ok (c, s1)) (h : (Op.changeKind c k).run s = .ok (c', s')) :
    c'.kindOf = k0 ∧ s'.events[c.startPos]? = some (.start k none) := by
  obtain ⟨hk, -⟩ := C105_kind m k0 s0 s1 c h0
  simp only [Op.run] at h
  split at h
  · rename_i hs
    simp only [Except.ok.injEq, Prod.mk.injEq] at h
    obtain ⟨rfl, rfl⟩ := h
    exact ⟨hk, by rw [Markers.get_set hs, if_pos rfl]⟩
  · cases h

/-- The hypotheses met: a name completed as a name, and changed to a reference. -/
example : ∃ c c' s1 s', (Op.complete 0 .name).run ⟨[], [.start .tombstone none, .token]⟩ = .ok (c, s1) ∧
    (Op.changeKind c .nameRef).run s1 = .ok (c', s') ∧ c'.kindOf = .name ∧
    s'.events = [.start .nameRef none, .token, .finish] :=
  ⟨_, _, _, _, rfl, rfl, rfl, rfl⟩

/-- `expect_at` consumes nothing and records an error exactly if the next token is another one. -/
theorem C105_expect_at (kind : SyntaxKind) (f : Forest) :
    Builds (Api.expectAt kind) f (decide (lookahead f.toks 0 = kind))
      (if lookahead f.toks 0 = kind then f
       else ⟨f.toks, f.used + 1, f.pieces ++ [.err (.expected kind (lookahead f.toks 0))]⟩) := by
  unfold Api.expectAt
  refine .call (.nth 0 f) ?_
  by_cases h : lookahead f.toks 0 = kind
  · rw [if_neg (by simpa using h), if_pos h]
    simp only [h, decide_true]
    exact .pure _ _
  · rw [if_pos h, if_neg h]
    simp only [h, decide_false]
    exact .call (.error _ _ _ _) (.pure _ _)

end Verif
