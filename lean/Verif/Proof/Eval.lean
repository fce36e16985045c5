import Verif.Model.Grammar

/-
`processEvents` is defined by well-founded recursion, which the kernel does not unfold.  This is the
same function with fuel, for evaluating the parser on concrete token lists inside the kernel.
-/
namespace Verif

def processFuel : Nat → List Event → Except Fail (List SinkCall)
  | _, [] => .ok []
  | 0, _ :: _ => .error .fuel
  | n + 1, .start kind fp :: rest =>
    if kind = .tombstone then processFuel n rest
    else
      match walkParents (rest.length + 1) 0 fp rest [kind] with
      | .error e => .error e
      | .ok (kinds, rest') =>
        match processFuel n rest' with
        | .error e => .error e
        | .ok cs => .ok ((kinds.reverse.map .startNode) ++ cs)
  | n + 1, .error e :: rest => (processFuel n rest).map (.error e :: ·)
  | n + 1, .finish :: rest => (processFuel n rest).map (.finishNode :: ·)
  | n + 1, .token :: rest => (processFuel n rest).map (.token :: ·)
  | n + 1, .startError :: rest => (processFuel n rest).map (.startErrorNode :: ·)
  | n + 1, .finishError e :: rest => (processFuel n rest).map (.finishErrorNode e :: ·)

theorem processFuel_eq (n : Nat) (evs : List Event) (h : evs.length ≤ n) :
    processFuel n evs = processEvents evs := by
  induction n generalizing evs with
  | zero =>
    cases evs with
    | nil => simp [processFuel, processEvents]
    | cons e es => simp at h
  | succ n ih =>
    cases evs with
    | nil => simp [processFuel, processEvents]
    | cons e es =>
      simp at h
      cases e with
      | start kind fp =>
        rw [processEvents.eq_def]
        simp only [processFuel]
        split
        · exact ih es h
        · cases hw : walkParents (es.length + 1) 0 fp es [kind] with
          | error e => simp
          | ok r =>
            have hl := walkParents_length hw
            simp only []
            rw [ih r.2 (by omega)]
            split <;> simp_all
      | _ => simp [processFuel, processEvents, ih es h]

/-- `parseKinds` in a form the kernel can evaluate. -/
def parseEval (toks : List SyntaxKind) : Except Fail (List SinkCall) :=
  match (Grammar.root (2 * toks.length + 3)).run { toks := toks, events := [] } with
  | .error e => .error e
  | .ok (_, s) => processFuel s.events.length s.events

theorem parseEval_eq (toks : List SyntaxKind) : parseKinds toks = parseEval toks := by
  unfold parseKinds parseEval
  split
  · simp_all
  · rename_i h; rw [h]; simp only []; rw [processFuel_eq _ _ (Nat.le_refl _)]

end Verif
