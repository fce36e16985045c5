import Verif.Model.Markers
import Verif.Spec.PTree

/-
What the marker API is meant to do: every call is described by its effect on the forest of nodes built
so far, in source order.  No events, no forward links.
-/
namespace Verif.Spec

/-- A piece of the forest built so far. -/
inductive Piece where
  /-- a token that was consumed -/
  | tok (k : SyntaxKind)
  /-- an error recorded here -/
  | err (e : ParseError)
  /-- the beginning of a node that is not completed; `fresh` if the marker comes from `start` (and not
  from `precede` or `undo_completion`) -/
  | mark (m : Nat) (fresh : Bool)
  /-- the beginning of an error node that is not completed -/
  | errMark (m : Nat)
  /-- an error node -/
  | errNode (m : Nat) (children : List Piece) (e : ParseError)
  /-- a node; `m` and `fin` are what its completed marker carries, `live` if that marker can still be
  used (it is consumed by `precede`) -/
  | node (m fin : Nat) (live : Bool) (kind : SyntaxKind) (children : List Piece)

/-- Nothing in these pieces is left open (the children of a completed node never are). -/
def closed : List Piece → Prop
  | [] => True
  | .mark .. :: _ => False
  | .errMark _ :: _ => False
  | _ :: ps => closed ps

mutual
/-- The tree of a completed piece. -/
def Piece.trees : Piece → List PTree
  | .tok k => [.tok k]
  | .err e => [.err e]
  | .mark .. => []
  | .errMark _ => []
  | .errNode _ cs e => [.errNode (treesL cs) e]
  | .node _ _ _ k cs => [.node k (treesL cs)]
def treesL : List Piece → List PTree
  | [] => []
  | p :: ps => p.trees ++ treesL ps
end

/-- Remaining tokens, number of steps recorded so far, and the forest. -/
structure Forest where
  toks : List SyntaxKind
  used : Nat
  pieces : List Piece

/-- What one call does to the forest and what it returns. -/
inductive Does : {β : Type} → Op β → Forest → β → Forest → Prop where
  /-- looking at a token changes nothing -/
  | nth (n : Nat) (f : Forest) : Does (.nth n) f (lookahead f.toks n) f
  /-- consuming a token puts it at the end of the forest -/
  | advance (k : SyntaxKind) (toks : List SyntaxKind) (n : Nat) (ps : List Piece) (h : k ≠ .eof) :
    Does .advance ⟨k :: toks, n, ps⟩ true ⟨toks, n + 1, ps ++ [.tok k]⟩
  /-- an error is recorded at the end -/
  | error (e : ParseError) (toks : List SyntaxKind) (n : Nat) (ps : List Piece) :
    Does (.error e) ⟨toks, n, ps⟩ () ⟨toks, n + 1, ps ++ [.err e]⟩
  /-- a node is begun at the end -/
  | start (toks : List SyntaxKind) (n : Nat) (ps : List Piece) :
    Does .start ⟨toks, n, ps⟩ n ⟨toks, n + 1, ps ++ [.mark n true]⟩
  /-- an error node is begun at the end -/
  | startError (toks : List SyntaxKind) (n : Nat) (ps : List Piece) :
    Does .startError ⟨toks, n, ps⟩ n ⟨toks, n + 1, ps ++ [.errMark n]⟩
  /-- everything since the node was begun becomes its children -/
  | complete (m : Nat) (fr : Bool) (k : SyntaxKind) (toks : List SyntaxKind) (n : Nat)
      (pre cs : List Piece) (hc : closed cs) (hk : k ≠ .tombstone) :
    Does (.complete m k) ⟨toks, n, pre ++ .mark m fr :: cs⟩ ⟨m, n, k⟩
      ⟨toks, n + 1, pre ++ [.node m n true k cs]⟩
  | completeError (m : Nat) (e : ParseError) (toks : List SyntaxKind) (n : Nat)
      (pre cs : List Piece) (hc : closed cs) :
    Does (.completeError m e) ⟨toks, n, pre ++ .errMark m :: cs⟩ ()
      ⟨toks, n + 1, pre ++ [.errNode m cs e]⟩
  /-- an abandoned node is as if it had never been begun: what followed stays where it is -/
  | abandon (m : Nat) (fr : Bool) (toks : List SyntaxKind) (n : Nat) (pre cs : List Piece)
      (h : m + 1 ≠ n) :
    Does (.abandon m) ⟨toks, n, pre ++ .mark m fr :: cs⟩ () ⟨toks, n, pre ++ cs⟩
  /-- likewise right after `start`; right after `precede` this rule does not apply -/
  | abandonLast (m : Nat) (toks : List SyntaxKind) (pre cs : List Piece) :
    Does (.abandon m) ⟨toks, m + 1, pre ++ .mark m true :: cs⟩ () ⟨toks, m, pre ++ cs⟩
  /-- a node is begun just before a completed one -/
  | precede (m fin fin' : Nat) (kd k : SyntaxKind) (toks : List SyntaxKind) (n : Nat)
      (pre cs post : List Piece) :
    Does (.precede ⟨m, fin', kd⟩) ⟨toks, n, pre ++ .node m fin true k cs :: post⟩ n
      ⟨toks, n + 1, pre ++ .mark n false :: .node m fin false k cs :: post⟩
  /-- a completed node is open again -/
  | undoCompletion (m fin : Nat) (kd k : SyntaxKind) (toks : List SyntaxKind) (n : Nat)
      (pre cs post : List Piece) :
    Does (.undoCompletion ⟨m, fin, kd⟩) ⟨toks, n, pre ++ .node m fin true k cs :: post⟩ m
      ⟨toks, n, pre ++ .mark m false :: (cs ++ post)⟩
  /-- a completed node gets another kind -/
  | changeKind (m fin : Nat) (kd k k' : SyntaxKind) (toks : List SyntaxKind) (n : Nat)
      (pre cs post : List Piece) (hk : k' ≠ .tombstone) :
    Does (.changeKind ⟨m, fin, kd⟩ k') ⟨toks, n, pre ++ .node m fin true k cs :: post⟩ ⟨m, fin, kd⟩
      ⟨toks, n, pre ++ .node m fin true k' cs :: post⟩

/-- What a program of such calls does. -/
inductive Builds {α : Type} : Api α → Forest → α → Forest → Prop where
  | pure (a : α) (f : Forest) : Builds (.pure a) f a f
  | call {β : Type} {op : Op β} {k : β → Api α} {f g h : Forest} {b : β} {a : α}
      (d : Does op f b g) (r : Builds (k b) g a h) : Builds (.call op k) f a h

end Verif.Spec
