import Verif.Spec.PTree

/-
An abstract semantics of parser programs that builds trees directly ("frame semantics"), and the
encoding of its states as event lists.  `Prog.run` simulates it (`Proof/FrameSim.lean`).
-/
namespace Verif

/-- A completed piece of the tree.  `node pos kind before after`: the `Start` event of the node is at
index `pos`; `before` are the children that were completed before the node was started (through
`precede`), `after` the later ones. -/
inductive Item where
  | tok (k : SyntaxKind)
  | err (e : ParseError)
  | errNode (children : List Item) (e : ParseError)
  | node (pos : Nat) (kind : SyntaxKind) (before after : List Item)

namespace Item

mutual
def toTree : Item → PTree
  | .tok k => .tok k
  | .err e => .err e
  | .errNode cs e => .errNode (toTreeL cs) e
  | .node _ k bf af => .node k (toTreeL bf ++ toTreeL af)
def toTreeL : List Item → List PTree
  | [] => []
  | i :: is => toTree i :: toTreeL is
end

@[simp] theorem toTreeL_append (a b : List Item) : toTreeL (a ++ b) = toTreeL a ++ toTreeL b := by
  induction a with
  | nil => simp [toTreeL]
  | cons x xs ih => simp [toTreeL, ih]

mutual
/-- number of events of an item -/
def size : Item → Nat
  | .tok _ => 1
  | .err _ => 1
  | .errNode cs _ => sizeL cs + 2
  | .node _ _ bf af => sizeL bf + sizeL af + 2
def sizeL : List Item → Nat
  | [] => 0
  | i :: is => size i + sizeL is
end

@[simp] theorem sizeL_append (a b : List Item) : sizeL (a ++ b) = sizeL a + sizeL b := by
  induction a with
  | nil => simp [sizeL]
  | cons x xs ih => simp [sizeL, ih]; omega

/-- offset of the item's own start event within its encoding -/
def startOff : Item → Nat
  | .node _ _ bf _ => sizeL bf
  | _ => 0

mutual
/-- The events of an item; `fp` is the forward parent of its start event. -/
def enc (fp : Option Nat) : Item → List Event
  | .tok _ => [.token]
  | .err e => [.error e]
  | .errNode cs e => .startError :: (encL cs ++ [.finishError e])
  | .node _ k bf af => encB bf ++ (.start k fp :: (encL af ++ [.finish]))
def encL : List Item → List Event
  | [] => []
  | i :: is => enc none i ++ encL is
/-- The events of the children a node had before it was started: the first one points to the node's
start event. -/
def encB : List Item → List Event
  | [] => []
  | b :: bs => enc (some (size b + sizeL bs - startOff b)) b ++ encL bs
end

@[simp] theorem encL_append (a b : List Item) : encL (a ++ b) = encL a ++ encL b := by
  induction a with
  | nil => simp [encL]
  | cons x xs ih => simp [encL, ih]

mutual
theorem enc_length (fp : Option Nat) : (i : Item) → (enc fp i).length = size i
  | .tok _ => by simp [enc, size]
  | .err _ => by simp [enc, size]
  | .errNode cs e => by simp [enc, size, encL_length cs]
  | .node _ k bf af => by simp [enc, size, encL_length af, encB_length bf]; omega
theorem encL_length : (is : List Item) → (encL is).length = sizeL is
  | [] => by simp [encL, sizeL]
  | i :: is => by simp [encL, sizeL, enc_length none i, encL_length is]
theorem encB_length : (is : List Item) → (encB is).length = sizeL is
  | [] => by simp [encB, sizeL]
  | i :: is => by simp [encB, sizeL, enc_length _ i, encL_length is]
end

/-- The head is a node. -/
def headNode : List Item → Prop
  | [] => True
  | .node .. :: _ => True
  | _ => False

mutual
/-- Node kinds are real kinds and `before` parts start with a node. -/
def ok : Item → Prop
  | .tok _ => True
  | .err _ => True
  | .errNode cs _ => okL cs
  | .node _ k bf af => k ≠ .tombstone ∧ headNode bf ∧ okL bf ∧ okL af
def okL : List Item → Prop
  | [] => True
  | i :: is => ok i ∧ okL is
end

@[simp] theorem okL_append (a b : List Item) : okL (a ++ b) ↔ okL a ∧ okL b := by
  induction a with
  | nil => simp [okL]
  | cons x xs ih => simp [okL, ih, and_assoc]

/-- The top-level nodes of a list of items starting at event index `base` carry their true positions. -/
def posOK : Nat → List Item → Prop
  | _, [] => True
  | base, i :: is =>
    (match i with
      | .node pos _ bf _ => pos = base + sizeL bf
      | _ => True) ∧ posOK (base + size i) is

theorem posOK_append (base : Nat) (a b : List Item) :
    posOK base (a ++ b) ↔ posOK base a ∧ posOK (base + sizeL a) b := by
  induction a generalizing base with
  | nil => simp [posOK, sizeL]
  | cons x xs ih => simp [posOK, sizeL, ih, and_assoc, Nat.add_assoc]

end Item

/-- An open node: the position of its start event, whether it is an error node, the children it took
over at `precede`, and the items before it in the enclosing node (latest first). -/
structure Frame where
  pos : Nat
  isErr : Bool
  before : List Item
  outer : List Item

/-- State of the frame semantics: remaining tokens, number of events so far, the items of the innermost
open node (latest first) and the open nodes. -/
structure FState where
  toks : List SyntaxKind
  ev : Nat
  cur : List Item
  stack : List Frame

/-- Split the items (latest first) at the node with start position `cm`: the node with what follows it,
in source order, and the rest. -/
def splitNode (cm : Nat) : List Item → List Item → Option (List Item × List Item)
  | [], _ => none
  | .node pos k bf af :: rest, acc =>
    if pos = cm then some (.node pos k bf af :: acc, rest)
    else splitNode cm rest (.node pos k bf af :: acc)
  | i :: rest, acc => splitNode cm rest (i :: acc)

/-- Frame semantics of parser programs. -/
def Prog.runF {α : Type} : Prog α → FState → Except Fail (α × FState)
  | .pure a, s => .ok (a, s)
  | .nth n k, s => (k (lookahead s.toks n)).runF s
  | .advance k, s =>
    if lookahead s.toks 0 = .eof then .error .panic
    else (k true).runF { s with toks := s.toks.tail, ev := s.ev + 1,
                                cur := .tok (lookahead s.toks 0) :: s.cur }
  | .start k, s =>
    (k s.ev).runF { s with ev := s.ev + 1, cur := [], stack := ⟨s.ev, false, [], s.cur⟩ :: s.stack }
  | .complete m kind k, s =>
    match s.stack with
    | ⟨pos, false, bf, outer⟩ :: st =>
      if pos = m ∧ kind ≠ .tombstone then
        k.runF { s with ev := s.ev + 1, cur := .node pos kind bf s.cur.reverse :: outer, stack := st }
      else .error .panic
    | _ => .error .panic
  | .precede cm k, s =>
    match splitNode cm s.cur [] with
    | some (bf, outer) =>
      (k s.ev).runF { s with ev := s.ev + 1, cur := [], stack := ⟨s.ev, false, bf, outer⟩ :: s.stack }
    | none => .error .panic
  | .startError k, s =>
    (k s.ev).runF { s with ev := s.ev + 1, cur := [], stack := ⟨s.ev, true, [], s.cur⟩ :: s.stack }
  | .completeError m e k, s =>
    match s.stack with
    | ⟨pos, true, _, outer⟩ :: st =>
      if pos = m then
        k.runF { s with ev := s.ev + 1, cur := .errNode s.cur.reverse e :: outer, stack := st }
      else .error .panic
    | _ => .error .panic
  | .error e k, s => k.runF { s with ev := s.ev + 1, cur := .err e :: s.cur }
  | .panic, _ => .error .panic
  | .outOfFuel, _ => .error .fuel

end Verif
