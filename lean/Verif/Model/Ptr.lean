import Verif.Model.Red

/-
Model of crates/syntax/src/ptr.rs and crates/hir/src/ast_id_map.rs.  `none` is a panic.
-/
namespace Verif

/-- ptr.rs:12-16, `SyntaxNodePtr`. -/
structure NodePtr where
  range : Range
  kind : SyntaxKind
  deriving DecidableEq, Repr

namespace NodePtr

/-- ptr.rs:19-21, `new`. -/
def new (r : Red) : NodePtr := ⟨r.range, r.kind⟩

mutual
/-- ptr.rs:25-28: the nodes on the way down (`successors`), and the first of them with the range and the kind of
the pointer (`find`).  The next node on the way is the first child whose range contains the one looked for. -/
def find (p : NodePtr) (path : List Nat) (off : Nat) : Green → Option Red
  | .token _ _ => none
  | .node k cs =>
    if (Green.node k cs).range off = p.range ∧ k = p.kind then some ⟨path, off, .node k cs⟩
    else findIn p path 0 off cs
def findIn (p : NodePtr) (path : List Nat) (i off : Nat) : List Green → Option Red
  | [] => none
  | g :: gs =>
    if g.isNode && (g.range off).containsRange p.range then find p (path ++ [i]) off g
    else findIn p path (i + 1) (off + g.len) gs
end

/-- ptr.rs:23-30, `to_node` on the root of a tree. -/
def toNode (p : NodePtr) (root : Green) : Option Red := find p [] 0 root

end NodePtr

/- ast_id_map.rs:120-140: the walk over one node of a layer.  The nodes visited, in order, and the nodes put in the
next layer. -/
mutual
def bdfsVisit (f : Red → Bool) (path : List Nat) (off : Nat) : Green → List Red × List Red
  | .token _ _ => ([], [])
  | .node k cs =>
    let node : Red := ⟨path, off, .node k cs⟩
    if f node then ([node], node.children)
    else
      let r := bdfsVisitL f path 0 off cs
      (node :: r.1, r.2)
def bdfsVisitL (f : Red → Bool) (path : List Nat) (i off : Nat) : List Green → List Red × List Red
  | [] => ([], [])
  | g :: gs =>
    let r := bdfsVisit f (path ++ [i]) off g
    let rs := bdfsVisitL f path (i + 1) (off + g.len) gs
    (r.1 ++ rs.1, r.2 ++ rs.2)
end

/-- ast_id_map.rs:123-139, the loop over the layers: the nodes `f` is called on, in order.  Fuel bounds the number of
layers; `none` is running out of it. -/
def bdfsLoop (f : Red → Bool) : Nat → List Red → Option (List Red)
  | 0, _ => none
  | fuel + 1, layer =>
    if layer.isEmpty then some []
    else
      let rs := layer.map fun r => bdfsVisit f r.path r.off r.green
      (bdfsLoop f fuel (rs.flatMap (·.2))).map (rs.flatMap (·.1) ++ ·)

/-- ast_id_map.rs:120-140, `bdfs`; the number of layers is at most one more than the number of nodes. -/
def bdfs (f : Red → Bool) (node : Red) : Option (List Red) :=
  bdfsLoop f ((node.green.nodes 0).length + 2) [node]

namespace AstIdMap

/-- nodes.rs:1543-1550, the kinds that cast to `ast::StmtItem`, and `Block`: ast_id_map.rs:70-82. -/
def isItem (r : Red) : Bool :=
  r.kind == .localAssignStmt || r.kind == .localFunctionDefStmt || r.kind == .functionDefStmt || r.kind == .block

/-- ast_id_map.rs:60-85, `from_source`: the arena is the list of pointers; an id is an index.  `hasParent` is the
condition of the assertion. -/
def fromSource (node : Red) : Option (List NodePtr) :=
  if node.path = [] then none
  else (bdfs isItem node).map fun visited => (visited.filter isItem).map NodePtr.new

/-- ast_id_map.rs:92-102, `erased_ast_id`. -/
def astId (arena : List NodePtr) (item : Red) : Option Nat := arena.idxOf? (NodePtr.new item)

/-- ast_id_map.rs:104-106, `get`, with ptr.rs:32-37: the pointer, if its kind casts to the kind of the id. -/
def get (arena : List NodePtr) (canCast : SyntaxKind → Bool) (id : Nat) : Option NodePtr :=
  match arena[id]? with
  | none => none
  | some p => if canCast p.kind then some p else none

/-- hir/src/lib.rs:49-55, `ast_id_map` of a parsed file. -/
def ofFile (tree : Green) (errors : List SyntaxError) : Option (List NodePtr) :=
  if errors.isEmpty then fromSource (Red.root tree) else some []

end AstIdMap
end Verif
