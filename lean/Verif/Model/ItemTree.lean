import Verif.Model.Ptr
import Verif.Model.Ast

/-
Model of crates/hir/src/item_tree.rs, crates/hir/src/item_tree/lower.rs and crates/hir/src/name.rs.  `none` on the
outside is a panic.  An arena is the list of its elements and an index into it a natural number.
Not modelled: `collect_inner_items` (lower.rs:59-88, no caller) and the `inner_items` it fills, `shrink_to_fit`.
-/
namespace Verif.Hir
open Ast

/-- item_tree.rs:196-200, `LocalAssign`; name.rs:4-7, `MultiName`. -/
structure LocalAssign where
  names : List Text
  astId : Nat
  deriving DecidableEq, Repr

/-- hir/src/expr.rs:34-38, `ParamList`. -/
structure ParamList where
  names : List Text
  vararg : Bool
  deriving DecidableEq, Repr

/-- item_tree.rs:202-207, `LocalFunction`. -/
structure LocalFunction where
  name : Text
  params : ParamList
  astId : Nat
  deriving DecidableEq, Repr

/-- item_tree.rs:209-215, `Function`; item_tree.rs:185-188, `IndexPath`. -/
structure Function where
  path : List Text
  name : Text
  isMethod : Bool
  astId : Nat
  deriving DecidableEq, Repr

/-- item_tree.rs:219-224, `ModItem`. -/
inductive ModItem where
  | localAssign (i : Nat)
  | localFunction (i : Nat)
  | function (i : Nat)
  deriving DecidableEq, Repr

/-- item_tree.rs:27-31, `ItemTree`, and item_tree.rs:68-75, `ItemTreeData`. -/
structure ItemTree where
  topLevel : List ModItem := []
  localAssigns : List LocalAssign := []
  localFunctions : List LocalFunction := []
  functions : List Function := []
  /-- `inner_items`, a hash map: the items listed under the id of a block; a block without an entry has none. -/
  inner : List (Nat × List ModItem) := []
  deriving DecidableEq, Repr

/-- lower.rs:21-25, `Ctx`. -/
structure Ctx where
  tree : ItemTree
  arena : List NodePtr
  deriving DecidableEq, Repr

/-- lower.rs:153-156, `lower_multi_name`, and name.rs:36-40, `AsName for ast::Name`. -/
def lowerMultiName (m : Red) : Option (List Text) := (MultiName.names m).mapM Name.text

/-- lower.rs:148-151, `lower_index_path`, and name.rs:42-46, `AsName for ast::NameRef`. -/
def lowerIndexPath (p : Red) : Option (List Text) := (Ast.IndexPath.nameRefs p).mapM NameRef.text

/-- lower.rs:158-163, `lower_params`; the inner `none` is an early return. -/
def lowerParams (p : Red) : Option (Option ParamList) :=
  match Ast.ParamList.multiName p with
  | none => some none
  | some m => (lowerMultiName m).map fun names => some ⟨names, (Ast.ParamList.tripleDotToken p).isSome⟩

/-- lower.rs:90-100, `lower_local_assign`. -/
def lowerLocalAssign (ctx : Ctx) (assign : Red) : Option (Option Nat × Ctx) :=
  match LocalAssignStmt.multiName assign with
  | none => some (none, ctx)
  | some m => do
    let names ← lowerMultiName m
    let id ← AstIdMap.astId ctx.arena assign
    pure (some ctx.tree.localAssigns.length,
      { ctx with tree := { ctx.tree with localAssigns := ctx.tree.localAssigns ++ [⟨names, id⟩] } })

/-- lower.rs:102-113, `lower_local_function`. -/
def lowerLocalFunction (ctx : Ctx) (func : Red) : Option (Option Nat × Ctx) :=
  match LocalFunctionDefStmt.name func with
  | none => some (none, ctx)
  | some n => do
    let name ← Name.text n
    match LocalFunctionDefStmt.paramList func with
    | none => pure (none, ctx)
    | some p =>
      match ← lowerParams p with
      | none => pure (none, ctx)
      | some params =>
        let id ← AstIdMap.astId ctx.arena func
        pure (some ctx.tree.localFunctions.length,
          { ctx with tree := { ctx.tree with localFunctions := ctx.tree.localFunctions ++ [⟨name, params, id⟩] } })

/-- lower.rs:124-146, `lower_function_content`. -/
def lowerFunctionContent (content : Red) : Option (Option (List Text × Text × Bool)) :=
  match content.kind with
  | .functionMethod =>
    match Ast.FunctionMethod.indexPath content with
    | none => some none
    | some p => do
      let path ← lowerIndexPath p
      match Ast.FunctionMethod.name content with
      | none => pure none
      | some n => let name ← Name.text n; pure (some (path, name, true))
  | .functionStatic =>
    match Ast.FunctionStatic.indexPath content with
    | none => some none
    | some p => do
      let path ← lowerIndexPath p
      match Ast.FunctionStatic.name content with
      | none => pure none
      | some n => let name ← Name.text n; pure (some (path, name, false))
  | _ => do
    let name ← Name.text content
    pure (some ([], name, false))

/-- lower.rs:115-122, `lower_function`. -/
def lowerFunction (ctx : Ctx) (func : Red) : Option (Option Nat × Ctx) :=
  match FunctionDefStmt.functionDefContent func with
  | none => some (none, ctx)
  | some c => do
    match ← lowerFunctionContent c with
    | none => pure (none, ctx)
    | some (path, name, isMethod) =>
      let id ← AstIdMap.astId ctx.arena func
      pure (some ctx.tree.functions.length,
        { ctx with tree := { ctx.tree with functions := ctx.tree.functions ++ [⟨path, name, isMethod, id⟩] } })

/-- lower.rs:43-57, `lower_mod_item`. -/
def lowerModItem (ctx : Ctx) : StmtItem → Option (Option ModItem × Ctx)
  | .localAssignStmt r => (lowerLocalAssign ctx r).map fun (i, ctx) => (i.map .localAssign, ctx)
  | .localFunctionDefStmt r => (lowerLocalFunction ctx r).map fun (i, ctx) => (i.map .localFunction, ctx)
  | .functionDefStmt r => (lowerFunction ctx r).map fun (i, ctx) => (i.map .function, ctx)

/-- lower.rs:37-38: the items in turn (`flat_map`, `collect`). -/
def lowerItems (ctx : Ctx) : List StmtItem → Option (List ModItem × Ctx)
  | [] => some ([], ctx)
  | item :: items => do
    let (m, ctx) ← lowerModItem ctx item
    let (ms, ctx) ← lowerItems ctx items
    pure (m.toList ++ ms, ctx)

/-- lower.rs:36-41, `lower_module_items`. -/
def lowerModuleItems (ctx : Ctx) (module_ : Red) : Option ItemTree := do
  let (top, ctx) ← lowerItems ctx ((SourceFile.stmtItems module_).filterMap StmtItem.cast)
  pure { ctx.tree with topLevel := top }

/-- rowan, `WalkEvent`. -/
inductive WalkEvent where
  | enter (r : Red)
  | leave (r : Red)

/- rowan, `SyntaxNode::preorder`: entering and leaving the nodes of a tree (tokens are left out). -/
mutual
def preorder (path : List Nat) (off : Nat) : Green → List WalkEvent
  | .token _ _ => []
  | .node k cs => .enter ⟨path, off, .node k cs⟩ :: (preorderL path 0 off cs ++ [.leave ⟨path, off, .node k cs⟩])
def preorderL (path : List Nat) (i off : Nat) : List Green → List WalkEvent
  | [] => []
  | g :: gs => preorder (path ++ [i]) off g ++ preorderL path (i + 1) (off + g.len) gs
end

/-- lower.rs:75, `inner_items.entry(*block).or_default().push(mod_item)`. -/
def pushInner (id : Nat) (item : ModItem) : List (Nat × List ModItem) → List (Nat × List ModItem)
  | [] => [(id, [item])]
  | (i, items) :: rest => if i = id then (i, items ++ [item]) :: rest else (i, items) :: pushInner id item rest

/-- lower.rs:62-86, one round of the loop of `collect_inner_items`.  The top of `block_stack` is the head. -/
def collectStep (s : Ctx × List Nat) : WalkEvent → Option (Ctx × List Nat)
  | .enter node =>
    if node.kind = .block then (AstIdMap.astId s.1.arena node).map fun id => (s.1, id :: s.2)
    else
      match StmtItem.cast node with
      | none => some s
      | some item => do
        let (modItem, ctx) ← lowerModItem s.1 item
        match modItem, s.2.head? with
        | some m, some block =>
          pure ({ ctx with tree := { ctx.tree with inner := pushInner block m ctx.tree.inner } }, s.2)
        | _, _ => pure (ctx, s.2)
  | .leave node => some (if node.kind = .block then (s.1, s.2.tail) else s)

/-- lower.rs:59-88, `collect_inner_items` (nothing calls it). -/
def collectInnerItems (ctx : Ctx) (container : Red) : Option Ctx :=
  (((preorder container.path container.off container.green).drop 1).foldlM collectStep (ctx, [])).map (·.1)

/-- item_tree.rs:34-48, `file_item_tree_query` of a parsed file. -/
def fileItemTree (tree : Green) (errors : List SyntaxError) : Option ItemTree := do
  let arena ← AstIdMap.ofFile tree errors
  if tree.kind = .sourceFile then lowerModuleItems ⟨{}, arena⟩ (Red.root tree) else none

/-- item_tree.rs:171-184, `HasSource for ItemTreeId`, with ptr.rs `AstPtr::to_node`: the node of an item by its id. -/
def source (arena : List NodePtr) (canCast : SyntaxKind → Bool) (tree : Green) (id : Nat) : Option Red :=
  (AstIdMap.get arena canCast id).bind (NodePtr.toNode · tree)

end Verif.Hir
