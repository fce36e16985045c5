import Verif.Model.ItemTree
import Verif.Props.PtrExact
import Verif.Props.AstMore
import Verif.Proof.DiagnosticsProof

/-
C74: the item tree of a file.  C81: from an item back to its statement.
-/
namespace Verif.Hir
open Spec Lua

variable {text : Text} {r : Red}

/-! ### C74: the item tree of a file -/

/-- **C74** as stated fails: asking for the item tree of any file that parses without errors is a panic. -/
theorem C74_fails (tree : Green) : fileItemTree tree [] = none := rfl

/-- **C74** fails for the other files too: the item tree of a file with syntax errors is empty. -/
theorem C74_errors_fail (text : Text) (tree : Green) (errors : List SyntaxError)
    (h : parseText text = .ok (tree, errors)) (he : errors ≠ []) : fileItemTree tree errors = some {} := by
  obtain ⟨cs, es, h1, -⟩ := C03_root text
  rw [h] at h1
  simp only [Except.ok.injEq, Prod.mk.injEq] at h1
  obtain ⟨rfl, rfl⟩ := h1
  cases errors with
  | nil => exact absurd rfl he
  | cons e es =>
    simp [fileItemTree, AstIdMap.ofFile, Green.kind, lowerModuleItems, Ast.SourceFile.stmtItems, Ast.children,
      Red.children, Red.elems, Red.elemsFrom, Red.root, Green.children, Red.kind, Ast.Can.stmtItem, lowerItems,
      Green.isNode]

private theorem node_child {k : SyntaxKind} (h : NodeOf text k r) {x : Red} (hx : x ∈ parts r) {k' : SyntaxKind}
    (hs : sym x = .node k') : NodeOf text k' x := by
  obtain ⟨tree, h1, h2, _⟩ := h
  rw [sym_node] at hs
  exact ⟨tree, h1, .child h2 (List.mem_filter.2 ⟨(List.mem_filter.1 hx).1, hs.1⟩), hs.2⟩

/-- The names written in a list of names, in order. -/
def namesOf (m : Red) : List Text := ((parts m).filter (·.green.isNode)).map (·.green.text)

private theorem names_lower (h : NodeOf text .multiName r) : lowerMultiName r = some (namesOf r) := by
  obtain ⟨h1, h2⟩ := C68_names h
  rw [lowerMultiName, h2, namesOf, mapM_some_iff, List.map_map]
  apply List.map_congr_left
  intro x hx
  obtain ⟨hx, hn⟩ := List.mem_filter.1 hx
  have hs : sym x = .node .name := by
    rcases h1 x hx with hs | hs
    · exact hs
    · rw [sym_tok] at hs; simp [hs.1] at hn
  obtain ⟨tree, h3, h4, h5⟩ := node_child h hx hs
  obtain ⟨w, h6, h7, _⟩ := C63_name text tree [] h3 x h4 h5
  simp [h6, h7]

private theorem path_lower (h : NodeOf text .indexPath r) : lowerIndexPath r = some (namesOf r) := by
  obtain ⟨h1, h2⟩ := C68_path h
  rw [lowerIndexPath, h2, namesOf, mapM_some_iff, List.map_map]
  apply List.map_congr_left
  intro x hx
  obtain ⟨hx, hn⟩ := List.mem_filter.1 hx
  have hs : sym x = .node .nameRef := by
    rcases h1 x hx with hs | hs
    · exact hs
    · rw [sym_tok] at hs; simp [hs.1] at hn
  obtain ⟨w, h6, h7, _⟩ := C63_nameRef_clean (node_child h hx hs)
  simp [h6, h7]

private theorem name_lower (h : NodeOf text .name r) : Ast.Name.text r = some r.green.text := by
  obtain ⟨tree, h3, h4, h5⟩ := h
  obtain ⟨w, h6, h7, _⟩ := C63_name text tree [] h3 r h4 h5
  rw [h6, h7]

/-- **C74**, one `local a, b = …` (missing: it is never reached): it adds one item, whose names are the declared names in
order, and nothing else. -/
theorem C74_localAssign_partial (h : NodeOf text .localAssignStmt r) (ctx : Ctx) (id : Nat)
    (hid : AstIdMap.astId ctx.arena r = some id) : ∃ l m vs, parts r = l :: m :: vs ∧ sym m = .node .multiName ∧
    lowerModItem ctx (.localAssignStmt r) = some (some (.localAssign ctx.tree.localAssigns.length),
      { ctx with tree := { ctx.tree with localAssigns := ctx.tree.localAssigns ++ [⟨namesOf m, id⟩] } }) := by
  obtain ⟨l, m, vs, hp, _, hm, _, hmn, _⟩ := C68_local h
  refine ⟨l, m, vs, hp, hm, ?_⟩
  have := names_lower (node_child h (by simp [hp]) hm)
  simp [lowerModItem, lowerLocalAssign, hmn, this, hid]

/-- **C74**, one `local function f(…)` (missing: it is never reached, and it is dropped if the parameter list is `()`):
it adds one item with the name, the parameters in order and whether there is a `...`. -/
theorem C74_localFunction_partial (h : NodeOf text .localFunctionDefStmt r) (ctx : Ctx) (id : Nat)
    (hid : AstIdMap.astId ctx.arena r = some id) : ∃ l f n p b x, parts r = [l, f, n, p, b, x] ∧
    sym n = .node .name ∧ sym p = .node .paramList ∧
    (((parts p).map sym = [.tok .lParen, .tok .rParen] ∧ lowerModItem ctx (.localFunctionDefStmt r) = some (none, ctx)) ∨
      ∃ lp m vs rp, parts p = lp :: m :: (vs ++ [rp]) ∧ sym m = .node .multiName ∧
        (vs = [] ∨ vs.map sym = [.tok .tripleDot]) ∧
        lowerModItem ctx (.localFunctionDefStmt r) = some (some (.localFunction ctx.tree.localFunctions.length),
          { ctx with tree := { ctx.tree with localFunctions := ctx.tree.localFunctions ++
            [⟨n.green.text, ⟨namesOf m, !vs.isEmpty⟩, id⟩] } })) := by
  obtain ⟨l, f, n, p, b, x, hp, _, _, hn, hpl, _, _, _, _, hnn, hpp, _, _⟩ := C65_localFunction h
  refine ⟨l, f, n, p, b, x, hp, hn, hpl, ?_⟩
  have h1 := name_lower (node_child h (by simp [hp]) hn)
  have h2 := node_child h (by simp [hp]) hpl
  obtain ⟨lp, ns, vs, rp, h3, h4, h5, _, _, h6, h7⟩ := C68_params h2
  rcases h6 with ⟨rfl, h6⟩ | ⟨m, rfl, hm, h6⟩
  · refine .inl ⟨?_, by simp [lowerModItem, lowerLocalFunction, hnn, h1, hpp, lowerParams, h6]⟩
    obtain ⟨ss, e, P⟩ := production h2
    cases P with
    | paramListEmpty => exact e
    | paramList =>
      exfalso
      rcases h7 with ⟨rfl, _⟩ | ⟨v, rfl, hv, _⟩
      · simp [h3] at e
      · simp [h3, hv] at e
    | paramListVararg =>
      exfalso
      rcases h7 with ⟨rfl, _⟩ | ⟨v, rfl, hv, _⟩ <;> simp [h3] at e
  · refine .inr ⟨lp, m, vs, rp, by simp [h3], hm, ?_, ?_⟩
    · rcases h7 with ⟨rfl, _⟩ | ⟨v, rfl, hv, _⟩ <;> simp [*]
    · have h8 := names_lower (node_child h2 (by simp [h3]) hm)
      have h9 : (Ast.ParamList.tripleDotToken p).isSome = !vs.isEmpty := by
        rcases h7 with ⟨rfl, h7⟩ | ⟨v, rfl, hv, h7⟩ <;> simp [h7]
      simp [lowerModItem, lowerLocalFunction, hnn, h1, hpp, lowerParams, h6, h8, h9, hid]

/-- **C74** fails for `function f(…)`: it never becomes an item. -/
theorem C74_function_fails (h : NodeOf text .functionDefStmt r) (ctx : Ctx) :
    lowerModItem ctx (.functionDefStmt r) = some (none, ctx) := by
  obtain ⟨_, _, _, _, _, _, _, _, _, _, _, h1⟩ := C70_function_fails h
  simp [lowerModItem, lowerFunction, h1]

/-- **C74**, the name of a function (missing: it is never reached): path, name and whether it is a method, as written. -/
theorem C74_method_partial (h : NodeOf text .functionMethod r) : ∃ p c n, parts r = [p, c, n] ∧
    sym p = .node .indexPath ∧ sym n = .node .name ∧
    lowerFunctionContent r = some (some (namesOf p, n.green.text, true)) := by
  obtain ⟨p, c, n, hp, h1, _, h2, h3, _, h4⟩ := C68_method h
  refine ⟨p, c, n, hp, h1, h2, ?_⟩
  have h5 := path_lower (node_child h (by simp [hp]) h1)
  have h6 := name_lower (node_child h (by simp [hp]) h2)
  have hk : r.kind = .functionMethod := by obtain ⟨_, _, _, e⟩ := h; exact e
  simp [lowerFunctionContent, hk, h3, h4, h5, h6]

/-- **C74**, `function a.b.c()` -/
theorem C74_static_partial (h : NodeOf text .functionStatic r) : ∃ p n, parts r = [p, n] ∧
    sym p = .node .indexPath ∧ sym n = .node .name ∧
    lowerFunctionContent r = some (some (namesOf p, n.green.text, false)) := by
  obtain ⟨p, n, hp, h1, h2, h3, h4⟩ := C68_static h
  refine ⟨p, n, hp, h1, h2, ?_⟩
  have h5 := path_lower (node_child h (by simp [hp]) h1)
  have h6 := name_lower (node_child h (by simp [hp]) h2)
  have hk : r.kind = .functionStatic := by obtain ⟨_, _, _, e⟩ := h; exact e
  simp [lowerFunctionContent, hk, h3, h4, h5, h6]

/-- **C74**, `function f()` -/
theorem C74_plainName_partial (h : NodeOf text .name r) :
    lowerFunctionContent r = some (some ([], r.green.text, false)) := by
  have h6 := name_lower h
  have hk : r.kind = .name := by obtain ⟨_, _, _, e⟩ := h; exact e
  simp [lowerFunctionContent, hk, h6]

/-! ### C81: the items of a list of statements, and the way back -/

/-- The statements that become items: `local` declarations, and local functions with a parameter list other than `()`. -/
def kept (stmt : Red) : Bool :=
  stmt.kind == .localAssignStmt ||
    (stmt.kind == .localFunctionDefStmt && (parts stmt).any fun p => p.kind == .paramList && (parts p).length != 2)

/-- The item of an item tree says what the statement says, and its source is the statement. -/
inductive Describes (tree : Green) (arena : List NodePtr) (t : ItemTree) (stmt : Red) : ModItem → Prop where
  | localAssign (i id : Nat) (l m : Red) (vs : List Red) :
      t.localAssigns[i]? = some ⟨namesOf m, id⟩ → parts stmt = l :: m :: vs → sym m = .node .multiName →
      source arena (· == .localAssignStmt) tree id = some stmt → Describes tree arena t stmt (.localAssign i)
  | localFunction (i id : Nat) (l f n p b x lp m : Red) (vs : List Red) (rp : Red) :
      t.localFunctions[i]? = some ⟨n.green.text, ⟨namesOf m, !vs.isEmpty⟩, id⟩ → parts stmt = [l, f, n, p, b, x] →
      sym n = .node .name → parts p = lp :: m :: (vs ++ [rp]) → sym m = .node .multiName →
      (vs = [] ∨ vs.map sym = [.tok .tripleDot]) →
      source arena (· == .localFunctionDefStmt) tree id = some stmt → Describes tree arena t stmt (.localFunction i)

/-- The items of `t` are items of `u`. -/
def Ext (t u : ItemTree) : Prop :=
  (∃ l, u.localAssigns = t.localAssigns ++ l) ∧ ∃ l, u.localFunctions = t.localFunctions ++ l

theorem Describes.mono {tree : Green} {arena : List NodePtr} {t u : ItemTree} {stmt : Red} {m : ModItem}
    (h : Describes tree arena t stmt m) (e : Ext t u) : Describes tree arena u stmt m := by
  obtain ⟨⟨l1, e1⟩, ⟨l2, e2⟩⟩ := e
  have grow : ∀ {α : Type} {l l' k : List α} {i : Nat} {a : α}, l' = l ++ k → l[i]? = some a → l'[i]? = some a := by
    intro α l l' k i a e h
    rw [e, List.getElem?_append_left]
    · exact h
    · exact (List.getElem?_eq_some_iff.1 h).1
  cases h with
  | localAssign i id l m vs h1 h2 h3 h4 => exact .localAssign i id l m vs (grow e1 h1) h2 h3 h4
  | localFunction i id l f n p b x lp m vs rp h1 h2 h3 h4 h5 h6 h7 =>
    exact .localFunction i id l f n p b x lp m vs rp (grow e2 h1) h2 h3 h4 h5 h6 h7

theorem describes_zip {tree : Green} {arena : List NodePtr} {t u : ItemTree} {ss : List Red} {ms : List ModItem}
    (h : ∀ q ∈ ss.zip ms, Describes tree arena t q.1 q.2) (e : Ext t u) : ∀ q ∈ ss.zip ms, Describes tree arena u q.1 q.2 :=
  fun q hq => (h q hq).mono e

/-- One statement. -/
theorem lower_one {tree : Green} (ctx : Ctx) (stmt : Red) (item : Ast.StmtItem)
    (hp : parseText text = .ok (tree, [])) (hb : Below (Red.root tree) stmt) (hc : Ast.StmtItem.cast stmt = some item)
    (hid : ∃ id, AstIdMap.astId ctx.arena stmt = some id ∧ ∀ canCast : SyntaxKind → Bool, canCast stmt.kind = true →
      source ctx.arena canCast tree id = some stmt) :
    ∃ ms ctx', lowerModItem ctx item = some (ms, ctx') ∧ ctx'.arena = ctx.arena ∧ Ext ctx.tree ctx'.tree ∧
      ((kept stmt = true ∧ ∃ m, ms = some m ∧ Describes tree ctx.arena ctx'.tree stmt m) ∨ (kept stmt = false ∧ ms = none)) := by
  obtain ⟨id, h1, h2⟩ := hid
  unfold Ast.StmtItem.cast at hc
  split at hc
  all_goals first | cases hc | skip
  · rename_i hk
    obtain ⟨l, m, vs, h3, h4, h5⟩ := C74_localAssign_partial ⟨tree, hp, hb, hk⟩ ctx id h1
    refine ⟨_, _, h5, rfl, ⟨⟨_, rfl⟩, [], by simp⟩, .inl ⟨by simp [kept, hk], _, rfl, ?_⟩⟩
    exact .localAssign _ id l m vs (by simp) h3 h4 (h2 _ (by simp [hk]))
  · rename_i hk
    obtain ⟨l, f, n, p, b, x, h3, h4, h5, h6⟩ := C74_localFunction_partial ⟨tree, hp, hb, hk⟩ ctx id h1
    have hkp : kept stmt = ((parts p).length != 2) := by
      obtain ⟨l', f', n', p', b', x', h7, s1, s2, s3, s4, s5, s6, _⟩ := C65_localFunction (text := text) ⟨tree, hp, hb, hk⟩
      rw [h3] at h7
      simp only [List.cons.injEq, and_true] at h7
      obtain ⟨rfl, rfl, rfl, rfl, rfl, rfl⟩ := h7
      rw [sym_tok] at s1 s2 s6
      rw [sym_node] at s3 s4 s5
      simp only [kept, hk, h3, s1.2, s2.2, s3.2, s4.2, s5.2, s6.2, List.any_cons, List.any_nil]
      generalize ((parts p).length != 2) = q
      cases q <;> rfl
    rcases h6 with ⟨h6, h7⟩ | ⟨lp, m, vs, rp, h6, h7, h8, h9⟩
    · refine ⟨_, _, h7, rfl, ⟨⟨[], by simp⟩, [], by simp⟩, .inr ⟨?_, rfl⟩⟩
      have := congrArg List.length h6
      simp at this
      simp [hkp, this]
    · refine ⟨_, _, h9, rfl, ⟨⟨[], by simp⟩, _, rfl⟩, .inl ⟨by simp [hkp, h6], _, rfl, ?_⟩⟩
      exact .localFunction _ id l f n p b x lp m vs rp (by simp) h3 h4 h6 h7 h8 (h2 _ (by simp [hk]))
  · rename_i hk
    refine ⟨_, _, C74_function_fails ⟨tree, hp, hb, hk⟩ ctx, rfl, ⟨⟨[], by simp⟩, [], by simp⟩, .inr ⟨by simp [kept, hk], rfl⟩⟩

/-- **C81** (missing: the code never lowers the statements of a file, see `C74_fails`): lowering statements of an
error-free file that have ids never panics and gives, in order, one item for every statement that is a `local`
declaration or a local function with a parameter list other than `()`; each item has the names the statement
declares, and its source is that very statement. -/
theorem C81_items_partial (text : Text) (tree : Green) (h : parseText text = .ok (tree, [])) (node : Red)
    (hn : Below (Red.root tree) node) (hp : node.path ≠ []) (arena : List NodePtr)
    (ha : AstIdMap.fromSource node = some arena) (stmts : List Red) (hs : ∀ s ∈ stmts, Below node s)
    (items : List Ast.StmtItem) (hi : stmts.map Ast.StmtItem.cast = items.map some) :
    ∃ top ctx', lowerItems ⟨{}, arena⟩ items = some (top, ctx') ∧ top.length = (stmts.filter kept).length ∧
      ∀ q ∈ (stmts.filter kept).zip top, Describes tree arena ctx'.tree q.1 q.2 := by
  obtain ⟨arena', ha', hids⟩ := C53_error_free_partial text tree h node hn hp
  rw [ha] at ha'
  cases ha'
  have trans : ∀ {x}, Below node x → Below (Red.root tree) x := by
    intro x hx
    induction hx with
    | self => exact hn
    | child _ hc ih => exact .child ih hc
  suffices H : ∀ (stmts : List Red) (items : List Ast.StmtItem) (ctx : Ctx), (∀ s ∈ stmts, Below node s) →
      stmts.map Ast.StmtItem.cast = items.map some → ctx.arena = arena →
      ∃ top ctx', lowerItems ctx items = some (top, ctx') ∧ top.length = (stmts.filter kept).length ∧
      Ext ctx.tree ctx'.tree ∧ ∀ q ∈ (stmts.filter kept).zip top, Describes tree arena ctx'.tree q.1 q.2 by
    obtain ⟨top, ctx', h1, h2, _, h3⟩ := H stmts items ⟨{}, arena⟩ hs hi rfl
    exact ⟨top, ctx', h1, h2, h3⟩
  intro stmts
  induction stmts with
  | nil =>
    intro items ctx _ hi hctx
    cases items with
    | nil => exact ⟨[], ctx, rfl, rfl, ⟨⟨[], by simp⟩, [], by simp⟩, by simp⟩
    | cons _ _ => simp at hi
  | cons s ss ih =>
    intro items ctx hs hi hctx
    cases items with
    | nil => simp at hi
    | cons item items =>
      simp only [List.map_cons, List.cons.injEq] at hi
      have hb := hs s (by simp)
      have hitem : s.kind ∈ itemKinds := by
        have := hi.1
        unfold Ast.StmtItem.cast at this
        split at this <;> simp_all [itemKinds]
      obtain ⟨id, h1, _, h2⟩ := hids s hb hitem
      have hne : s.green.text ≠ [] := by
        refine node_ne (text := text) ⟨tree, h, trans hb, rfl⟩ ?_ ?_ ?_ <;>
        · intro e
          have := hi.1
          simp [Ast.StmtItem.cast, e] at this
      subst hctx
      obtain ⟨m, ctx1, h3, h4, h5, h6⟩ := lower_one ctx s item h (trans hb) hi.1
        ⟨id, h1, fun can hcan => h2 can hcan hne⟩
      obtain ⟨top, ctx2, h7, h8, h9, h10⟩ := ih items ctx1 (fun x hx => hs x (by simp [hx])) hi.2 h4
      have hext : Ext ctx.tree ctx2.tree := by
        obtain ⟨⟨a1, e1⟩, ⟨b1, f1⟩⟩ := h5
        obtain ⟨⟨a2, e2⟩, ⟨b2, f2⟩⟩ := h9
        exact ⟨⟨a1 ++ a2, by rw [e2, e1]; simp⟩, b1 ++ b2, by rw [f2, f1]; simp⟩
      refine ⟨m.toList ++ top, ctx2, by simp [lowerItems, h3, h7], ?_, hext, ?_⟩
      · rcases h6 with ⟨k, m', rfl, _⟩ | ⟨k, rfl⟩ <;> simp [k, h8]
      · rcases h6 with ⟨k, m', rfl, hd⟩ | ⟨k, rfl⟩
        · simp only [List.filter_cons, k, if_true, Option.toList, List.cons_append, List.nil_append, List.zip_cons_cons]
          intro q hq
          rcases List.mem_cons.1 hq with rfl | hq
          · exact hd.mono h9
          · exact h10 q hq
        · simp only [List.filter_cons, k, Option.toList, List.nil_append]
          exact h10

/-- The hypotheses are met, and what comes out: the items of
`local a,b=1,-2 local c local function f(x,...)return ... end`. -/
example : ∃ node arena items, Below (Red.root program1) node ∧ node.path ≠ [] ∧ AstIdMap.fromSource node = some arena ∧
    node.children.map Ast.StmtItem.cast = items.map some ∧
    (lowerItems ⟨{}, arena⟩ items).map (fun q => (q.1, q.2.tree.localAssigns.map (·.names),
      q.2.tree.localFunctions.map fun f => (f.name, f.params))) =
    some ([.localAssign 0, .localAssign 1, .localFunction 0], [["a".toList, "b".toList], ["c".toList]],
      [("f".toList, ⟨["x".toList], true⟩)]) := by
  refine ⟨⟨[0], 0, program1.children.headD default⟩, ((AstIdMap.fromSource ⟨[0], 0, program1.children.headD default⟩).getD []),
    ((Red.children ⟨[0], 0, program1.children.headD default⟩).filterMap Ast.StmtItem.cast), .child .self ?_, by simp, ?_, ?_, ?_⟩
  · simp [program1, Red.children, Red.elems, Red.elemsFrom, Red.root, Green.children, Green.isNode]
  · decide +kernel
  · simp [program1, Red.children, Red.elems, Red.elemsFrom, Green.children, Green.isNode, List.filter_cons, Ast.StmtItem.cast, Red.kind, Green.kind]
  · decide +kernel

end Verif.Hir
