import Verif.Spec.Productions
import Verif.Spec.Walk
import Verif.Proof.ValidationProof
import Verif.Proof.WalkProof

/-
Every node of an error-free tree is an instance of a production.
-/
namespace Verif
open PTree Spec Lua

/-! ### derivations -/

/-- The symbol at the root of a tree. -/
def symT : PTree → Option Sym
  | .tok k => some (.tok k)
  | .node k _ => some (.node k)
  | _ => none

def symsT (ts : List PTree) : List Sym := ts.filterMap symT

@[simp] theorem symsT_nil : symsT [] = [] := rfl
@[simp] theorem symsT_append (a b) : symsT (a ++ b) = symsT a ++ symsT b := by simp [symsT]
@[simp] theorem symsT_tok (k ts) : symsT (.tok k :: ts) = .tok k :: symsT ts := rfl
@[simp] theorem symsT_node (k cs ts) : symsT (.node k cs :: ts) = .node k :: symsT ts := rfl
theorem symsT_cons (t ts) : symsT (t :: ts) = symsT [t] ++ symsT ts := symsT_append [t] ts

mutual
def prodOk : PTree → Prop
  | .node k cs => Production k (symsT cs) ∧ prodOkL cs
  | _ => True
def prodOkL : List PTree → Prop
  | [] => True
  | t :: ts => prodOk t ∧ prodOkL ts
end

@[simp] theorem prodOkL_append (a b) : prodOkL (a ++ b) ↔ prodOkL a ∧ prodOkL b := by
  induction a with
  | nil => simp [prodOkL]
  | cons x xs ih => simp [prodOkL, ih, and_assoc]

/-- What the trees of a nonterminal look like from above. -/
def NtOk : NT → List Sym → Prop
  | .expr, ss => ∃ s, IsExpr s ∧ ss = [s]
  | .exprTail, ss => ∀ s, IsExpr s → Spec.exprs (s :: ss)
  | .multival, ss => ss = [.node .multivalExpr]
  | .tableItems, ss => Entries ss
  | .tableContent, ss => ss = [.node .tableContent]
  | .index, ss => ss = [.node .index]
  | .callArgs, ss => ss = [.node .callArgs]
  | .nameTail, ss => names (.node .name :: ss)
  | .params, ss => ss = [.node .paramList]
  | .block, ss => ss = [.node .block]
  | .stmts, ss => Stmts ss
  | .stmt, ss => ∃ k, k ∈ stmtKinds ∧ ss = [.node k]
  | .elseOpt, ss => ElseOpt ss
  | .pathTail, ss => path (.node .nameRef :: ss)
  | .funcName, ss => ss = [.node .functionDefContent]
  | .forContent, ss => ss = [.node .forContent]

private theorem ex (k) (h : k ∈ exprKinds) : NtOk .expr [.node k] := ⟨_, ⟨k, h, rfl⟩, rfl⟩
private theorem st (k) (h : k ∈ stmtKinds) : NtOk .stmt [.node k] := ⟨k, h, rfl⟩

theorem deriv_prod {nt : NT} {ts : List PTree} (h : Deriv .accepted nt ts) : prodOkL ts ∧ NtOk nt (symsT ts) := by
  have nm : prodOk nameT := by simp only [prodOk, prodOkL, and_true]; exact .name
  have nr : prodOk nameRefT := by simp only [prodOk, prodOkL, and_true]; exact .nameRef
  induction h
  case nameRef => exact ⟨⟨nr, trivial⟩, ex _ (by decide)⟩
  case literal k hk => exact ⟨⟨⟨.literal k hk, trivial, trivial⟩, trivial⟩, ex _ (by decide)⟩
  case function p b h1 h2 i1 i2 =>
    simp only [NtOk] at i1 i2
    refine ⟨⟨⟨?_, trivial, i1.1.1, i2.1.1, trivial, trivial⟩, trivial⟩, ex _ (by decide)⟩
    rw [symsT_tok, symsT_cons, i1.2, symsT_cons, i2.2]
    exact .functionExpr
  case table ts h1 i1 =>
    refine ⟨⟨⟨?_, trivial, ?_⟩, trivial⟩, ex _ (by decide)⟩
    · rw [symsT_tok, symsT_append]; exact .tableExpr _ i1.2
    · rw [prodOkL_append]; exact ⟨i1.1, trivial, trivial⟩
  case paren e h1 i1 =>
    obtain ⟨i1, s, hs, es⟩ := i1
    refine ⟨⟨⟨?_, trivial, i1.1, trivial, trivial⟩, trivial⟩, ex _ (by decide)⟩
    rw [symsT_tok, symsT_cons, es]
    exact .parenExpr s hs
  case call f a h1 _ h2 i1 i2 =>
    obtain ⟨i1, s, hs, es⟩ := i1
    simp only [NtOk] at i2
    refine ⟨⟨⟨?_, i1.1, i2.1.1, trivial⟩, trivial⟩, ex _ (by decide)⟩
    rw [symsT_cons, es, i2.2]
    exact .callExpr s hs
  case method f a h1 _ h2 i1 i2 =>
    obtain ⟨i1, s, hs, es⟩ := i1
    simp only [NtOk] at i2
    refine ⟨⟨⟨?_, i1.1, trivial, nr, i2.1.1, trivial⟩, trivial⟩, ex _ (by decide)⟩
    rw [symsT_cons, es, symsT_tok, symsT_node, i2.2]
    exact .methodCallExpr s hs
  case indexE f i h1 _ h2 i1 i2 =>
    obtain ⟨i1, s, hs, es⟩ := i1
    simp only [NtOk] at i2
    refine ⟨⟨⟨?_, i1.1, i2.1.1, trivial⟩, trivial⟩, ex _ (by decide)⟩
    rw [symsT_cons, es, i2.2]
    exact .indexExpr s hs
  case dot f h1 _ i1 =>
    obtain ⟨i1, s, hs, es⟩ := i1
    refine ⟨⟨⟨?_, i1.1, trivial, trivial, trivial⟩, trivial⟩, ex _ (by decide)⟩
    rw [symsT_cons, es]
    exact .dotExpr s hs
  case «prefix» op e ho h1 _ i1 =>
    obtain ⟨i1, s, hs, es⟩ := i1
    refine ⟨⟨⟨?_, trivial, i1.1, trivial⟩, trivial⟩, ex _ (by decide)⟩
    rw [symsT_tok, es]
    exact .prefixExpr op s ho hs
  case «infix» op l r ho h1 h2 _ _ i1 i2 =>
    obtain ⟨i1, s, hs, es⟩ := i1
    obtain ⟨i2, s', hs', es'⟩ := i2
    refine ⟨⟨⟨?_, i1.1, trivial, i2.1, trivial⟩, trivial⟩, ex _ (by decide)⟩
    rw [symsT_cons, es, symsT_tok, es']
    exact .infixExpr s op s' hs ho hs'
  case tailNil => exact ⟨trivial, fun s hs => .one s hs⟩
  case tailCons e ts h1 h2 i1 i2 =>
    obtain ⟨i1, s, hs, es⟩ := i1
    refine ⟨⟨trivial, i1.1, i2.1⟩, ?_⟩
    rw [symsT_tok, symsT_cons, es]
    exact fun s' hs' => .cons s' _ hs' (i2.2 s hs)
  case multival e ts h1 h2 i1 i2 =>
    obtain ⟨i1, s, hs, es⟩ := i1
    refine ⟨⟨⟨?_, i1.1, i2.1⟩, trivial⟩, rfl⟩
    rw [symsT_cons, es]
    exact .multivalExpr _ (i2.2 s hs)
  case itemsNil => exact ⟨trivial, .nil⟩
  case itemsLast c h1 i1 =>
    refine ⟨i1.1, ?_⟩
    simp only [NtOk] at i1
    rw [i1.2]
    exact .last
  case itemsCons c sep ts h1 hs h2 i1 i2 =>
    simp only [NtOk] at i1
    refine ⟨⟨i1.1.1, ⟨.tableSep sep hs, trivial, trivial⟩, i2.1⟩, ?_⟩
    rw [symsT_cons, i1.2]
    exact .cons _ i2.2
  case namedField e h1 i1 =>
    obtain ⟨i1, s, hs, es⟩ := i1
    refine ⟨⟨⟨.tableContent _ (by decide), ⟨?_, ⟨.tableKey _ (by decide), nm, trivial⟩, trivial, i1.1, trivial⟩,
      trivial⟩, trivial⟩, rfl⟩
    rw [symsT_node, symsT_tok, es]
    exact .keyValue s hs
  case indexedField i e h1 h2 i1 i2 =>
    obtain ⟨i2, s, hs, es⟩ := i2
    simp only [NtOk] at i1
    refine ⟨⟨⟨.tableContent _ (by decide), ⟨?_, ⟨?_, i1.1.1, trivial⟩, trivial, i2.1, trivial⟩,
      trivial⟩, trivial⟩, rfl⟩
    · rw [symsT_node, symsT_tok, es]
      exact .keyValue s hs
    · rw [i1.2]
      exact .tableKey _ (by decide)
  case positional e h1 i1 =>
    obtain ⟨i1, s, hs, es⟩ := i1
    refine ⟨⟨⟨.tableContent _ (by decide), ⟨?_, i1.1, trivial⟩, trivial⟩, trivial⟩, rfl⟩
    rw [es]
    exact .positionalValue s hs
  case index e h1 i1 =>
    obtain ⟨i1, s, hs, es⟩ := i1
    refine ⟨⟨⟨?_, trivial, i1.1, trivial, trivial⟩, trivial⟩, rfl⟩
    rw [symsT_tok, symsT_cons, es]
    exact .index s hs
  case argsEmpty =>
    exact ⟨⟨⟨.callArgs _ (by decide), ⟨.argListEmpty, trivial, trivial, trivial⟩, trivial⟩, trivial⟩, rfl⟩
  case args m h1 i1 =>
    simp only [NtOk] at i1
    refine ⟨⟨⟨.callArgs _ (by decide), ⟨?_, trivial, i1.1.1, trivial, trivial⟩, trivial⟩, trivial⟩, rfl⟩
    rw [symsT_tok, symsT_cons, i1.2]
    exact .argList
  case argsTable ts h1 i1 =>
    refine ⟨⟨⟨.callArgs _ (by decide), ⟨?_, trivial, ?_⟩, trivial⟩, trivial⟩, rfl⟩
    · rw [symsT_tok, symsT_append]; exact .tableExpr _ i1.2
    · rw [prodOkL_append]; exact ⟨i1.1, trivial, trivial⟩
  case argsStr => exact ⟨⟨⟨.callArgs _ (by decide), trivial, trivial⟩, trivial⟩, rfl⟩
  case nameTailNil => exact ⟨trivial, .one _ rfl⟩
  case nameTailCons ts h1 i1 => exact ⟨⟨trivial, nm, i1.1⟩, .cons _ _ rfl i1.2⟩
  case paramsEmpty => exact ⟨⟨⟨.paramListEmpty, trivial, trivial, trivial⟩, trivial⟩, rfl⟩
  case paramsNames ts h1 i1 =>
    exact ⟨⟨⟨.paramList, trivial, ⟨.multiName _ i1.2, nm, i1.1⟩, trivial, trivial⟩, trivial⟩, rfl⟩
  case paramsVararg =>
    exact ⟨⟨⟨.paramListVararg, trivial, ⟨.multiNameEmpty, trivial⟩, trivial, trivial, trivial⟩, trivial⟩, rfl⟩
  case paramsNamesVararg ts h1 i1 =>
    refine ⟨⟨⟨.paramListVararg, trivial, ⟨?_, nm, ?_⟩, trivial, trivial, trivial⟩, trivial⟩, rfl⟩
    · rw [symsT_node, symsT_append]
      exact .multiNameComma (.node .name :: symsT ts) i1.2
    · rw [prodOkL_append]; exact ⟨i1.1, trivial, trivial⟩
  case paramsNoComma ts _ h1 i1 =>
    exact ⟨⟨⟨.paramListVararg, trivial, ⟨.multiName _ i1.2, nm, i1.1⟩, trivial, trivial, trivial⟩, trivial⟩, rfl⟩
  case block ts h1 i1 => exact ⟨⟨⟨.block _ i1.2, i1.1⟩, trivial⟩, rfl⟩
  case stmtsNil => exact ⟨trivial, .nil⟩
  case stmtsCons s ts h1 h2 _ i1 i2 =>
    obtain ⟨i1, k, hk, es⟩ := i1
    refine ⟨⟨i1.1, i2.1⟩, ?_⟩
    rw [symsT_cons, es]
    exact .plain k _ hk i2.2
  case stmtsSemi s ts h1 h2 i1 i2 =>
    obtain ⟨i1, k, hk, es⟩ := i1
    refine ⟨⟨i1.1, trivial, i2.1⟩, ?_⟩
    rw [symsT_cons, es]
    exact .semi k _ hk i2.2
  case ifStmt e b es h1 h2 h3 i1 i2 i3 =>
    obtain ⟨i1, s, hs, e1⟩ := i1
    simp only [NtOk] at i2
    refine ⟨⟨⟨?_, trivial, i1.1, trivial, i2.1.1, ?_⟩, trivial⟩, st _ (by decide)⟩
    · rw [symsT_tok, symsT_cons, e1, symsT_tok, symsT_cons, i2.2, symsT_append]
      exact .ifStmt s _ hs i3.2
    · rw [prodOkL_append]; exact ⟨i3.1, trivial, trivial⟩
  case elseNone => exact ⟨trivial, .none⟩
  case elseBranch b h1 i1 =>
    simp only [NtOk] at i1
    refine ⟨⟨⟨?_, trivial, i1.1.1, trivial⟩, trivial⟩, .elseBranch⟩
    rw [symsT_tok, i1.2]
    exact .elseBranch
  case elseIf e b es h1 h2 h3 i1 i2 i3 =>
    obtain ⟨i1, s, hs, e1⟩ := i1
    simp only [NtOk] at i2
    refine ⟨⟨⟨?_, trivial, i1.1, trivial, i2.1.1, i3.1⟩, trivial⟩, .elseIfBranch⟩
    rw [symsT_tok, symsT_cons, e1, symsT_tok, symsT_cons, i2.2]
    exact .elseIfBranch s _ hs i3.2
  case label =>
    exact ⟨⟨⟨.labelStmt, ⟨.labelDelim, trivial, trivial⟩, nm, ⟨.labelDelim, trivial, trivial⟩, trivial⟩, trivial⟩,
      st _ (by decide)⟩
  case goto => exact ⟨⟨⟨.gotoStmt, trivial, nr, trivial⟩, trivial⟩, st _ (by decide)⟩
  case «break» => exact ⟨⟨⟨.breakStmt, trivial, trivial⟩, trivial⟩, st _ (by decide)⟩
  case doStmt b h1 i1 =>
    simp only [NtOk] at i1
    refine ⟨⟨⟨?_, trivial, i1.1.1, trivial, trivial⟩, trivial⟩, st _ (by decide)⟩
    rw [symsT_tok, symsT_cons, i1.2]
    exact .doStmt
  case «while» e b h1 h2 i1 i2 =>
    obtain ⟨i1, s, hs, e1⟩ := i1
    simp only [NtOk] at i2
    refine ⟨⟨⟨?_, trivial, i1.1, trivial, i2.1.1, trivial, trivial⟩, trivial⟩, st _ (by decide)⟩
    rw [symsT_tok, symsT_cons, e1, symsT_tok, symsT_cons, i2.2]
    exact .whileStmt s hs
  case «repeat» b e h1 h2 i1 i2 =>
    obtain ⟨i2, s, hs, e1⟩ := i2
    simp only [NtOk] at i1
    refine ⟨⟨⟨?_, trivial, i1.1.1, trivial, i2.1, trivial⟩, trivial⟩, st _ (by decide)⟩
    rw [symsT_tok, symsT_cons, i1.2, symsT_tok, e1]
    exact .repeatUntilStmt s hs
  case localFunction p b h1 h2 i1 i2 =>
    simp only [NtOk] at i1 i2
    refine ⟨⟨⟨?_, trivial, trivial, nm, i1.1.1, i2.1.1, trivial, trivial⟩, trivial⟩, st _ (by decide)⟩
    rw [symsT_tok, symsT_tok, symsT_node, symsT_cons, i1.2, symsT_cons, i2.2]
    exact .localFunctionDefStmt
  case localNames ts h1 i1 =>
    exact ⟨⟨⟨.localNames, trivial, ⟨.multiName _ i1.2, nm, i1.1⟩, trivial⟩, trivial⟩, st _ (by decide)⟩
  case localAssign ts m h1 h2 i1 i2 =>
    simp only [NtOk] at i2
    refine ⟨⟨⟨?_, trivial, ⟨.multiName _ i1.2, nm, i1.1⟩, trivial, i2.1.1, trivial⟩, trivial⟩, st _ (by decide)⟩
    rw [symsT_tok, symsT_node, symsT_tok, i2.2]
    exact .localAssign
  case exprStmt m h1 _ i1 =>
    simp only [NtOk] at i1
    refine ⟨⟨⟨?_, i1.1.1, trivial⟩, trivial⟩, st _ (by decide)⟩
    rw [i1.2]
    exact .exprStmt
  case assign m m' h1 _ h2 i1 i2 =>
    simp only [NtOk] at i1 i2
    refine ⟨⟨⟨?_, i1.1.1, trivial, i2.1.1, trivial⟩, trivial⟩, st _ (by decide)⟩
    rw [symsT_cons, i1.2, symsT_tok, i2.2]
    exact .assignStmt
  case returnNone => exact ⟨⟨⟨.returnNone, trivial, trivial⟩, trivial⟩, st _ (by decide)⟩
  case «return» m h1 i1 =>
    simp only [NtOk] at i1
    refine ⟨⟨⟨?_, trivial, i1.1.1, trivial⟩, trivial⟩, st _ (by decide)⟩
    rw [symsT_tok, i1.2]
    exact .returnStmt
  case function_ n p b h1 h2 h3 i1 i2 i3 =>
    simp only [NtOk] at i1 i2 i3
    refine ⟨⟨⟨?_, trivial, i1.1.1, i2.1.1, i3.1.1, trivial, trivial⟩, trivial⟩, st _ (by decide)⟩
    rw [symsT_tok, symsT_cons, i1.2, symsT_cons, i2.2, symsT_cons, i3.2]
    exact .functionDefStmt
  case pathNil => exact ⟨trivial, .one _ rfl⟩
  case pathCons ts h1 i1 => exact ⟨⟨trivial, nr, i1.1⟩, .cons _ _ rfl i1.2⟩
  case plainName => exact ⟨⟨⟨.functionDefContent _ (by decide), nm, trivial⟩, trivial⟩, rfl⟩
  case methodName ts h1 i1 =>
    exact ⟨⟨⟨.functionDefContent _ (by decide), ⟨.functionMethod, ⟨.indexPath _ i1.2, nr, i1.1⟩, trivial, nm, trivial⟩,
      trivial⟩, trivial⟩, rfl⟩
  case staticName ts h1 i1 =>
    refine ⟨⟨⟨.functionDefContent _ (by decide), ⟨.functionStatic, ⟨?_, nr, ?_⟩, nm, trivial⟩, trivial⟩, trivial⟩, rfl⟩
    · rw [symsT_node, symsT_append]
      exact .indexPathDot (.node .nameRef :: symsT ts) i1.2
    · rw [prodOkL_append]; exact ⟨i1.1, trivial, trivial⟩
  case staticNoDot ts _ h1 i1 =>
    exact ⟨⟨⟨.functionDefContent _ (by decide), ⟨.functionStatic, ⟨.indexPath _ i1.2, nr, i1.1⟩, nm, trivial⟩,
      trivial⟩, trivial⟩, rfl⟩
  case forStmt c b h1 h2 i1 i2 =>
    simp only [NtOk] at i1 i2
    refine ⟨⟨⟨?_, trivial, i1.1.1, trivial, i2.1.1, trivial, trivial⟩, trivial⟩, st _ (by decide)⟩
    rw [symsT_tok, symsT_cons, i1.2, symsT_tok, symsT_cons, i2.2]
    exact .forStmt
  case numericFor m h1 i1 =>
    simp only [NtOk] at i1
    refine ⟨⟨⟨.forContent _ (by decide), ⟨?_, nm, trivial, i1.1.1, trivial⟩, trivial⟩, trivial⟩, rfl⟩
    rw [symsT_node, symsT_tok, i1.2]
    exact .numericFor
  case genericFor ts e h1 h2 i1 i2 =>
    obtain ⟨i2, s, hs, e1⟩ := i2
    refine ⟨⟨⟨.forContent _ (by decide), ⟨?_, ⟨.multiName _ i1.2, nm, i1.1⟩, trivial, i2.1, trivial⟩, trivial⟩, trivial⟩,
      rfl⟩
    rw [symsT_node, symsT_tok, e1]
    exact .genericFor s hs
  case genericForList hx _ _ _ _ => exact absurd hx (by decide)

/-! ### syntax trees -/

/-- The symbol of a tree, if it is not trivia. -/
def symG : Green → Option Sym
  | .token k _ => if k.isTrivia then none else some (.tok k)
  | .node k _ => some (.node k)

def symsG (gs : List Green) : List Sym := gs.filterMap symG

@[simp] theorem symsG_append (a b) : symsG (a ++ b) = symsG a ++ symsG b := by simp [symsG]

theorem symsG_lead (ls : List Lx) : symsG (lead ls) = [] := by
  induction ls with
  | nil => rfl
  | cons l ls ih =>
    simp only [lead, List.takeWhile_cons] at ih ⊢
    split
    · rename_i h
      simp only [isTriv] at h
      simp only [List.map_cons, symsG, List.filterMap_cons, leaf, symG, h, if_true]
      exact ih
    · rfl

mutual
def ProdOk : Green → Prop
  | .token _ _ => True
  | .node k cs => Production k (symsG cs) ∧ ProdOkL cs
def ProdOkL : List Green → Prop
  | [] => True
  | g :: gs => ProdOk g ∧ ProdOkL gs
end

@[simp] theorem ProdOkL_append (a b) : ProdOkL (a ++ b) ↔ ProdOkL a ∧ ProdOkL b := by
  induction a with
  | nil => simp [ProdOkL]
  | cons x xs ih => simp [ProdOkL, ih, and_assoc]

theorem ProdOkL_leaves (ls : List Lx) : ProdOkL (ls.map leaf) := by
  induction ls with
  | nil => simp [ProdOkL]
  | cons x xs ih => simp [ProdOkL, ProdOk, leaf]; exact ih

mutual
theorem place_prodOk (n : Nat) (t : PTree) (todo : List Lx) (ks : List SyntaxKind)
    (h : realKinds todo = yield t ++ ks) (he : errors t = []) (hs : prodOk t) :
    ProdOkL (place n t todo).greens ∧ symsG (place n t todo).greens = symsT [t] ∧
      realKinds (place n t todo).rest = ks := by
  cases t with
  | tok k =>
    obtain ⟨w, r, h1, h2⟩ := afterTriv_of_kinds (show realKinds todo = k :: ks by simpa [yield] using h)
    simp only [place, h1]
    refine ⟨?_, ?_, h2⟩
    · rw [ProdOkL_append]; exact ⟨ProdOkL_leaves _, by simp [ProdOkL, ProdOk, leaf]⟩
    · have := afterTriv_head h1
      simp only [isTriv] at this
      rw [symsG_append, symsG_lead]
      simp [symsG, symG, leaf, this]
  | err e => simp [errors] at he
  | errNode cs e => simp [errors] at he
  | node k cs =>
    simp only [errors] at he
    simp only [prodOk] at hs
    have hk : realKinds (afterTriv todo) = yieldL cs ++ ks := by rw [realKinds_afterTriv]; simpa [yield] using h
    obtain ⟨h1, h2, h3⟩ := placeL_prodOk n cs (afterTriv todo) ks hk he hs.2
    simp only [place]
    refine ⟨?_, ?_, h3⟩
    · rw [ProdOkL_append]
      refine ⟨ProdOkL_leaves _, ⟨?_, h1⟩, trivial⟩
      rw [h2]; exact hs.1
    · rw [symsG_append, symsG_lead]; rfl
theorem placeL_prodOk (n : Nat) (ts : List PTree) (todo : List Lx) (ks : List SyntaxKind)
    (h : realKinds todo = yieldL ts ++ ks) (he : errorsL ts = []) (hs : prodOkL ts) :
    ProdOkL (placeL n ts todo).greens ∧ symsG (placeL n ts todo).greens = symsT ts ∧
      realKinds (placeL n ts todo).rest = ks := by
  cases ts with
  | nil => exact ⟨trivial, rfl, by simpa [placeL, yieldL] using h⟩
  | cons t ts =>
    simp only [errorsL, List.append_eq_nil_iff] at he
    simp only [prodOkL] at hs
    obtain ⟨h1, h2, h3⟩ := place_prodOk n t todo (yieldL ts ++ ks) (by simpa [yieldL] using h) he.1 hs.1
    obtain ⟨h4, h5, h6⟩ := placeL_prodOk n ts _ ks h3 he.2 hs.2
    simp only [placeL]
    refine ⟨by simp [h1, h4], ?_, h6⟩
    rw [symsG_append, h2, h5, ← symsT_cons]
end

theorem symsG_triv (ls : List Lx) (h : realKinds ls = []) : symsG (ls.map leaf) = [] := by
  induction ls with
  | nil => rfl
  | cons l ls ih =>
    by_cases ht : isTriv l = true
    · simp only [realKinds, List.filter_cons, ht] at h ih
      have := ih (by simpa using h)
      simp only [isTriv] at ht
      simp only [List.map_cons, symsG, List.filterMap_cons, leaf, symG, ht, if_true]
      exact this
    · simp [realKinds, ht] at h

theorem parseText_prodOk (text : Text) (tree : Green) (h : parseText text = .ok (tree, [])) : ProdOk tree := by
  obtain ⟨ls, ts, h1, h2, h3, ⟨h4, h4'⟩, h5⟩ := parseText_main text
  rw [h5] at h
  simp only [Except.ok.injEq, Prod.mk.injEq, List.append_eq_nil_iff] at h
  obtain ⟨rfl, he, -⟩ := h
  have he' := placeL_errs_nil _ _ _ he
  obtain ⟨b, e, hb⟩ := h4' he'
  simp at e
  subst e
  have hp := deriv_prod hb
  simp only [prodOkL, prodOk] at hp
  obtain ⟨p1, p2, p3⟩ := placeL_prodOk text.len ts (ls.map lxOf) [] (by simp [h3]) he' hp.1.1.2
  refine ⟨.sourceFile, ⟨?_, ?_⟩, trivial⟩
  · rw [symsG_append, p2, symsG_triv _ p3, List.append_nil]
    exact hp.1.1.1
  · rw [ProdOkL_append]; exact ⟨p1, ProdOkL_leaves _⟩

/-! ### nodes of the tree -/

theorem symsG_elems (path : List Nat) : ∀ (cs : List Green) (i off : Nat),
    ((Red.elemsFrom path i off cs).filter fun e => e.green.isNode || !e.kind.isTrivia).map sym = symsG cs := by
  intro cs
  induction cs with
  | nil => intros; rfl
  | cons c cs ih =>
    intro i off
    rw [Red.elemsFrom, List.filter_cons]
    cases c with
    | node k ds =>
      rw [if_pos (by simp [Green.isNode]), List.map_cons, ih]
      rfl
    | token k t =>
      by_cases hk : k.isTrivia = true
      · rw [if_neg (by rw [show Red.kind _ = k from rfl, hk]; simp [Green.isNode]), ih]
        simp [symsG, symG, hk]
      · rw [if_pos (by rw [show Red.kind _ = k from rfl]; simp [hk]), List.map_cons, ih]
        simp [symsG, symG, hk, sym, Green.isNode, Red.kind, Green.kind]

theorem parts_syms (r : Red) : (parts r).map sym = symsG r.green.children := symsG_elems _ _ _ _

theorem elemsFrom_green {path : List Nat} : ∀ {cs : List Green} {i off : Nat} {r : Red}, r ∈ Red.elemsFrom path i off cs →
    r.green ∈ cs := by
  intro cs
  induction cs with
  | nil => intro i off r h; simp [Red.elemsFrom] at h
  | cons c cs ih =>
    intro i off r h
    simp only [Red.elemsFrom, List.mem_cons] at h
    rcases h with rfl | h
    · simp
    · exact List.mem_cons_of_mem _ (ih h)

theorem ProdOkL_mem {cs : List Green} {g : Green} (h : ProdOkL cs) (hg : g ∈ cs) : ProdOk g := by
  induction cs with
  | nil => simp at hg
  | cons c cs ih =>
    simp only [ProdOkL] at h
    rcases List.mem_cons.1 hg with rfl | hg
    · exact h.1
    · exact ih h.2 hg

theorem ProdOk_elem {r c : Red} (h : ProdOk r.green) (hc : c ∈ r.elems) : ProdOk c.green := by
  have := elemsFrom_green hc
  rcases r with ⟨p, o, g⟩
  cases g with
  | token k t => simp [Green.children] at this
  | node k cs => exact ProdOkL_mem h.2 this

theorem ProdOk_below {a r : Red} (h : ProdOk a.green) (hr : Below a r) : ProdOk r.green := by
  induction hr with
  | self => exact h
  | child _ hc ih => exact ProdOk_elem ih (List.mem_filter.1 hc).1

theorem sourceFileParse_ok {text : Text} {tree : Green} (h : sourceFileParse text = .ok (tree, [])) :
    parseText text = .ok (tree, []) := by
  simp only [sourceFileParse] at h
  split at h
  · simp at h
  · rename_i green errors e
    split at h
    · simp at h
    · split at h
      · simp only [Except.ok.injEq, Prod.mk.injEq, List.append_eq_nil_iff] at h
        rw [e, h.1, h.2.1]
      · simp at h

/-- Every node of the tree of a text without errors is an instance of a production. -/
theorem productions (text : Text) (tree : Green) (h : parseText text = .ok (tree, [])) (r : Red)
    (hr : Below (Red.root tree) r) : Production r.kind ((parts r).map sym) := by
  have h1 := ProdOk_below (a := Red.root tree) (parseText_prodOk text tree h) hr
  have hn : r.green.isNode = true := by
    cases hr with
    | self =>
      have := parseText_prodOk text tree h
      obtain ⟨ls, ts, -, -, -, -, h5⟩ := parseText_main text
      rw [h5] at h
      simp only [Except.ok.injEq, Prod.mk.injEq] at h
      rw [← h.1]; rfl
    | child _ hc => exact child_node hc
  rw [parts_syms]
  rcases r with ⟨p, o, g⟩
  cases g with
  | token k t => simp [Green.isNode] at hn
  | node k cs => exact h1.1

end Verif
