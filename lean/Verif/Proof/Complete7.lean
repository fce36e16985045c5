import Verif.Proof.Complete6

set_option linter.unusedSimpArgs false
set_option linter.unusedVariables false
namespace Verif
open Item PTree Lua P Grammar

theorem compl_expr {t} (h : ExprC t) : Compl .expr [t] := by
  rintro _ ⟨rfl⟩; exact h

theorem nameTail_shape {x ts} (h : Deriv x .nameTail ts) :
    ts = [] ∨ ∃ l, yieldL ts = SyntaxKind.comma :: l := by
  cases h with
  | nameTailNil => exact Or.inl rfl
  | nameTailCons ts _ => exact Or.inr ⟨_, by ynorm; rfl⟩

/-- Completeness for every nonterminal. -/
theorem compl {nt ts} (h : Deriv .accepted nt ts) : Compl nt ts := by
  induction h with
  | nameRef => exact compl_expr c_nameRef
  | literal k hk => exact compl_expr (c_literal k hk)
  | function p b _ _ ihp ihb => exact compl_expr (c_function p b ihp ihb)
  | table ts _ ih => exact compl_expr (c_table ts ih)
  | paren e _ ih => exact compl_expr (c_paren e (ih e rfl))
  | call f a _ hc _ ihf iha => exact compl_expr (c_call f a (ihf f rfl) hc iha)
  | method f a _ hc _ ihf iha => exact compl_expr (c_method f a (ihf f rfl) hc iha)
  | indexE f i _ hc _ ihf ihi => exact compl_expr (c_index f i (ihf f rfl) hc ihi)
  | dot f _ hc ihf => exact compl_expr (c_dot f (ihf f rfl) hc)
  | «prefix» op e hop _ hl ih => exact compl_expr (c_prefix op e hop (ih e rfl) hl)
  | «infix» op l r hb hl hr h1 h2 ihl ihr =>
    exact compl_expr (c_infix op l r hb (ihl l rfl) (ihr r rfl) h1 h2 (rightLevels_pows hl op h1))
  | tailNil => exact c_tailNil
  | tailCons e ts _ _ ihe iht => exact c_tailCons e ts (ihe e rfl) iht
  | multival e ts _ _ ihe iht => exact c_multival e ts (ihe e rfl) iht
  | itemsNil => exact c_itemsNil
  | itemsLast c _ ih => exact c_itemsLast c ih
  | itemsCons c sep ts _ hs _ ihc iht => exact c_itemsCons c sep ts ihc hs iht
  | namedField e _ ih => exact c_namedField e (ih e rfl)
  | indexedField i e _ _ ihi ihe => exact c_indexedField i e ihi (ihe e rfl)
  | positional e _ ih => exact c_positional e (ih e rfl)
  | index e _ ih => exact c_index' e (ih e rfl)
  | argsEmpty => exact c_argsEmpty
  | args m _ ih => exact c_args m ih
  | argsTable ts _ ih => exact c_argsTable ts ih
  | argsStr => exact c_argsStr
  | nameTailNil => exact c_nameTailNil
  | nameTailCons ts _ ih => exact c_nameTailCons ts ih
  | paramsEmpty => exact c_paramsEmpty
  | paramsNames ts _ ih => exact c_paramsNames ts ih
  | paramsVararg => exact c_paramsVararg
  | paramsNamesVararg ts _ ih => exact c_paramsNamesVararg ts ih
  | paramsNoComma ts _ _ ih => exact c_paramsNoComma ts ih
  | block ts _ ih => rintro b ⟨rfl⟩; exact ⟨ts, rfl, ih⟩
  | stmtsNil => exact c_stmtsNil
  | stmtsCons s ts _ _ hm ihs iht => exact c_stmtsCons s ts ihs iht hm
  | stmtsSemi s ts _ _ ihs iht => exact c_stmtsSemi s ts ihs iht
  | ifStmt e b es _ _ _ ihe ihb ihs => exact c_ifStmt e b es (ihe e rfl) ihb ihs
  | elseNone => exact Or.inl rfl
  | elseBranch b _ ih => exact c_elseBranch b ih
  | elseIf e b es _ _ _ ihe ihb ihs => exact c_elseIf e b es (ihe e rfl) ihb ihs
  | label => exact c_label
  | goto => exact c_goto
  | «break» => exact c_break
  | doStmt b _ ih => exact c_doStmt b ih
  | «while» e b _ _ ihe ihb => exact c_while e b (ihe e rfl) ihb
  | «repeat» b e _ _ ihb ihe => exact c_repeat b e ihb (ihe e rfl)
  | localFunction p b _ _ ihp ihb => exact c_localFunction p b ihp ihb
  | localNames ts _ ih => exact c_localNames ts ih
  | localAssign ts m _ _ iht ihm => exact c_localAssign ts m iht ihm
  | exprStmt m _ hs ih => exact c_exprStmt m ih hs
  | assign m m' _ hs _ ih ih' => exact c_assign m m' ih hs ih'
  | returnNone => exact c_returnNone
  | «return» m _ ih => exact c_return m ih
  | function_ n p b _ _ _ ihn ihp ihb => exact c_function_ n p b ihn ihp ihb
  | pathNil => exact c_pathNil
  | pathCons ts _ ih => exact c_pathCons ts ih
  | plainName => exact c_plainName
  | methodName ts _ ih => exact c_methodName ts ih
  | staticName ts _ ih => exact c_staticName ts ih
  | staticNoDot ts _ _ ih => exact c_staticNoDot ts ih
  | forStmt c b _ _ ihc ihb => exact c_forStmt c b ihc ihb
  | numericFor m _ ih => exact c_numericFor m ih
  | genericForList ts m hx => cases hx
  | genericFor ts e ht _ iht ihe => exact c_genericFor ts e iht (nameTail_shape ht) (ihe e rfl)

/-- A Lua derivation is a derivation of the extended grammar. -/
theorem Lua.Deriv.weaken {nt ts} (x : Dialect) (h : Deriv .core nt ts) : Deriv x nt ts := by
  induction h
  case genericForList hx _ _ _ _ => cases hx
  case paramsNoComma hx _ _ => cases hx
  case staticNoDot hx _ _ => cases hx
  case stmtsSemi h1 h2 => exact .stmtsSemi _ _ h1 h2
  all_goals (first | (constructor <;> assumption))

/-- The parser rebuilds every derivation tree from its tokens. -/
theorem parseKinds_complete {t} (h : Program .accepted t) : parseKinds (yield t) = .ok (calls t) := by
  obtain ⟨b, rfl, hd⟩ := h
  obtain ⟨ss, rfl, hss⟩ := compl hd b rfl
  have hy : yield (.node .sourceFile [.node .block ss]) = yieldL ss := by simp [PTree.yield, yieldL]
  have hruns : Runs (root (2 * (yieldL ss).length + 3)) (yieldL ss ++ [])
      [.node .sourceFile [.node .block ss]] [] := by
    refine runs_intro (by simp [PTree.yield, yieldL]) ?_
    intro ev cur st
    simp only [root, rootBlock, blockRaw, wpF_bind, wpF_start]
    refine (hss.run _ _ _ ROOT_END [] ?_ ?_ (by simp [blockEnds]) (by simp) (by simp; omega) (by simp; omega)).use ?_
    · unfold ROOT_END; simp only [TokenSet.contains_new]; decide
    · unfold ROOT_END; simp [TokenSet.contains_new]
    · intro _ i1 e1 h1
      simp
      exact RPost.mk [_] rfl (by simp [toTree, toTreeL, h1])
  rw [hy]
  simp only [List.append_nil] at hruns
  obtain ⟨items, toks', h1, -, h2, -⟩ := parseKinds_of_spec hruns
  rw [h1, h2]
  simp [callsL]

end Verif
