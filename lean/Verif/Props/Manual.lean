import Verif.Spec.Manual
import Verif.Props.Grouping
import Verif.Props.Accepted
import Verif.Props.Trivia

/-
C115: programs of the Lua 5.1 reference manual are accepted.
-/
namespace Verif
open Spec Lua PTree

/-! ### any sequence of operators and operands has a tree -/

/-- the operator binds weaker than those on the right edge -/
private def Weaker (op : SyntaxKind) (t : PTree) : Prop :=
  ∀ p ∈ rightLevels t, level op < p ∨ (level op = p ∧ rightAssoc op = false)

private theorem level_inj {a b : SyntaxKind} (ha : isBinary a) (h : level a = level b) : a = b := by
  have hb : isBinary b := by unfold isBinary at *; omega
  have hl : ∀ a ∈ infixOps, ∀ b ∈ infixOps, level a = level b → a = b := by decide
  exact hl a (mem_infixOps_of_level ha) b (mem_infixOps_of_level hb) h

private theorem level_ne_unary {a : SyntaxKind} (ha : isBinary a) : level a ≠ unaryLevel := by
  have hl : ∀ a ∈ infixOps, level a ≠ unaryLevel := by decide
  exact hl a (mem_infixOps_of_level ha)

/-- What is required of the statements in a tree. -/
private def fineT : PTree → Prop
  | .node .exprStmt cs => ∃ c, cs = [.node .multivalExpr [c]] ∧ (kindOf c = some .callExpr ∨ kindOf c = some .methodCallExpr)
  | .node .assignStmt cs => ∃ l r, cs = [.node .multivalExpr l, .tok .eq, .node .multivalExpr r] ∧
      ∀ c ∈ l, c = .tok .comma ∨ kindOf c = some .nameRef ∨ kindOf c = some .dotExpr ∨ kindOf c = some .indexExpr
  | _ => True

private def okT (t : PTree) : Prop := ∀ s, Sub s t → fineT s

private theorem okT_tok (k) : okT (.tok k) := by
  intro s h; cases h; trivial

private theorem okT_node {k cs} : okT (.node k cs) ↔ fineT (.node k cs) ∧ ∀ c ∈ cs, okT c := by
  constructor
  · exact fun h => ⟨h _ (.refl _), fun c hc s hs => h s (.node _ _ _ _ hc hs)⟩
  · rintro ⟨h1, h2⟩ s hs
    cases hs with
    | refl => exact h1
    | node _ c _ hc hs => exact h2 c hc s hs

/-- `op u` can be put behind the tree `t` -/
private theorem attach {t u : PTree} {op : SyntaxKind} (ho : isBinary op) (hu : Deriv .accepted .expr [u])
    (hl : leftOps u = []) (ou : okT u) : ∀ {nt ts}, Deriv .accepted nt ts → nt = .expr → ts = [t] → okT t →
    ∃ s, Deriv .accepted .expr [s] ∧ okT s ∧ yield s = yield t ++ op :: yield u ∧ endsCallable s = endsCallable u ∧
      ∀ q ∈ leftOps s, q ∈ leftOps t ∨ (q = op ∧ Weaker op t) := by
  intro nt ts h
  induction h generalizing t <;> intro h1 h2 ot <;> cases h1 <;> cases h2
  all_goals
    have top : ∀ {t : PTree}, Deriv .accepted .expr [t] → okT t → Weaker op t →
        ∃ s, Deriv .accepted .expr [s] ∧ okT s ∧ yield s = yield t ++ op :: yield u ∧
          endsCallable s = endsCallable u ∧ ∀ q ∈ leftOps s, q ∈ leftOps t ∨ (q = op ∧ Weaker op t) := by
      intro t h ot hw
      refine ⟨.node .infixExpr [t, .tok op, u], Deriv.«infix» op t u ho h hu hw (by simp [hl]), ?_, ?_, ?_, ?_⟩
      · exact okT_node.2 ⟨trivial, by simp [ot, ou, okT_tok]⟩
      · simp [yield, yieldL]
      · simp [endsCallable, endsCallableL, endsInExpr]
      · intro q hq
        simp only [leftOps, List.mem_cons] at hq
        rcases hq with rfl | hq
        · exact .inr ⟨rfl, hw⟩
        · exact .inl hq
  case «infix» q l r hq dl dr c1 c2 ihl ihr =>
    by_cases hw : Weaker op (.node .infixExpr [l, .tok q, r])
    · exact top (Deriv.«infix» q l r hq dl dr c1 c2) ot hw
    · have ot' := (okT_node.1 ot).2
      obtain ⟨s, s1, s2, s3, s4, s5⟩ := ihr rfl rfl (ot' r (by simp))
      refine ⟨.node .infixExpr [l, .tok q, s], Deriv.«infix» q l s hq dl s1 c1 ?_, ?_, ?_, ?_, ?_⟩
      · intro p hp
        rcases s5 p hp with h | ⟨rfl, h⟩
        · exact c2 p h
        · have : ¬ (level p < level q ∨ (level p = level q ∧ rightAssoc p = false)) := by
            intro hn
            apply hw
            intro x hx
            simp only [rightLevels, List.mem_cons] at hx
            rcases hx with rfl | hx
            · exact hn
            · exact h x hx
          by_cases he : level p = level q
          · obtain rfl := level_inj ho he
            right
            simpa using this
          · left; omega
      · exact okT_node.2 ⟨trivial, by simp [ot' l (by simp), s2, okT_tok]⟩
      · simp [yield, yieldL, s3]
      · simpa [endsCallable, endsCallableL, endsInExpr] using s4
      · intro x hx
        exact .inl (by simpa [leftOps] using hx)
  case «prefix» q e hq de c ih =>
    by_cases hw : Weaker op (.node .prefixExpr [.tok q, e])
    · exact top (Deriv.«prefix» q e hq de c) ot hw
    · have ot' := (okT_node.1 ot).2
      obtain ⟨s, s1, s2, s3, s4, s5⟩ := ih rfl rfl (ot' e (by simp))
      refine ⟨.node .prefixExpr [.tok q, s], Deriv.«prefix» q s hq s1 ?_, ?_, ?_, ?_, ?_⟩
      · intro p hp
        rcases s5 p hp with h | ⟨rfl, h⟩
        · exact c p h
        · have : ¬ (level p < unaryLevel ∨ (level p = unaryLevel ∧ rightAssoc p = false)) := by
            intro hn
            apply hw
            intro x hx
            simp only [rightLevels, List.mem_cons] at hx
            rcases hx with rfl | hx
            · exact hn
            · exact h x hx
          have := level_ne_unary ho
          omega
      · exact okT_node.2 ⟨trivial, by simp [s2, okT_tok]⟩
      · simp [yield, yieldL, s3]
      · simpa [endsCallable, endsCallableL, endsInExpr] using s4
      · intro x hx
        simp [leftOps] at hx
  all_goals exact top (by constructor <;> assumption) ot (by intro p hp; simp [rightLevels] at hp)

/-- operators with their right operands -/
private def Rest (l : List (SyntaxKind × PTree)) : Prop :=
  ∀ p ∈ l, isBinary p.1 ∧ Deriv .accepted .expr [p.2] ∧ leftOps p.2 = [] ∧ okT p.2

private def restYield (l : List (SyntaxKind × PTree)) : List SyntaxKind := l.flatMap fun p => p.1 :: yield p.2

private def lastOf (u : PTree) (l : List (SyntaxKind × PTree)) : PTree := (l.getLast?.map (·.2)).getD u

private theorem lastOf_cons (u : PTree) (p) (l : List (SyntaxKind × PTree)) : lastOf u (p :: l) = lastOf p.2 l := by
  cases l with
  | nil => simp [lastOf]
  | cons q l => simp [lastOf, List.getLast?_cons]

private theorem attachAll {t : PTree} {l} (hl : Rest l) (h : Deriv .accepted .expr [t]) (o : okT t) :
    ∃ s, Deriv .accepted .expr [s] ∧ okT s ∧ yield s = yield t ++ restYield l ∧
      endsCallable s = endsCallable (lastOf t l) := by
  induction l generalizing t with
  | nil => exact ⟨t, h, o, by simp [restYield], by simp [lastOf]⟩
  | cons p l ih =>
    obtain ⟨h1, h2, h3, h4⟩ := hl p (by simp)
    obtain ⟨s, s1, s2, s3, s4, -⟩ := attach h1 h2 h3 h4 h rfl rfl o
    obtain ⟨s', a1, a2, a3, a4⟩ := ih (fun q hq => hl q (by simp [hq])) s1 s2
    refine ⟨s', a1, a2, by simp [a3, s3, restYield], ?_⟩
    rw [a4, lastOf_cons]
    cases l with
    | nil => simpa [lastOf] using s4
    | cons q l => simp [lastOf_cons]

private theorem flat {nt ts} (h : Deriv .accepted nt ts) : ∀ {t}, nt = .expr → ts = [t] → okT t →
    ∃ u l, Deriv .accepted .expr [u] ∧ leftOps u = [] ∧ okT u ∧ Rest l ∧ yield t = yield u ++ restYield l ∧
      endsCallable (lastOf u l) = endsCallable t := by
  induction h <;> intro t h1 h2 ot <;> cases h1 <;> cases h2
  case «infix» q l r hq dl dr c1 c2 ihl ihr =>
    have ot' := (okT_node.1 ot).2
    obtain ⟨u, a, u1, u2, u3, u4, u5, u6⟩ := ihl rfl rfl (ot' l (by simp))
    obtain ⟨v, b, v1, v2, v3, v4, v5, v6⟩ := ihr rfl rfl (ot' r (by simp))
    refine ⟨u, a ++ (q, v) :: b, u1, u2, u3, ?_, ?_, ?_⟩
    · intro p hp
      simp only [List.mem_append, List.mem_cons] at hp
      rcases hp with hp | rfl | hp
      · exact u4 p hp
      · exact ⟨hq, v1, v2, v3⟩
      · exact v4 p hp
    · simp [yield, yieldL, u5, v5, restYield]
    · have : lastOf u (a ++ (q, v) :: b) = lastOf v b := by
        simp [lastOf, List.getLast?_append, List.getLast?_cons]
        cases b.getLast? <;> simp
      rw [this, v6]
      simp [endsCallable, endsCallableL, endsInExpr]
  case «prefix» q e hq de c ih =>
    have ot' := (okT_node.1 ot).2
    obtain ⟨u, a, u1, u2, u3, u4, u5, u6⟩ := ih rfl rfl (ot' e (by simp))
    refine ⟨.node .prefixExpr [.tok q, u], a, Deriv.«prefix» q u hq u1 (by simp [u2]), rfl,
      okT_node.2 ⟨trivial, by simp [u3, okT_tok]⟩, u4, by simp [yield, yieldL, u5], ?_⟩
    cases a with
    | nil => simpa [lastOf, endsCallable, endsCallableL, endsInExpr] using u6
    | cons p a => simpa [lastOf_cons, endsCallable, endsCallableL, endsInExpr] using u6
  all_goals exact ⟨_, [], by constructor <;> assumption, rfl, ot, by simp [Rest], by simp [restYield], by simp [lastOf]⟩

private theorem join {l r : PTree} {op : SyntaxKind} (ho : isBinary op) (hl : Deriv .accepted .expr [l]) (ol : okT l)
    (hr : Deriv .accepted .expr [r]) (or : okT r) :
    ∃ s, Deriv .accepted .expr [s] ∧ okT s ∧ yield s = yield l ++ [op] ++ yield r ∧ endsCallable s = endsCallable r := by
  obtain ⟨u, a, u1, u2, u3, u4, u5, u6⟩ := flat hr rfl rfl or
  obtain ⟨s, s1, s2, s3, s4⟩ := attachAll (l := (op, u) :: a)
    (by intro p hp; rcases List.mem_cons.1 hp with rfl | hp; exact ⟨ho, u1, u2, u3⟩; exact u4 p hp) hl ol
  exact ⟨s, s1, s2, by simp [s3, u5, restYield], by rw [s4, lastOf_cons, u6]⟩

private theorem joinPrefix {e : PTree} {op : SyntaxKind} (ho : op ∈ unaryOps) (he : Deriv .accepted .expr [e]) (oe : okT e) :
    ∃ s, Deriv .accepted .expr [s] ∧ okT s ∧ yield s = [op] ++ yield e ∧ endsCallable s = endsCallable e := by
  obtain ⟨u, a, u1, u2, u3, u4, u5, u6⟩ := flat he rfl rfl oe
  obtain ⟨s, s1, s2, s3, s4⟩ := attachAll (t := .node .prefixExpr [.tok op, u]) u4 (Deriv.«prefix» op u ho u1 (by simp [u2]))
    (okT_node.2 ⟨trivial, by simp [u3, okT_tok]⟩)
  refine ⟨s, s1, s2, by simp [s3, u5, yield, yieldL], ?_⟩
  rw [s4, ← u6]
  cases a with
  | nil => simp [lastOf, endsCallable, endsCallableL, endsInExpr]
  | cons p a => simp [lastOf_cons]

/-! ### from the manual to the accepted grammar -/

private abbrev MD := Deriv .accepted
private def okL (ts : List PTree) : Prop := ∀ t ∈ ts, okT t

private theorem okL_append {a b} : okL (a ++ b) ↔ okL a ∧ okL b := by
  simp only [okL, List.mem_append]
  exact ⟨fun h => ⟨fun t ht => h t (.inl ht), fun t ht => h t (.inr ht)⟩,
    fun h t ht => ht.elim (h.1 t) (h.2 t)⟩
private theorem okL_cons {a b} : okL (a :: b) ↔ okT a ∧ okL b := by simp [okL]
private theorem okL_nil : okL [] := by simp [okL]

private def Starts (w : List SyntaxKind) : Prop := w.head? = some .ident ∨ w.head? = some .lParen
private def targetKind (t : PTree) : Prop := kindOf t = some .nameRef ∨ kindOf t = some .dotExpr ∨ kindOf t = some .indexExpr
private def pathKinds : Nat → List SyntaxKind
  | 0 => []
  | n + 1 => [.dot, .ident] ++ pathKinds n

private def Has : Manual.NT → List SyntaxKind → Prop
  | .chunk, w => ∃ ts, MD .stmts ts ∧ okL ts ∧ yieldL ts = w
  | .stat e, w => ∃ s, MD .stmt [s] ∧ okT s ∧ yield s = w ∧ (e = .closed → endsCallable s = false) ∧ kindOf s ≠ some .returnStmt
  | .laststat, w => ∃ s, MD .stmt [s] ∧ okT s ∧ yield s = w
  | .elses, w => ∃ es, MD .elseOpt es ∧ okL es ∧ yieldL es = w
  | .dotted, w => ∃ n, w = .ident :: pathKinds n
  | .funcname, w => ∃ n, MD .funcName [n] ∧ okT n ∧ yield n = w
  | .varlist, w => ∃ t ts, MD .expr [t] ∧ MD .exprTail ts ∧ okL (t :: ts) ∧ yieldL (t :: ts) = w ∧
      (∀ c ∈ t :: ts, c = .tok .comma ∨ targetKind c) ∧ Starts w
  | .var, w => ∃ t, MD .expr [t] ∧ okT t ∧ yield t = w ∧ targetKind t ∧ Starts w
  | .namelist, w => ∃ ts, MD .nameTail ts ∧ okL ts ∧ .ident :: yieldL ts = w
  | .explist e, w => ∃ t ts, MD .expr [t] ∧ MD .exprTail ts ∧ okL (t :: ts) ∧ yieldL (t :: ts) = w ∧
      (e = .closed → endsCallableL (t :: ts) = false)
  | .exp e, w => ∃ t, MD .expr [t] ∧ okT t ∧ yield t = w ∧ (e = .closed → endsCallable t = false)
  | .prefixexp, w => ∃ t, MD .expr [t] ∧ okT t ∧ yield t = w ∧ callable t ∧ Starts w
  | .functioncall, w => ∃ t, MD .expr [t] ∧ okT t ∧ yield t = w ∧
      (kindOf t = some .callExpr ∨ kindOf t = some .methodCallExpr) ∧ Starts w
  | .args, w => ∃ t, MD .callArgs [t] ∧ okT t ∧ yield t = w
  | .funcbody, w => ∃ p b, MD .params [p] ∧ MD .block [b] ∧ okT p ∧ okT b ∧ yield p ++ yield b ++ [.endKw] = w
  | .parlist, w => ∃ p, MD .params [p] ∧ okT p ∧ yield p = [.lParen] ++ w ++ [.rParen]
  | .tableconstructor, w => ∃ ts, MD .tableItems ts ∧ okL ts ∧ [.lBrace] ++ yieldL ts ++ [.rBrace] = w
  | .fieldlist, w => ∃ ts, MD .tableItems ts ∧ okL ts ∧ yieldL ts = w
  | .field, w => ∃ t, MD .tableContent [t] ∧ okT t ∧ yield t = w

private theorem starts_append {a b : List SyntaxKind} (h : Starts a) : Starts (a ++ b) := by
  cases a with
  | nil => simp [Starts] at h
  | cons x xs => simpa [Starts] using h

private theorem okT_name : okT nameT := okT_node.2 ⟨trivial, by simp [okT_tok]⟩
private theorem okT_nameRef : okT nameRefT := okT_node.2 ⟨trivial, by simp [okT_tok]⟩

private theorem callable_of {t : PTree} {k : SyntaxKind} (h : kindOf t = some k)
    (hk : k ≠ .infixExpr ∧ k ≠ .prefixExpr ∧ k ≠ .literal := by simp) : callable t := by
  simp [callable, indexable, h, hk]

private theorem callable_target {t : PTree} (h : targetKind t) : callable t := by
  rcases h with h | h | h <;> exact callable_of h

private theorem pathTail_of (n : Nat) : ∃ ts, MD .pathTail ts ∧ okL ts ∧ yieldL ts = pathKinds n := by
  induction n with
  | zero => exact ⟨[], .pathNil, okL_nil, rfl⟩
  | succ n ih =>
    obtain ⟨ts, h1, h2, h3⟩ := ih
    exact ⟨_, .pathCons ts h1, by simp [okL_cons, okT_tok, okT_nameRef, h2], by simp [yieldL, yield, h3, pathKinds]⟩

private theorem pathKinds_snoc (n : Nat) : pathKinds (n + 1) = pathKinds n ++ [.dot, .ident] := by
  induction n with
  | zero => rfl
  | succ n ih =>
    show [.dot, .ident] ++ pathKinds (n + 1) = [.dot, .ident] ++ pathKinds n ++ [.dot, .ident]
    rw [ih, List.append_assoc]

private theorem binop_binary {k : SyntaxKind} (h : k ∈ Manual.binops) : isBinary k := by
  have : ∀ k ∈ Manual.binops, level k ≠ 0 := by decide
  exact this k h
private theorem unop_unary {k : SyntaxKind} (h : k ∈ Manual.unops) : k ∈ unaryOps := by
  have : ∀ k ∈ Manual.unops, k ∈ unaryOps := by decide
  exact this k h
private theorem constant_literal {k : SyntaxKind} (h : k ∈ Manual.constants) : k ∈ literalKinds := by
  have : ∀ k ∈ Manual.constants, k ∈ literalKinds := by decide
  exact this k h

private theorem multival_of {t ts} (h : MD .expr [t]) (h' : MD .exprTail ts) (o : okL (t :: ts)) :
    MD .multival [.node .multivalExpr (t :: ts)] ∧ okT (.node .multivalExpr (t :: ts)) :=
  ⟨.multival t ts h h', okT_node.2 ⟨trivial, o⟩⟩

private theorem block_of {ts} (h : MD .stmts ts) (o : okL ts) : MD .block [.node .block ts] ∧ okT (.node .block ts) :=
  ⟨.block ts h, okT_node.2 ⟨trivial, o⟩⟩

/-- nodes without a requirement of their own -/
private theorem okN {k cs} (h : okL cs) (hk : k ≠ .exprStmt ∧ k ≠ .assignStmt := by simp) : okT (.node k cs) := by
  refine okT_node.2 ⟨?_, h⟩
  unfold fineT
  split
  · simp_all
  · simp_all
  · trivial

macro "man_ok" : tactic => `(tactic|
  (repeat' first
    | assumption
    | exact okT_tok _ | exact okT_name | exact okT_nameRef | exact okL_nil
    | refine okN ?_ | refine okL_cons.2 ⟨?_, ?_⟩ | refine okL_append.2 ⟨?_, ?_⟩))

private theorem endsL_cons (a b : PTree) (l) : endsCallableL (a :: b :: l) = endsCallableL (b :: l) := by simp [endsCallableL]

private theorem tail_ends (t : PTree) (ts : List PTree) : endsCallableL (.tok .comma :: t :: ts) = endsCallableL (t :: ts) := rfl

private theorem has {nt w} (h : Manual.Derives false nt w) : Has nt w := by
  induction h with
  | empty => exact ⟨[], .stmtsNil, okL_nil, rfl⟩
  | @stat e w c _ _ hf ihs ihc =>
    obtain ⟨s, h1, h2, h3, h4, h5⟩ := ihs
    obtain ⟨ts, g1, g2, g3⟩ := ihc
    refine ⟨s :: ts, .stmtsCons s ts h1 g1 ?_, by man_ok, by simp [yieldL, h3, g3]⟩
    intro k hk
    rw [g3] at hk
    refine ⟨?_, ?_⟩
    · rintro rfl
      rcases hf hk with h | ⟨-, h⟩
      · exact h4 h
      · simp at h
    · rintro rfl; simp [kindOf] at h5
  | statSemi _ _ ihs ihc =>
    obtain ⟨s, h1, h2, h3, h4, h5⟩ := ihs
    obtain ⟨ts, g1, g2, g3⟩ := ihc
    exact ⟨s :: .tok .semicolon :: ts, .stmtsSemi s ts h1 g1, by man_ok, by simp [yieldL, yield, h3, g3]⟩
  | last _ ih =>
    obtain ⟨s, h1, h2, h3⟩ := ih
    exact ⟨[s], .stmtsCons s [] h1 .stmtsNil (by simp [yieldL]), by man_ok, by simp [yieldL, h3]⟩
  | lastSemi _ ih =>
    obtain ⟨s, h1, h2, h3⟩ := ih
    exact ⟨[s, .tok .semicolon], .stmtsSemi s [] h1 .stmtsNil, by man_ok, by simp [yieldL, yield, h3]⟩
  | assign _ _ ihv ihe =>
    obtain ⟨t, ts, h1, h2, h3, h4, h5, h6⟩ := ihv
    obtain ⟨u, us, g1, g2, g3, g4, g5⟩ := ihe
    obtain ⟨m1, m2⟩ := multival_of h1 h2 h3
    obtain ⟨n1, n2⟩ := multival_of g1 g2 g3
    refine ⟨_, .assign _ _ m1 ?_ n1, okT_node.2 ⟨⟨_, _, rfl, h5⟩, ?_⟩, ?_, ?_, by simp [kindOf]⟩
    · simpa [startsStmt, yield, h4, Starts] using h6
    · have : okL [.node .multivalExpr (t :: ts), .tok .eq, .node .multivalExpr (u :: us)] := by man_ok
      exact this
    · simp [yield, yieldL] at h4 g4 ⊢; simp [← h4, g4]
    · intro h; have := g5 h; simpa [endsCallable, endsCallableL, endsInExpr] using this
  | call _ ih =>
    obtain ⟨t, h1, h2, h3, h4, h5⟩ := ih
    have o : okL [t] := by man_ok
    obtain ⟨m1, m2⟩ := multival_of h1 .tailNil o
    refine ⟨_, .exprStmt _ m1 ?_, okT_node.2 ⟨⟨_, rfl, h4⟩, ?_⟩, ?_, by simp, by simp [kindOf]⟩
    · simpa [startsStmt, yield, yieldL, h3, Starts] using h5
    · simpa using m2
    · simp [yield, yieldL, h3]
  | do_ _ ih =>
    obtain ⟨ts, g1, g2, g3⟩ := ih
    exact ⟨_, .doStmt _ (.block _ g1), by man_ok, by simp [yield, yieldL, g3], by simp [endsCallable, endsInExpr, callableKinds],
      by simp [kindOf]⟩
  | while_ _ _ ihe ihb =>
    obtain ⟨t, h1, h2, h3, h4⟩ := ihe
    obtain ⟨ts, g1, g2, g3⟩ := ihb
    exact ⟨_, .while _ _ h1 (.block _ g1), by man_ok, by simp [yield, yieldL, h3, g3],
      by simp [endsCallable, endsInExpr, callableKinds], by simp [kindOf]⟩
  | repeat_ _ _ ihb ihe =>
    obtain ⟨t, h1, h2, h3, h4⟩ := ihe
    obtain ⟨ts, g1, g2, g3⟩ := ihb
    exact ⟨_, .repeat _ _ (.block _ g1) h1, by man_ok, by simp [yield, yieldL, h3, g3],
      by simpa [endsCallable, endsCallableL, endsInExpr] using h4, by simp [kindOf]⟩
  | if_ _ _ _ ihe ihb ihr =>
    obtain ⟨t, h1, h2, h3, h4⟩ := ihe
    obtain ⟨ts, g1, g2, g3⟩ := ihb
    obtain ⟨es, e1, e2, e3⟩ := ihr
    exact ⟨_, .ifStmt _ _ es h1 (.block _ g1) e1, by man_ok, by simp [yield, yieldL, h3, g3, e3],
      by simp [endsCallable, endsInExpr, callableKinds], by simp [kindOf]⟩
  | noElse => exact ⟨[], .elseNone, okL_nil, rfl⟩
  | else_ _ ih =>
    obtain ⟨ts, g1, g2, g3⟩ := ih
    exact ⟨_, .elseBranch _ (.block _ g1), by man_ok, by simp [yield, yieldL, g3]⟩
  | elseif _ _ _ ihe ihb ihr =>
    obtain ⟨t, h1, h2, h3, h4⟩ := ihe
    obtain ⟨ts, g1, g2, g3⟩ := ihb
    obtain ⟨es, e1, e2, e3⟩ := ihr
    exact ⟨_, .elseIf _ _ es h1 (.block _ g1) e1, by man_ok, by simp [yield, yieldL, h3, g3, e3]⟩
  | for2 _ _ _ iha ihb ihc =>
    obtain ⟨t, h1, h2, h3, -⟩ := iha
    obtain ⟨u, u1, u2, u3, -⟩ := ihb
    obtain ⟨ts, g1, g2, g3⟩ := ihc
    exact ⟨_, .forStmt _ _ (.numericFor _ (.multival _ _ h1 (.tailCons _ _ u1 .tailNil))) (.block _ g1), by man_ok,
      by simp [yield, yieldL, h3, u3, g3], by simp [endsCallable, endsInExpr, callableKinds], by simp [kindOf]⟩
  | for3 _ _ _ _ iha ihb ihb' ihc =>
    obtain ⟨t, h1, h2, h3, -⟩ := iha
    obtain ⟨u, u1, u2, u3, -⟩ := ihb
    obtain ⟨v, v1, v2, v3, -⟩ := ihb'
    obtain ⟨ts, g1, g2, g3⟩ := ihc
    exact ⟨_, .forStmt _ _ (.numericFor _ (.multival _ _ h1 (.tailCons _ _ u1 (.tailCons _ _ v1 .tailNil)))) (.block _ g1),
      by man_ok, by simp [yield, yieldL, h3, u3, v3, g3], by simp [endsCallable, endsInExpr, callableKinds], by simp [kindOf]⟩
  | forIn _ _ _ ihn ihe ihb =>
    obtain ⟨ns, n1, n2, n3⟩ := ihn
    obtain ⟨t, h1, h2, h3, -⟩ := ihe
    obtain ⟨ts, g1, g2, g3⟩ := ihb
    exact ⟨_, .forStmt _ _ (.genericFor ns _ n1 h1) (.block _ g1),
      by man_ok, by simp [yield, yieldL, ← n3, h3, g3], by simp [endsCallable, endsInExpr, callableKinds], by simp [kindOf]⟩
  | forInList h => simp at h
  | function_ _ _ ihn ihf =>
    obtain ⟨n, n1, n2, n3⟩ := ihn
    obtain ⟨p, b, p1, b1, p2, b2, p3⟩ := ihf
    exact ⟨_, .function_ _ _ _ n1 p1 b1, by man_ok, by simp [yield, yieldL, ← n3, ← p3],
      by simp [endsCallable, endsInExpr, callableKinds], by simp [kindOf]⟩
  | localFunction _ ihf =>
    obtain ⟨p, b, p1, b1, p2, b2, p3⟩ := ihf
    exact ⟨_, .localFunction _ _ p1 b1, by man_ok, by simp [yield, yieldL, ← p3],
      by simp [endsCallable, endsInExpr, callableKinds], by simp [kindOf]⟩
  | local_ _ ihn =>
    obtain ⟨ns, n1, n2, n3⟩ := ihn
    exact ⟨_, .localNames ns n1, by man_ok, by simp [yield, yieldL, ← n3],
      by simp [endsCallable, endsCallableL, endsInExpr, callableKinds], by simp [kindOf]⟩
  | localAssign _ _ ihn ihe =>
    obtain ⟨ns, n1, n2, n3⟩ := ihn
    obtain ⟨u, us, g1, g2, g3, g4, g5⟩ := ihe
    refine ⟨_, .localAssign ns _ n1 (.multival _ _ g1 g2), by man_ok, ?_, ?_, by simp [kindOf]⟩
    · simp [yield, yieldL] at g4 ⊢; simp [← n3, g4]
    · intro h; have := g5 h; simpa [endsCallable, endsCallableL, endsInExpr] using this
  | return_ => exact ⟨_, .returnNone, by man_ok, by simp [yield, yieldL]⟩
  | returnList _ ih =>
    obtain ⟨u, us, g1, g2, g3, g4, g5⟩ := ih
    refine ⟨_, .return _ (.multival _ _ g1 g2), by man_ok, ?_⟩
    simp [yield, yieldL] at g4 ⊢; simp [g4]
  | break_ => exact ⟨_, .break, by man_ok, by simp [yield, yieldL]⟩
  | dotted1 => exact ⟨0, rfl⟩
  | dotted _ ih =>
    obtain ⟨n, rfl⟩ := ih
    exact ⟨n + 1, rfl⟩
  | name _ ih =>
    obtain ⟨n, rfl⟩ := ih
    cases n with
    | zero => exact ⟨_, .plainName, by man_ok, by simp [yield, yieldL, pathKinds]⟩
    | succ n =>
      obtain ⟨ts, h1, h2, h3⟩ := pathTail_of n
      exact ⟨_, .staticName ts h1, by man_ok, by simp [yield, yieldL, h3, pathKinds_snoc]⟩
  | method _ ih =>
    obtain ⟨n, rfl⟩ := ih
    obtain ⟨ts, h1, h2, h3⟩ := pathTail_of n
    exact ⟨_, .methodName ts h1, by man_ok, by simp [yield, yieldL, h3]⟩
  | var1 _ ih =>
    obtain ⟨t, h1, h2, h3, h4, h5⟩ := ih
    exact ⟨t, [], h1, .tailNil, by man_ok, by simp [yieldL, h3], by simp [h4], h5⟩
  | vars _ _ ihv ihl =>
    obtain ⟨t, h1, h2, h3, h4, h5⟩ := ihv
    obtain ⟨u, us, g1, g2, g3, g4, g5, -⟩ := ihl
    have := okL_cons.1 g3
    refine ⟨t, _, h1, .tailCons u us g1 g2, by man_ok, ?_, ?_, ?_⟩
    · simp [yieldL, yield] at g4 ⊢; simp [g4, h3]
    · simp only [List.mem_cons, forall_eq_or_imp] at g5 ⊢
      exact ⟨.inr h4, by simp, g5⟩
    · rw [List.append_assoc]; exact starts_append h5
  | varName => exact ⟨_, .nameRef, by man_ok, by simp [yield, yieldL], .inl rfl, .inl rfl⟩
  | varIndex _ _ ihp ihe =>
    obtain ⟨t, h1, h2, h3, h4, h5⟩ := ihp
    obtain ⟨i, g1, g2, g3, -⟩ := ihe
    refine ⟨_, .indexE t _ h1 h4.1 (.index i g1), by man_ok, by simp [yield, yieldL, h3, g3], .inr (.inr rfl), ?_⟩
    simp only [List.append_assoc]; exact starts_append h5
  | varField _ ihp =>
    obtain ⟨t, h1, h2, h3, h4, h5⟩ := ihp
    exact ⟨_, .dot t h1 h4.1, by man_ok, by simp [yield, yieldL, h3], .inr (.inl rfl), starts_append h5⟩
  | name1 => exact ⟨[], .nameTailNil, okL_nil, rfl⟩
  | names _ ih =>
    obtain ⟨ts, h1, h2, h3⟩ := ih
    exact ⟨_, .nameTailCons ts h1, by man_ok, by simp [yieldL, yield, ← h3]⟩
  | exp1 _ ih =>
    obtain ⟨t, h1, h2, h3, h4⟩ := ih
    exact ⟨t, [], h1, .tailNil, by man_ok, by simp [yieldL, h3], by simpa [endsCallableL] using h4⟩
  | exps _ _ ihe ihl =>
    obtain ⟨t, h1, h2, h3, h4⟩ := ihe
    obtain ⟨u, us, g1, g2, g3, g4, g5⟩ := ihl
    have := okL_cons.1 g3
    refine ⟨t, _, h1, .tailCons u us g1 g2, by man_ok, ?_, ?_⟩
    · simp [yieldL, yield] at g4 ⊢; simp [g4, h3]
    · simpa [endsCallableL] using g5
  | constant hk =>
    exact ⟨_, .literal _ (constant_literal hk), by man_ok, by simp [yield, yieldL], by simp [endsCallable, endsInExpr, callableKinds]⟩
  | function _ ihf =>
    obtain ⟨p, b, p1, b1, p2, b2, p3⟩ := ihf
    exact ⟨_, .function _ _ p1 b1, by man_ok, by simp [yield, yieldL, ← p3], by simp⟩
  | prefixexp _ ih =>
    obtain ⟨t, h1, h2, h3, h4, h5⟩ := ih
    exact ⟨t, h1, h2, h3, by simp⟩
  | table _ ih =>
    obtain ⟨ts, h1, h2, h3⟩ := ih
    exact ⟨_, .table ts h1, by man_ok, by simp [yield, yieldL, ← h3], by simp⟩
  | binop _ hk _ ihl ihr =>
    obtain ⟨t, h1, h2, h3, h4⟩ := ihl
    obtain ⟨u, g1, g2, g3, g4⟩ := ihr
    obtain ⟨s, s1, s2, s3, s4⟩ := join (binop_binary hk) h1 h2 g1 g2
    exact ⟨s, s1, s2, by simp [s3, h3, g3], fun h => s4.trans (g4 h)⟩
  | unop hk _ ih =>
    obtain ⟨t, h1, h2, h3, h4⟩ := ih
    obtain ⟨s, s1, s2, s3, s4⟩ := joinPrefix (unop_unary hk) h1 h2
    exact ⟨s, s1, s2, by simp [s3, h3], fun h => s4.trans (h4 h)⟩
  | prefixVar _ ih =>
    obtain ⟨t, h1, h2, h3, h4, h5⟩ := ih
    exact ⟨t, h1, h2, h3, callable_target h4, h5⟩
  | prefixCall _ ih =>
    obtain ⟨t, h1, h2, h3, h4, h5⟩ := ih
    exact ⟨t, h1, h2, h3, h4.elim (fun h => callable_of h) (fun h => callable_of h), h5⟩
  | paren _ ih =>
    obtain ⟨t, h1, h2, h3, h4⟩ := ih
    exact ⟨_, .paren t h1, by man_ok, by simp [yield, yieldL, h3], callable_of (k := .parenExpr) rfl, .inr rfl⟩
  | callArgs _ _ ihp iha =>
    obtain ⟨t, h1, h2, h3, h4, h5⟩ := ihp
    obtain ⟨a, a1, a2, a3⟩ := iha
    exact ⟨_, .call t a h1 h4 a1, by man_ok, by simp [yield, yieldL, h3, a3], .inl rfl, starts_append h5⟩
  | callMethod _ _ ihp iha =>
    obtain ⟨t, h1, h2, h3, h4, h5⟩ := ihp
    obtain ⟨a, a1, a2, a3⟩ := iha
    refine ⟨_, .method t a h1 h4 a1, by man_ok, by simp [yield, yieldL, h3, a3], .inr rfl, ?_⟩
    rw [List.append_assoc]; exact starts_append h5
  | args0 => exact ⟨_, .argsEmpty, by man_ok, by simp [yield, yieldL]⟩
  | args _ ih =>
    obtain ⟨u, us, g1, g2, g3, g4, g5⟩ := ih
    refine ⟨_, .args _ (.multival _ _ g1 g2), by man_ok, ?_⟩
    simp [yield, yieldL] at g4 ⊢; simp [← g4]
  | argsTable _ ih =>
    obtain ⟨ts, h1, h2, h3⟩ := ih
    exact ⟨_, .argsTable ts h1, by man_ok, by simp [yield, yieldL, ← h3]⟩
  | argsString => exact ⟨_, .argsStr, by man_ok, by simp [yield, yieldL]⟩
  | body0 _ ih =>
    obtain ⟨ts, g1, g2, g3⟩ := ih
    exact ⟨_, _, .paramsEmpty, .block _ g1, by man_ok, by man_ok, by simp [yield, yieldL, g3]⟩
  | body _ _ ihp ih =>
    obtain ⟨p, p1, p2, p3⟩ := ihp
    obtain ⟨ts, g1, g2, g3⟩ := ih
    exact ⟨_, _, p1, .block _ g1, by man_ok, by man_ok, by simp [PTree.yield, g3, p3]⟩
  | params _ ih =>
    obtain ⟨ts, h1, h2, h3⟩ := ih
    exact ⟨_, .paramsNames ts h1, by man_ok, by simp [yield, yieldL, ← h3]⟩
  | paramsDots _ ih =>
    obtain ⟨ts, h1, h2, h3⟩ := ih
    exact ⟨_, .paramsNamesVararg ts h1, by man_ok, by simp [yield, yieldL, ← h3]⟩
  | dots => exact ⟨_, .paramsVararg, by man_ok, by simp [yield, yieldL]⟩
  | table0 => exact ⟨[], .itemsNil, okL_nil, rfl⟩
  | tableFields _ ih =>
    obtain ⟨ts, h1, h2, h3⟩ := ih
    exact ⟨ts, h1, h2, by rw [h3]⟩
  | field1 _ ih =>
    obtain ⟨t, h1, h2, h3⟩ := ih
    exact ⟨[t], .itemsLast t h1, by man_ok, by simp [yieldL, h3]⟩
  | fieldSep _ hs ih =>
    obtain ⟨t, h1, h2, h3⟩ := ih
    exact ⟨_, .itemsCons t _ [] h1 hs .itemsNil, by man_ok, by simp [yieldL, yield, h3]⟩
  | fields _ hs _ ih ihl =>
    obtain ⟨t, h1, h2, h3⟩ := ih
    obtain ⟨ts, g1, g2, g3⟩ := ihl
    exact ⟨_, .itemsCons t _ ts h1 hs g1, by man_ok, by simp [yieldL, yield, h3, g3]⟩
  | fieldIndex _ _ ihi ihe =>
    obtain ⟨t, h1, h2, h3, -⟩ := ihi
    obtain ⟨u, g1, g2, g3, -⟩ := ihe
    exact ⟨_, .indexedField _ u (.index t h1) g1, by man_ok, by simp [yieldL, yield, h3, g3]⟩
  | fieldName _ ih =>
    obtain ⟨u, g1, g2, g3, -⟩ := ih
    exact ⟨_, .namedField u g1, by man_ok, by simp [yieldL, yield, g3]⟩
  | fieldExp _ ih =>
    obtain ⟨u, g1, g2, g3, -⟩ := ih
    exact ⟨_, .positional u g1, by man_ok, by simp [yieldL, yield, g3]⟩

/-! ### the statements in a syntax tree -/

private def isNodeT : PTree → Bool
  | .node _ _ => true
  | _ => false

private theorem strip_nodes (cs : List Green) : ((cs.filter (·.isNode)).map strip) = (stripL cs).filter isNodeT := by
  induction cs with
  | nil => rfl
  | cons c cs ih =>
    cases c with
    | token k w =>
      rw [List.filter_cons, if_neg (by simp [Green.isNode]), ih]
      by_cases hk : k.isTrivia = true
      · simp [stripL, hk]
      · simp [stripL, hk, strip, isNodeT]
    | node k ds =>
      rw [List.filter_cons, if_pos (by simp [Green.isNode]), List.map_cons, ih]
      rw [show stripL (.node k ds :: cs) = strip (.node k ds) :: stripL cs by simp [stripL], List.filter_cons,
        if_pos (by simp [strip, isNodeT])]

private theorem kindOf_strip {g : Green} (h : g.isNode = true) : kindOf (strip g) = some g.kind := by
  cases g with
  | token k w => simp [Green.isNode] at h
  | node k cs => simp [strip, kindOf, Green.kind]

private theorem isNode_of_kind {t : PTree} {k} (h : kindOf t = some k) : isNodeT t = true := by
  cases t <;> simp_all [kindOf, isNodeT]

private theorem fine_of {g : Green} (hg : g.isNode = true) (h : fineT (strip g)) (hl : ∀ w, g = .node .literal [.token .str w] → StringOk w) :
    Fine g := by
  refine ⟨?_, ?_, hl⟩
  · intro hk
    cases g with
    | token k w => simp [Green.isNode] at hg
    | node k cs =>
      obtain rfl : k = .exprStmt := hk
      obtain ⟨c, h1, h2⟩ := h
      have e := strip_nodes cs
      rw [h1] at e
      simp only [List.filter_cons, isNodeT, if_true, List.filter_nil] at e
      obtain ⟨m, e1, e2⟩ := List.map_eq_singleton_iff.1 e
      have hm : m.isNode = true := (List.mem_filter.1 (e1 ▸ List.mem_singleton_self m)).2
      refine ⟨m, e1, ?_, ?_⟩
      · have := kindOf_strip hm
        rw [e2] at this
        simpa [kindOf] using this.symm
      · cases m with
        | token => simp [Green.isNode] at hm
        | node k ds =>
          simp only [strip, PTree.node.injEq] at e2
          have f := strip_nodes ds
          have hc : isNodeT c = true := h2.elim isNode_of_kind isNode_of_kind
          rw [e2.2] at f
          simp only [List.filter_cons, hc, if_true, List.filter_nil] at f
          obtain ⟨d, f1, f2⟩ := List.map_eq_singleton_iff.1 f
          have hd : d.isNode = true := (List.mem_filter.1 (f1 ▸ List.mem_singleton_self d)).2
          have hk := kindOf_strip hd
          rw [f2] at hk
          have hn : nodesIn (.node k ds) = [d] := f1
          rw [hk] at h2
          simp only [Option.some.injEq] at h2
          rw [hn]
          refine ⟨?_, ?_⟩
          · rcases h2 with h2 | h2 <;> simp [h2]
          · simp only [List.mem_singleton, forall_eq]
            rcases h2 with h2 | h2 <;> simp [h2]
  · intro hk
    cases g with
    | token k w => simp [Green.isNode] at hg
    | node k cs =>
      obtain rfl : k = .assignStmt := hk
      obtain ⟨l, r, h1, h2⟩ := h
      have e := strip_nodes cs
      rw [h1] at e
      simp [List.filter_cons, isNodeT, List.map_eq_cons_iff] at e
      obtain ⟨a, bs, e0, e1, b, e2, e3⟩ := e
      have e4 : nodesIn (.node .assignStmt cs) = [a, b] := by
        simp only [nodesIn, Green.children, e0, e2]
      have ha : a.isNode = true := (List.mem_filter.1 (show a ∈ nodesIn (.node .assignStmt cs) by simp [e4])).2
      have hb : b.isNode = true := (List.mem_filter.1 (show b ∈ nodesIn (.node .assignStmt cs) by simp [e4])).2
      have ka := kindOf_strip ha
      have kb := kindOf_strip hb
      rw [e1] at ka; rw [e3] at kb
      refine ⟨a, b, e4, by simpa [kindOf] using ka.symm, by simpa [kindOf] using kb.symm, ?_⟩
      intro c hc
      have hcn := (List.mem_filter.1 hc).2
      have hm : strip c ∈ (nodesIn a).map strip := List.mem_map.2 ⟨c, hc, rfl⟩
      cases a with
      | token => simp [Green.isNode] at ha
      | node k ds =>
        simp only [strip, PTree.node.injEq] at e1
        rw [show (nodesIn (.node k ds)).map strip = _ from strip_nodes ds, e1.2] at hm
        have := h2 _ (List.mem_filter.1 hm).1
        have kc := kindOf_strip hcn
        rcases this with h | h | h | h
        · rw [h] at kc; simp [kindOf] at kc
        all_goals rw [h] at kc; simp only [Option.some.injEq] at kc; simp [← kc]

mutual
private theorem nodes_sub (off : Nat) (g : Green) : ∀ p ∈ g.nodes off, p.2.isNode = true ∧ Sub (strip p.2) (strip g) := by
  intro p hp
  cases g with
  | token k w => simp [Green.nodes] at hp
  | node k cs =>
    simp only [Green.nodes, List.mem_cons] at hp
    rcases hp with rfl | hp
    · exact ⟨rfl, .refl _⟩
    · obtain ⟨h1, t, h2, h3⟩ := nodesL_sub off cs p hp
      exact ⟨h1, .node _ _ _ _ h2 h3⟩
private theorem nodesL_sub (off : Nat) (gs : List Green) : ∀ p ∈ Green.nodesL off gs,
    p.2.isNode = true ∧ ∃ t ∈ stripL gs, Sub (strip p.2) t := by
  intro p hp
  cases gs with
  | nil => simp [Green.nodesL] at hp
  | cons g gs =>
    simp only [Green.nodesL, List.mem_append] at hp
    rcases hp with hp | hp
    · obtain ⟨h1, h2⟩ := nodes_sub off g p hp
      cases g with
      | token k w => simp [Green.nodes] at hp
      | node k cs => exact ⟨h1, _, by simp [stripL], h2⟩
    · obtain ⟨h1, t, h2, h3⟩ := nodesL_sub _ gs p hp
      refine ⟨h1, t, ?_, h3⟩
      have : stripL (g :: gs) = stripL [g] ++ stripL gs := stripL_append [g] gs
      rw [this]
      exact List.mem_append_right _ h2
end

mutual
private theorem nodes_leaves (off : Nat) (g : Green) : ∀ p ∈ g.nodes off, ∀ l ∈ p.2.leaves, l ∈ g.leaves := by
  intro p hp l hl
  cases g with
  | token k w => simp [Green.nodes] at hp
  | node k cs =>
    simp only [Green.nodes, List.mem_cons] at hp
    rcases hp with rfl | hp
    · exact hl
    · exact nodesL_leaves off cs p hp l hl
private theorem nodesL_leaves (off : Nat) (gs : List Green) : ∀ p ∈ Green.nodesL off gs, ∀ l ∈ p.2.leaves,
    l ∈ Green.leavesL gs := by
  intro p hp l hl
  cases gs with
  | nil => simp [Green.nodesL] at hp
  | cons g gs =>
    simp only [Green.nodesL, List.mem_append] at hp
    simp only [Green.leavesL, List.mem_append]
    rcases hp with hp | hp
    · exact .inl (nodes_leaves off g p hp l hl)
    · exact .inr (nodesL_leaves _ gs p hp l hl)
end

private theorem words_unique : ∀ (a b : List Text), a.flatten = b.flatten → a.map Text.len = b.map Text.len → a = b := by
  intro a
  induction a with
  | nil => intro b _ h; cases b with
    | nil => rfl
    | cons => simp at h
  | cons w a ih =>
    intro b h1 h2
    cases b with
    | nil => simp at h2
    | cons v b =>
      simp only [List.flatten_cons, List.map_cons, List.cons.injEq] at h1 h2
      obtain ⟨rfl, h⟩ := Text.append_inj_len h1 h2.1
      rw [ih b h h2.2]

/-- **C115**: a text that lexes without an error, whose tokens the Lua 5.1 reference manual derives, and whose strings have
only escapes lua-analyzer knows, gets no error, unless it has a list of several expressions after `in` or a statement that
starts with `(` right behind a function or a table constructor. -/
theorem C115_manual_partial (text : Text) (tokens : List Token) (hl : tokenize text = .ok (tokens, []))
    (hd : Manual.Derives false .chunk ((tokens.map (·.kind)).filter fun k => !k.isTrivia))
    (hs : Manual.StringsOk text tokens) : ∃ tree, sourceFileParse text = .ok (tree, []) := by
  obtain ⟨ts, h1, h2, h3⟩ := has hd
  have hp : Program .accepted (.node .sourceFile [.node .block ts]) := ⟨_, rfl, .block ts h1⟩
  have hy : yield (.node .sourceFile [.node .block ts]) = (tokens.map (·.kind)).filter fun k => !k.isTrivia := by
    simp [yield, yieldL, h3]
  obtain ⟨tree, ht⟩ := (C78_parses text).2 ⟨tokens, _, hl, hp, hy⟩
  refine ⟨tree, (C78_accepted text tree).2 ⟨ht, ?_⟩⟩
  obtain ⟨d1, ⟨tokens', d2, d3⟩, d4⟩ := C84_derivation text tree ht
  rw [hl] at d2
  simp only [Except.ok.injEq, Prod.mk.injEq, and_true] at d2
  subst d2
  have e := d4 _ hp (hy.trans d3.symm)
  obtain ⟨hm, -⟩ := (C87_parse text tree).1 ht
  obtain ⟨m1, tokens', m2, m3⟩ := hm
  rw [hl] at m2
  simp only [Except.ok.injEq, Prod.mk.injEq, and_true] at m2
  subst m2
  have ok : okT (strip tree) := by
    rw [← e]
    exact okN (okL_cons.2 ⟨okN h2, okL_nil⟩)
  intro p hpn
  obtain ⟨n1, n2⟩ := nodes_sub 0 tree p hpn
  refine fine_of n1 (ok _ n2) ?_
  intro w hw
  have hmem : (SyntaxKind.str, w) ∈ tree.leaves := nodes_leaves 0 tree p hpn _ (by simp [hw, Green.leaves, Green.leavesL])
  obtain ⟨words, w1, w2, w3⟩ := hs
  have hw : words = tree.leaves.map (·.2) := by
    refine words_unique _ _ ?_ ?_
    · rw [w1, ← m1, text_leaves]; rfl
    · rw [w2, ← m3]; simp [List.map_map, Function.comp_def]
  refine w3 (⟨.str, Text.len w⟩, w) ?_ rfl
  rw [hw, ← m3, List.zip_map']
  exact List.mem_map.2 ⟨_, hmem, rfl⟩

/-! ### a program, and what is missing -/

/-- `local s="a"f(s){-1^x}` -/
def manualText : Text := "local s=\"a\"f(s){-1^x}".toList

theorem manualText_tokens : tokenize manualText =
    .ok ([⟨.localKw, 5⟩, ⟨.whitespace, 1⟩, ⟨.ident, 1⟩, ⟨.eq, 1⟩, ⟨.str, 3⟩, ⟨.ident, 1⟩, ⟨.lParen, 1⟩, ⟨.ident, 1⟩, ⟨.rParen, 1⟩,
      ⟨.lBrace, 1⟩, ⟨.minus, 1⟩, ⟨.number, 1⟩, ⟨.caret, 1⟩, ⟨.ident, 1⟩, ⟨.rBrace, 1⟩], []) := by
  decide +kernel

theorem manualText_derives : Manual.Derives false .chunk [.localKw, .ident, .eq, .str, .ident, .lParen, .ident, .rParen,
    .lBrace, .minus, .number, .caret, .ident, .rBrace] := by
  refine Manual.Derives.stat (w := [.localKw, .ident, .eq, .str])
    (Manual.Derives.localAssign (n := [.ident]) .name1 (.exp1 (.constant (by decide))))
    (Manual.Derives.stat (w := [.ident, .lParen, .ident, .rParen, .lBrace, .minus, .number, .caret, .ident, .rBrace]) (c := [])
      (.call (Manual.Derives.callArgs (p := [.ident, .lParen, .ident, .rParen]) (.prefixCall (Manual.Derives.callArgs
        (p := [.ident]) (.prefixVar .varName) (Manual.Derives.args (w := [.ident]) (.exp1 (.prefixexp (.prefixVar .varName))))))
        (.argsTable (Manual.Derives.tableFields (w := [.minus, .number, .caret, .ident]) (.field1 (.fieldExp
          (Manual.Derives.binop (l := [.minus, .number]) (Manual.Derives.unop (k := .minus) (w := [.number]) (by decide)
            (.constant (by decide))) (k := .caret) (by decide) (.prefixexp (.prefixVar .varName)))))))))
      .empty (by decide)) (by decide)

theorem manualText_strings : Manual.StringsOk manualText [⟨.localKw, 5⟩, ⟨.whitespace, 1⟩, ⟨.ident, 1⟩, ⟨.eq, 1⟩, ⟨.str, 3⟩,
    ⟨.ident, 1⟩, ⟨.lParen, 1⟩, ⟨.ident, 1⟩, ⟨.rParen, 1⟩, ⟨.lBrace, 1⟩, ⟨.minus, 1⟩, ⟨.number, 1⟩, ⟨.caret, 1⟩, ⟨.ident, 1⟩,
    ⟨.rBrace, 1⟩] := by
  refine ⟨["local".toList, [' '], ['s'], ['='], ['"', 'a', '"'], ['f'], ['('], ['s'], [')'], ['{'], ['-'], ['1'], ['^'],
    ['x'], ['}']], by decide, by decide, ?_⟩
  simp
  exact ⟨['a'], .plain (by decide) .nil, .inl ⟨'"', .inr rfl, rfl⟩⟩

/-- The theorem applies to a program with a local variable, a curried call and operators of different levels. -/
example : ∃ tree, sourceFileParse manualText = .ok (tree, []) :=
  C115_manual_partial _ _ manualText_tokens manualText_derives manualText_strings

/-- `for k in next,t do end` -/
private def forText : Text := "for k in next,t do end".toList

/-- **C115** fails for lists of expressions after `in`. -/
theorem C115_for_fails : ∃ tokens, tokenize forText = .ok (tokens, []) ∧
    Manual.Derives true .chunk ((tokens.map (·.kind)).filter fun k => !k.isTrivia) ∧
    Manual.StringsOk forText tokens ∧ ¬ ∃ tree, sourceFileParse forText = .ok (tree, []) := by
  refine ⟨[⟨.forKw, 3⟩, ⟨.whitespace, 1⟩, ⟨.ident, 1⟩, ⟨.whitespace, 1⟩, ⟨.inKw, 2⟩, ⟨.whitespace, 1⟩, ⟨.ident, 4⟩, ⟨.comma, 1⟩,
    ⟨.ident, 1⟩, ⟨.whitespace, 1⟩, ⟨.doKw, 2⟩, ⟨.whitespace, 1⟩, ⟨.endKw, 3⟩], by decide +kernel, ?_, ?_, ?_⟩
  · exact Manual.Derives.stat (w := [.forKw, .ident, .inKw, .ident, .comma, .ident, .doKw, .endKw]) (c := [])
      (Manual.Derives.forInList (n := [.ident]) (c := [.ident, .comma, .ident]) (b := []) rfl .name1
        (Manual.Derives.exps (w := [.ident]) (.prefixexp (.prefixVar .varName)) (.exp1 (.prefixexp (.prefixVar .varName)))) .empty)
      .empty (by decide)
  · exact ⟨["for".toList, [' '], ['k'], [' '], "in".toList, [' '], "next".toList, [','], ['t'], [' '], "do".toList, [' '],
      "end".toList], by decide, by decide, by simp⟩
  · rintro ⟨tree, h⟩
    have : (sourceFileParse forText).toOption.map (fun p : Green × List SyntaxError => p.2.isEmpty) = some false := by
      rw [sourceFileParse_eq_eval]; decide +kernel
    rw [h] at this
    simp [Except.toOption] at this

/-- `local a={}(f)[1]=2` -/
private def tableText : Text := "local a={}(f)[1]=2".toList

/-- **C115** fails for a statement that starts with `(` right behind a table constructor. -/
theorem C115_table_fails : ∃ tokens, tokenize tableText = .ok (tokens, []) ∧
    Manual.Derives true .chunk ((tokens.map (·.kind)).filter fun k => !k.isTrivia) ∧
    Manual.StringsOk tableText tokens ∧ ¬ ∃ tree, sourceFileParse tableText = .ok (tree, []) := by
  refine ⟨[⟨.localKw, 5⟩, ⟨.whitespace, 1⟩, ⟨.ident, 1⟩, ⟨.eq, 1⟩, ⟨.lBrace, 1⟩, ⟨.rBrace, 1⟩, ⟨.lParen, 1⟩, ⟨.ident, 1⟩,
    ⟨.rParen, 1⟩, ⟨.lBracket, 1⟩, ⟨.number, 1⟩, ⟨.rBracket, 1⟩, ⟨.eq, 1⟩, ⟨.number, 1⟩], by decide +kernel, ?_, ?_, ?_⟩
  · exact Manual.Derives.stat (w := [.localKw, .ident, .eq, .lBrace, .rBrace])
      (Manual.Derives.localAssign (n := [.ident]) .name1 (.exp1 (.table .table0)))
      (Manual.Derives.stat (w := [.lParen, .ident, .rParen, .lBracket, .number, .rBracket, .eq, .number]) (c := [])
        (Manual.Derives.assign (v := [.lParen, .ident, .rParen, .lBracket, .number, .rBracket])
          (.var1 (Manual.Derives.varIndex (p := [.lParen, .ident, .rParen]) (c := [.number])
            (Manual.Derives.paren (w := [.ident]) (.prefixexp (.prefixVar .varName))) (.constant (by decide))))
          (.exp1 (.constant (by decide))))
        .empty (by decide)) (by decide)
  · exact ⟨["local".toList, [' '], ['a'], ['='], ['{'], ['}'], ['('], ['f'], [')'], ['['], ['1'], [']'], ['='],
      ['2']], by decide, by decide, by simp⟩
  · rintro ⟨tree, h⟩
    have : (sourceFileParse tableText).toOption.map (fun p : Green × List SyntaxError => p.2.isEmpty) = some false := by
      rw [sourceFileParse_eq_eval]; decide +kernel
    rw [h] at this
    simp [Except.toOption] at this

/-- `a='\065'` -/
private def escapeText : Text := ['a', '=', '\'', '\\', '0', '6', '5', '\'']

/-- **C115** fails for decimal escapes. -/
theorem C115_escape_fails : ∃ tokens, tokenize escapeText = .ok (tokens, []) ∧
    Manual.Derives false .chunk ((tokens.map (·.kind)).filter fun k => !k.isTrivia) ∧
    ¬ ∃ tree, sourceFileParse escapeText = .ok (tree, []) := by
  refine ⟨[⟨.ident, 1⟩, ⟨.eq, 1⟩, ⟨.str, 6⟩], by decide +kernel, ?_, ?_⟩
  · exact Manual.Derives.stat (w := [.ident, .eq, .str]) (c := [])
      (Manual.Derives.assign (v := [.ident]) (.var1 .varName) (.exp1 (.constant (by decide)))) .empty (by decide)
  · rintro ⟨tree, h⟩
    have : (sourceFileParse escapeText).toOption.map (fun p : Green × List SyntaxError => p.2.isEmpty) = some false := by
      rw [sourceFileParse_eq_eval]; decide +kernel
    rw [h] at this
    simp [Except.toOption] at this

end Verif
