import Verif.Spec.Pasting
import Verif.Proof.Nesting

/-
Replacing one self-closing node of a derivation by another one of the same kind.
-/
set_option linter.unusedSimpArgs false

namespace Verif
namespace Pst
open Spec PTree Lua

/-- one node of kind `K` of the trees is replaced by the node with the children `us` -/
inductive RepL (K : SyntaxKind) (us : List PTree) : List PTree → List PTree → Prop
  | here {vs ts} : RepL K us (.node K vs :: ts) (.node K us :: ts)
  | down {k cs cs' ts} : RepL K us cs cs' → RepL K us (.node k cs :: ts) (.node k cs' :: ts)
  | tail {t ts ts'} : RepL K us ts ts' → RepL K us (t :: ts) (t :: ts')

variable {K : SyntaxKind} {us : List PTree}

theorem repL_nil {l} : RepL K us [] l ↔ False := ⟨nofun, nofun⟩

theorem repL_tok {k l} : RepL K us [.tok k] l ↔ False := by
  constructor
  · intro h; cases h with | tail h => cases h
  · simp

theorem repL_any {k cs l} : RepL K us [.node k cs] l ↔
    (k = K ∧ l = [.node K us]) ∨ ∃ cs', RepL K us cs cs' ∧ l = [.node k cs'] := by
  constructor
  · intro h; cases h with
    | here => exact .inl ⟨rfl, rfl⟩
    | down h => exact .inr ⟨_, h, rfl⟩
    | tail h => cases h
  · rintro (⟨rfl, rfl⟩ | ⟨cs', h, rfl⟩)
    · exact .here
    · exact .down h

theorem repL_open (hK : K ∈ selfClosing) {k cs l} (hk : k ∉ selfClosing) :
    RepL K us [.node k cs] l ↔ ∃ cs', RepL K us cs cs' ∧ l = [.node k cs'] := by
  rw [repL_any]
  constructor
  · rintro (⟨rfl, -⟩ | h)
    · exact absurd hK hk
    · exact h
  · exact .inr

theorem repL_single {t l} (h : RepL K us [t] l) : ∃ t', l = [t'] := by
  cases h with
  | here => exact ⟨_, rfl⟩
  | down h => exact ⟨_, rfl⟩
  | tail h => cases h

theorem repL_cons {t ts l} : RepL K us (t :: ts) l ↔
    (∃ t', RepL K us [t] [t'] ∧ l = t' :: ts) ∨ ∃ ts', RepL K us ts ts' ∧ l = t :: ts' := by
  constructor
  · intro h; cases h with
    | here => exact .inl ⟨_, .here, rfl⟩
    | down h => exact .inl ⟨_, .down h, rfl⟩
    | tail h => exact .inr ⟨_, h, rfl⟩
  · rintro (⟨t', h, rfl⟩ | ⟨ts', h, rfl⟩)
    · cases h with
      | here => exact .here
      | down h => exact .down h
      | tail h => cases h
    · exact .tail h

theorem repL_cons2 {t s ts l} : RepL K us (t :: s :: ts) l ↔
    (∃ t', RepL K us [t] [t'] ∧ l = t' :: s :: ts) ∨ ∃ ts', RepL K us (s :: ts) ts' ∧ l = t :: ts' := repL_cons

theorem repL_tok_cons {k ts l} : RepL K us (.tok k :: ts) l ↔ ∃ ts', RepL K us ts ts' ∧ l = .tok k :: ts' := by
  rw [repL_cons]; simp [repL_tok]

theorem repL_name_cons (hK : K ∈ selfClosing) {ts l} : RepL K us (nameT :: ts) l ↔ ∃ ts', RepL K us ts ts' ∧ l = nameT :: ts' := by
  rw [repL_cons]; simp [nameT, nameRefT, repL_open hK, selfClosing, repL_tok]

theorem repL_nameRef_cons (hK : K ∈ selfClosing) {ts l} : RepL K us (nameRefT :: ts) l ↔ ∃ ts', RepL K us ts ts' ∧ l = nameRefT :: ts' := by
  rw [repL_cons]; simp [nameT, nameRefT, repL_open hK, selfClosing, repL_tok]

theorem repL_append {a b l} : RepL K us (a ++ b) l ↔
    (∃ a', RepL K us a a' ∧ l = a' ++ b) ∨ ∃ b', RepL K us b b' ∧ l = a ++ b' := by
  induction a generalizing l with
  | nil => simp [repL_nil]
  | cons t ts ih =>
    rw [List.cons_append, repL_cons]
    constructor
    · rintro (⟨t', h, rfl⟩ | ⟨ts', h, rfl⟩)
      · exact .inl ⟨t' :: ts, repL_cons.2 (.inl ⟨t', h, rfl⟩), rfl⟩
      · rcases ih.1 h with ⟨a', h', rfl⟩ | ⟨b', h', rfl⟩
        · exact .inl ⟨t :: a', .tail h', rfl⟩
        · exact .inr ⟨b', h', rfl⟩
    · rintro (⟨a', h, rfl⟩ | ⟨b', h, rfl⟩)
      · rcases repL_cons.1 h with ⟨t', h', rfl⟩ | ⟨ts', h', rfl⟩
        · exact .inl ⟨t', h', rfl⟩
        · exact .inr ⟨ts' ++ b, ih.2 (.inl ⟨ts', h', rfl⟩), rfl⟩
      · exact .inr ⟨ts ++ b', ih.2 (.inr ⟨b', h, rfl⟩), rfl⟩

theorem rep_kindOf {t t'} (h : RepL K us [t] [t']) : kindOf t' = kindOf t := by
  cases h with
  | here => rfl
  | down => rfl
  | tail h => cases h

theorem rep_leftOps (hK : K ∈ selfClosing) {t t'} (h : RepL K us [t] [t']) : leftOps t' = leftOps t := by
  induction t using leftOps.induct generalizing t' with
  | case1 l op rest ih =>
    rw [repL_open hK (by decide)] at h
    obtain ⟨cs', h, e⟩ := h
    simp only [List.cons.injEq, and_true] at e
    subst e
    simp only [repL_cons2, repL_tok_cons, repL_nil, false_and, exists_false, false_or] at h
    rcases h with ⟨l', h, rfl⟩ | ⟨_, ⟨ts', h, rfl⟩, rfl⟩
    · simp only [leftOps, ih h]
    · simp only [leftOps]
  | case2 t hn =>
    have e1 : leftOps t = [] := by rw [leftOps]; exact hn
    rw [e1]
    cases h with
    | @here vs ts =>
      have : K ≠ .infixExpr ∧ K ≠ .prefixExpr := by constructor <;> (rintro rfl; revert hK; decide)
      first | (rw [leftOps]; intro l op rest e; simp only [PTree.node.injEq] at e; exact this.1 e.1) | (rw [rightLevels] <;> (intros; rename_i e; simp only [PTree.node.injEq] at e; first | exact this.1 e.1 | exact this.2 e.1))
    | @down k cs cs' _ h =>
      rw [leftOps]
      intro l op rest e
      simp only [PTree.node.injEq] at e
      obtain ⟨rfl, rfl⟩ := e
      cases h with
      | here => exact hn _ _ _ rfl
      | down => exact hn _ _ _ rfl
      | tail h =>
        cases h with
        | tail => exact hn _ _ _ rfl
    | tail h => cases h

theorem rep_rightLevels (hK : K ∈ selfClosing) {t t'} (h : RepL K us [t] [t']) : rightLevels t' = rightLevels t := by
  induction t using rightLevels.induct generalizing t' with
  | case1 l op r ih =>
    rw [repL_open hK (by decide)] at h
    obtain ⟨cs', h, e⟩ := h
    simp only [List.cons.injEq, and_true] at e
    subst e
    simp only [repL_cons2, repL_tok_cons, repL_nil, false_and, exists_false, false_or] at h
    rcases h with ⟨l', h, rfl⟩ | ⟨_, ⟨ts', h, rfl⟩, rfl⟩
    · simp only [rightLevels]
    · obtain ⟨r', rfl⟩ := repL_single h
      simp only [rightLevels, ih h]
  | case2 op e ih =>
    rw [repL_open hK (by decide)] at h
    obtain ⟨cs', h, e⟩ := h
    simp only [List.cons.injEq, and_true] at e
    subst e
    simp only [repL_tok_cons] at h
    obtain ⟨ts', h, rfl⟩ := h
    obtain ⟨r', rfl⟩ := repL_single h
    simp only [rightLevels, ih h]
  | case3 t hn1 hn2 =>
    have e1 : rightLevels t = [] := by rw [rightLevels] <;> assumption
    rw [e1]
    cases h with
    | @here vs ts =>
      have : K ≠ .infixExpr ∧ K ≠ .prefixExpr := by constructor <;> (rintro rfl; revert hK; decide)
      first | (rw [leftOps]; intro l op rest e; simp only [PTree.node.injEq] at e; exact this.1 e.1) | (rw [rightLevels] <;> (intros; rename_i e; simp only [PTree.node.injEq] at e; first | exact this.1 e.1 | exact this.2 e.1))
    | @down k cs cs' _ h =>
      rw [rightLevels]
      · intro l op r e
        simp only [PTree.node.injEq] at e
        obtain ⟨rfl, rfl⟩ := e
        cases h with
        | here => exact hn1 _ _ _ rfl
        | down => exact hn1 _ _ _ rfl
        | tail h =>
          cases h with
          | tail h =>
            cases h with
            | here => exact hn1 _ _ _ rfl
            | down => exact hn1 _ _ _ rfl
            | tail h => cases h
      · intro op e he
        simp only [PTree.node.injEq] at he
        obtain ⟨rfl, rfl⟩ := he
        cases h with
        | tail h =>
          cases h with
          | here => exact hn2 _ _ rfl
          | down => exact hn2 _ _ rfl
          | tail h => cases h
    | tail h => cases h

theorem repL_endsCallable (hK : K ∈ selfClosing) {ts ts'} (h : RepL K us ts ts') : endsCallableL ts' = endsCallableL ts := by
  induction h with
  | @here vs ts =>
    cases ts with
    | nil =>
      have : K ∉ endsInExpr := by
        intro h; revert hK
        have : ∀ k ∈ endsInExpr, k ∉ selfClosing := by decide
        exact this K h
      simp [endsCallableL, endsCallable, this]
    | cons t ts => simp [endsCallableL]
  | @down k cs cs' ts h ih =>
    cases ts with
    | nil => simp only [endsCallableL, endsCallable, ih]
    | cons t ts => simp [endsCallableL]
  | @tail t ts ts' h ih =>
    cases ts with
    | nil => cases h
    | cons t2 ts2 =>
      cases ts' with
      | nil => cases h
      | cons t3 ts3 => simpa [endsCallableL] using ih

theorem rep_endsCallable (hK : K ∈ selfClosing) {t t'} (h : RepL K us [t] [t']) : endsCallable t' = endsCallable t := by
  simpa [endsCallableL] using repL_endsCallable hK h

theorem rep_mayFollow (hK : K ∈ selfClosing) {s s' k} (h : RepL K us [s] [s']) (hm : mayFollow s k) : mayFollow s' k := by
  refine ⟨by rw [rep_endsCallable hK h]; exact hm.1, ?_⟩
  rintro rfl
  generalize hz : PTree.node .returnStmt [.tok .returnKw] = z at h
  cases h with
  | here =>
    simp only [PTree.node.injEq] at hz
    exfalso; rw [← hz.1] at hK; revert hK; decide
  | down h =>
    simp only [PTree.node.injEq] at hz
    obtain ⟨rfl, rfl⟩ := hz
    cases h with
    | tail h => cases h
  | tail h => cases h

/-- The node may stand where nodes of its kind stand. -/
def Good (x : Dialect) (K : SyntaxKind) (us : List PTree) : Prop :=
  (K ∈ [SyntaxKind.parenExpr, .tableExpr, .functionExpr] → Deriv x .expr [.node K us]) ∧
  (K = .index → Deriv x .index [.node K us]) ∧
  (K = .paramList → Deriv x .params [.node K us]) ∧
  (K = .argList → Deriv x .callArgs [.node .callArgs [.node K us]]) ∧
  (K ∈ [SyntaxKind.doStmt, .whileStmt, .ifStmt, .forStmt, .functionDefStmt, .localFunctionDefStmt] → Deriv x .stmt [.node K us])

/-- The first tokens. -/
def opener : SyntaxKind → SyntaxKind
  | .parenExpr | .argList | .paramList => .lParen
  | .tableExpr => .lBrace
  | .index => .lBracket
  | .functionExpr | .functionDefStmt => .functionKw
  | .doStmt => .doKw
  | .whileStmt => .whileKw
  | .ifStmt => .ifKw
  | .forStmt => .forKw
  | .localFunctionDefStmt => .localKw
  | _ => .eof

/-- The last tokens. -/
def closer : SyntaxKind → SyntaxKind
  | .parenExpr | .argList | .paramList => .rParen
  | .tableExpr => .rBrace
  | .index => .rBracket
  | _ => .endKw

theorem good_shape {x K us} (hK : K ∈ selfClosing) (h : Good x K us) :
    ∃ mid, us = .tok (opener K) :: (mid ++ [.tok (closer K)]) := by
  simp only [selfClosing, List.mem_cons, List.not_mem_nil, or_false] at hK
  rcases hK with rfl | rfl | rfl | rfl | rfl | rfl | rfl | rfl | rfl | rfl | rfl | rfl
  · cases h.1 (by simp) with | paren e => exact ⟨[e], rfl⟩
  · cases h.1 (by simp) with | table ts => exact ⟨ts, rfl⟩
  · cases h.1 (by simp) with | function p b => exact ⟨[p, b], rfl⟩
  · cases h.2.1 rfl with | index e => exact ⟨[e], rfl⟩
  · cases h.2.2.2.1 rfl with
    | argsEmpty => exact ⟨[], rfl⟩
    | args m => exact ⟨[m], rfl⟩
  · cases h.2.2.1 rfl with
    | paramsEmpty => exact ⟨[], rfl⟩
    | paramsNames ts => exact ⟨[.node .multiName (nameT :: ts)], rfl⟩
    | paramsVararg => exact ⟨[.node .multiName [], .tok .tripleDot], rfl⟩
    | paramsNamesVararg ts => exact ⟨[.node .multiName (nameT :: (ts ++ [.tok .comma])), .tok .tripleDot], rfl⟩
    | paramsNoComma ts => exact ⟨[.node .multiName (nameT :: ts), .tok .tripleDot], rfl⟩
  · cases h.2.2.2.2 (by simp) with | doStmt b => exact ⟨[b], rfl⟩
  · cases h.2.2.2.2 (by simp) with | «while» e b => exact ⟨[e, .tok .doKw, b], rfl⟩
  · cases h.2.2.2.2 (by simp) with | ifStmt e b es => exact ⟨e :: .tok .thenKw :: b :: es, rfl⟩
  · cases h.2.2.2.2 (by simp) with | forStmt c b => exact ⟨[c, .tok .doKw, b], rfl⟩
  · cases h.2.2.2.2 (by simp) with | function_ n p b => exact ⟨[n, p, b], rfl⟩
  · cases h.2.2.2.2 (by simp) with | localFunction p b => exact ⟨[.tok .functionKw, nameT, p, b], rfl⟩

theorem good_yield {x K us} (hK : K ∈ selfClosing) (h : Good x K us) : (yieldL us).head? = some (opener K) := by
  obtain ⟨mid, rfl⟩ := good_shape hK h
  simp [yieldL, PTree.yield]

/-- replacing a self-closing node by another -/
theorem deriv_rep {x nt ts} (hK : K ∈ selfClosing) (hus : Good x K us) (h : Deriv x nt ts) :
    ∀ {ts'}, RepL K us ts ts' → Deriv x nt ts' ∧ (nt ≠ .block → (yieldL ts').head? = (yieldL ts).head?) := by
  have single : ∀ {nt t t'}, (∀ {ts'}, RepL K us [t] ts' → Deriv x nt ts' ∧ (nt ≠ .block → (yieldL ts').head? = (yieldL [t]).head?)) →
      nt ≠ .block → RepL K us [t] [t'] → Deriv x nt [t'] ∧ (yield t').head? = (yield t).head? := by
    intro nt t t' h hn hr
    have := h hr
    simpa [yieldL, hn] using this
  have repL_node : ∀ {k cs l}, k ∉ selfClosing → (RepL K us [.node k cs] l ↔ ∃ cs', RepL K us cs cs' ∧ l = [.node k cs']) :=
    fun hk => repL_open hK hk
  have repL_name_cons := @repL_name_cons K us hK
  have repL_nameRef_cons := @repL_nameRef_cons K us hK
  have rep_leftOps := fun {t t'} => @rep_leftOps K us hK t t'
  have rep_rightLevels := fun {t t'} => @rep_rightLevels K us hK t t'
  have rep_mayFollow := fun {s s' k} => @rep_mayFollow K us hK s s' k
  have hy := good_yield hK hus
  induction h with
  | nameRef => intro ts' hr; simp [selfClosing, repL_node, repL_tok_cons, repL_nil] at hr
  | literal => intro ts' hr; simp [selfClosing, repL_node, repL_tok_cons, repL_nil] at hr
  | function p b hp hb ihp ihb =>
    intro ts' hr
    rcases repL_any.1 hr with ⟨e, rfl⟩ | ⟨_, hq, rfl⟩
    · subst e
      exact ⟨hus.1 (by simp), fun _ => by simpa [yieldL, PTree.yield, opener] using hy⟩
    replace hr := hq
    simp [selfClosing, repL_node, repL_tok_cons, repL_cons2, repL_nil] at hr
    obtain ⟨_, ⟨p', h, rfl⟩ | ⟨_, ⟨b', h, rfl⟩, rfl⟩, rfl⟩ := hr
    · exact ⟨.function _ _ (ihp h).1 hb, fun _ => by simp [yieldL, PTree.yield]⟩
    · exact ⟨.function _ _ hp (ihb h).1, fun _ => by simp [yieldL, PTree.yield]⟩
  | table ts h ih =>
    intro ts' hr
    rcases repL_any.1 hr with ⟨e, rfl⟩ | ⟨_, hq, rfl⟩
    · subst e
      exact ⟨hus.1 (by simp), fun _ => by simpa [yieldL, PTree.yield, opener] using hy⟩
    replace hr := hq
    simp [selfClosing, repL_node, repL_tok_cons, repL_append, repL_nil] at hr
    obtain ⟨_, ⟨_, h, rfl⟩, rfl⟩ := hr
    exact ⟨.table _ (ih h).1, fun _ => by simp [yieldL, PTree.yield]⟩
  | paren e h ih =>
    intro ts' hr
    rcases repL_any.1 hr with ⟨e, rfl⟩ | ⟨_, hq, rfl⟩
    · subst e
      exact ⟨hus.1 (by simp), fun _ => by simpa [yieldL, PTree.yield, opener] using hy⟩
    replace hr := hq
    simp [selfClosing, repL_node, repL_tok_cons, repL_cons2, repL_nil] at hr
    obtain ⟨_, ⟨p', h, rfl⟩, rfl⟩ := hr
    exact ⟨.paren _ (ih h).1, fun _ => by simp [yieldL, PTree.yield]⟩
  | call f a hf hc ha ihf iha =>
    intro ts' hr
    simp [selfClosing, repL_node, repL_tok_cons, repL_cons2, repL_nil] at hr
    obtain ⟨k, hk⟩ := deriv_head hf (by simp) (by simp)
    obtain ⟨_, ⟨f', h, rfl⟩ | ⟨_, h, rfl⟩, rfl⟩ := hr
    · obtain ⟨h1, h2⟩ := single ihf (by simp) h
      refine ⟨.call _ _ h1 (by simpa [callable, indexable, rep_kindOf h] using hc) ha, fun _ => ?_⟩
      simp [yieldL, PTree.yield, h2]
    · obtain ⟨a', rfl⟩ := repL_single h
      refine ⟨.call _ _ hf hc (iha h).1, fun _ => ?_⟩
      simp [yieldL, PTree.yield] at hk ⊢; simp [hk]
  | method f a hf hc ha ihf iha =>
    intro ts' hr
    simp [selfClosing, repL_node, repL_tok_cons, repL_cons2, repL_nil] at hr
    obtain ⟨k, hk⟩ := deriv_head hf (by simp) (by simp)
    obtain ⟨_, ⟨f', h, rfl⟩ | ⟨_, ⟨_, ⟨_, h, rfl⟩, rfl⟩, rfl⟩, rfl⟩ := hr
    · obtain ⟨h1, h2⟩ := single ihf (by simp) h
      refine ⟨.method _ _ h1 (by simpa [callable, indexable, rep_kindOf h] using hc) ha, fun _ => ?_⟩
      simp [yieldL, PTree.yield, h2]
    · obtain ⟨a', rfl⟩ := repL_single h
      refine ⟨.method _ _ hf hc (iha h).1, fun _ => ?_⟩
      simp [yieldL, PTree.yield]
  | indexE f a hf hc ha ihf iha =>
    intro ts' hr
    simp [selfClosing, repL_node, repL_tok_cons, repL_cons2, repL_nil] at hr
    obtain ⟨k, hk⟩ := deriv_head hf (by simp) (by simp)
    obtain ⟨_, ⟨f', h, rfl⟩ | ⟨_, h, rfl⟩, rfl⟩ := hr
    · obtain ⟨h1, h2⟩ := single ihf (by simp) h
      refine ⟨.indexE _ _ h1 (by simpa [indexable, rep_kindOf h] using hc) ha, fun _ => ?_⟩
      simp [yieldL, PTree.yield, h2]
    · obtain ⟨a', rfl⟩ := repL_single h
      refine ⟨.indexE _ _ hf hc (iha h).1, fun _ => ?_⟩
      simp [yieldL, PTree.yield] at hk ⊢; simp [hk]
  | dot f hf hc ihf =>
    intro ts' hr
    simp [selfClosing, repL_node, repL_tok_cons, repL_cons2, repL_nil] at hr
    obtain ⟨_, ⟨f', h, rfl⟩, rfl⟩ := hr
    obtain ⟨h1, h2⟩ := single ihf (by simp) h
    refine ⟨.dot _ h1 (by simpa [indexable, rep_kindOf h] using hc), fun _ => ?_⟩
    simp [yieldL, PTree.yield, h2]
  | «prefix» op e hop he hl ih =>
    intro ts' hr
    simp [selfClosing, repL_node, repL_tok_cons, repL_cons2, repL_nil] at hr
    obtain ⟨_, ⟨_, h, rfl⟩, rfl⟩ := hr
    obtain ⟨e', rfl⟩ := repL_single h
    exact ⟨.prefix _ _ hop (ih h).1 (by rw [rep_leftOps h]; exact hl), fun _ => by simp [yieldL, PTree.yield]⟩
  | «infix» op l r hop hl hr' h1 h2 ihl ihr =>
    intro ts' hr
    simp [selfClosing, repL_node, repL_tok_cons, repL_cons2, repL_nil] at hr
    obtain ⟨k, hk⟩ := deriv_head hl (by simp) (by simp)
    obtain ⟨_, ⟨f', h, rfl⟩ | ⟨_, ⟨_, h, rfl⟩, rfl⟩, rfl⟩ := hr
    · obtain ⟨g1, g2⟩ := single ihl (by simp) h
      refine ⟨.infix _ _ _ hop g1 hr' (by rw [rep_rightLevels h]; exact h1) h2, fun _ => ?_⟩
      simp [yieldL, PTree.yield, g2]
    · obtain ⟨e', rfl⟩ := repL_single h
      exact ⟨.infix _ _ _ hop hl (ihr h).1 h1 (by rw [rep_leftOps h]; exact h2), fun _ => by simp [yieldL, PTree.yield]⟩
  | tailNil => intro ts' hr; simp [repL_nil] at hr
  | tailCons e ts he hts ihe ihts =>
    intro ts' hr
    rw [repL_tok_cons] at hr
    obtain ⟨_, hr, rfl⟩ := hr
    rw [repL_cons] at hr
    obtain ⟨e', h, rfl⟩ | ⟨_, h, rfl⟩ := hr
    · exact ⟨.tailCons _ _ (ihe h).1 hts, fun _ => by simp [yieldL, PTree.yield]⟩
    · exact ⟨.tailCons _ _ he (ihts h).1, fun _ => by simp [yieldL, PTree.yield]⟩
  | multival e ts he hts ihe ihts =>
    intro ts' hr
    rw [repL_node (by decide)] at hr
    obtain ⟨k, hk⟩ := deriv_head he (by simp) (by simp)
    obtain ⟨_, hr, rfl⟩ := hr
    rw [repL_cons] at hr
    rcases hr with ⟨e', h, rfl⟩ | ⟨_, h, rfl⟩
    · obtain ⟨g1, g2⟩ := single ihe (by simp) h
      refine ⟨.multival _ _ g1 hts, fun _ => ?_⟩
      simp [yieldL, PTree.yield, g2]
    · refine ⟨.multival _ _ he (ihts h).1, fun _ => ?_⟩
      simp [yieldL, PTree.yield] at hk ⊢; simp [hk]
  | itemsNil => intro ts' hr; simp [repL_nil] at hr
  | itemsLast c hc ih =>
    intro ts' hr
    exact ⟨by obtain ⟨t', rfl⟩ := repL_single hr; exact .itemsLast _ (ih hr).1, fun _ => (ih hr).2 (by simp)⟩
  | itemsCons c sep ts hc hsep hts ihc ihts =>
    intro ts' hr
    obtain ⟨k, hk⟩ := deriv_head hc (by simp) (by simp)
    rw [repL_cons] at hr
    rcases hr with ⟨e', h, rfl⟩ | ⟨_, h, rfl⟩
    · obtain ⟨g1, g2⟩ := single ihc (by simp) h
      refine ⟨.itemsCons _ _ _ g1 hsep hts, fun _ => ?_⟩
      simp [yieldL, PTree.yield, g2]
    · rw [repL_cons] at h
      simp only [repL_node (show SyntaxKind.tableSep ∉ selfClosing by decide), repL_tok_cons, repL_nil, false_and, exists_false,
        false_or] at h
      obtain ⟨_, h, rfl⟩ := h
      refine ⟨.itemsCons _ _ _ hc hsep (ihts h).1, fun _ => ?_⟩
      simp [yieldL, PTree.yield] at hk ⊢
  | namedField e he ih =>
    intro ts' hr
    simp [selfClosing, repL_node, repL_tok_cons, repL_cons2, repL_nil] at hr
    obtain ⟨_, ⟨_, ⟨_, ⟨_, h, rfl⟩, rfl⟩, rfl⟩, rfl⟩ := hr
    obtain ⟨e', rfl⟩ := repL_single h
    exact ⟨.namedField _ (ih h).1, fun _ => by simp [yieldL, PTree.yield]⟩
  | indexedField i e hi he ihi ihe =>
    intro ts' hr
    obtain ⟨k, hk⟩ := deriv_head hi (by simp) (by simp)
    simp [selfClosing, repL_node, repL_tok_cons, repL_cons2, repL_nil] at hr
    obtain ⟨_, ⟨_, ⟨_, ⟨_, h, rfl⟩, rfl⟩ | ⟨_, ⟨_, h, rfl⟩, rfl⟩, rfl⟩, rfl⟩ := hr
    · obtain ⟨e', rfl⟩ := repL_single h
      obtain ⟨g1, g2⟩ := single ihi (by simp) h
      exact ⟨.indexedField _ _ g1 he, fun _ => by simp [yieldL, PTree.yield, g2]⟩
    · obtain ⟨e', rfl⟩ := repL_single h
      exact ⟨.indexedField _ _ hi (ihe h).1, fun _ => by simp [yieldL, PTree.yield]⟩
  | positional e he ih =>
    intro ts' hr
    simp [selfClosing, repL_node, repL_tok_cons, repL_cons2, repL_nil] at hr
    obtain ⟨_, ⟨_, h, rfl⟩, rfl⟩ := hr
    obtain ⟨e', rfl⟩ := repL_single h
    obtain ⟨g1, g2⟩ := single ih (by simp) h
    exact ⟨.positional _ g1, fun _ => by simp [yieldL, PTree.yield, g2]⟩
  | index e he ih =>
    intro ts' hr
    rcases repL_any.1 hr with ⟨e, rfl⟩ | ⟨_, hq, rfl⟩
    · subst e
      exact ⟨hus.2.1 rfl, fun _ => by simpa [yieldL, PTree.yield, opener] using hy⟩
    replace hr := hq
    simp [selfClosing, repL_node, repL_tok_cons, repL_cons2, repL_nil] at hr
    obtain ⟨_, ⟨_, h, rfl⟩, rfl⟩ := hr
    exact ⟨.index _ (ih h).1, fun _ => by simp [yieldL, PTree.yield]⟩
  | argsEmpty =>
    intro ts' hr
    rw [repL_node (by decide)] at hr
    obtain ⟨_, hr, rfl⟩ := hr
    rcases repL_any.1 hr with ⟨e, rfl⟩ | ⟨_, hq, rfl⟩
    · subst e
      exact ⟨hus.2.2.2.1 rfl, fun _ => by simpa [yieldL, PTree.yield, opener] using hy⟩
    replace hr := hq
    simp [selfClosing, repL_node, repL_tok_cons, repL_cons2, repL_nil] at hr
  | args m hm ih =>
    intro ts' hr
    rw [repL_node (by decide)] at hr
    obtain ⟨_, hr, rfl⟩ := hr
    rcases repL_any.1 hr with ⟨e, rfl⟩ | ⟨_, hq, rfl⟩
    · subst e
      exact ⟨hus.2.2.2.1 rfl, fun _ => by simpa [yieldL, PTree.yield, opener] using hy⟩
    replace hr := hq
    simp [selfClosing, repL_node, repL_tok_cons, repL_cons2, repL_nil] at hr
    obtain ⟨_, ⟨_, h, rfl⟩, rfl⟩ := hr
    exact ⟨.args _ (ih h).1, fun _ => by simp [yieldL, PTree.yield]⟩
  | argsTable ts h ih =>
    intro ts' hr
    rw [repL_node (by decide)] at hr
    obtain ⟨_, hr, rfl⟩ := hr
    rcases repL_any.1 hr with ⟨e, rfl⟩ | ⟨_, hq, rfl⟩
    · subst e
      cases hus.1 (by simp) with
      | table _ h => exact ⟨.argsTable _ h, fun _ => by simp [yieldL, PTree.yield]⟩
    replace hr := hq
    simp [selfClosing, repL_node, repL_tok_cons, repL_append, repL_nil] at hr
    obtain ⟨_, ⟨_, h, rfl⟩, rfl⟩ := hr
    exact ⟨.argsTable _ (ih h).1, fun _ => by simp [yieldL, PTree.yield]⟩
  | argsStr => intro ts' hr; simp [selfClosing, repL_node, repL_tok_cons, repL_nil] at hr
  | nameTailNil => intro ts' hr; simp [repL_nil] at hr
  | nameTailCons ts h ih =>
    intro ts' hr
    rw [repL_tok_cons] at hr
    simp only [repL_name_cons] at hr
    try simp [selfClosing, repL_node, repL_tok_cons, repL_nil] at hr
    obtain ⟨_, ⟨_, h, rfl⟩, rfl⟩ := hr
    exact ⟨.nameTailCons _ (ih h).1, fun _ => by simp [yieldL, PTree.yield]⟩
  | paramsEmpty =>
    intro ts' hr
    rcases repL_any.1 hr with ⟨e, rfl⟩ | ⟨_, hq, rfl⟩
    · subst e
      exact ⟨hus.2.2.1 rfl, fun _ => by simpa [yieldL, PTree.yield, opener] using hy⟩
    replace hr := hq
    simp [selfClosing, repL_node, repL_tok_cons, repL_cons2, repL_nil] at hr
  | paramsNames ts h ih =>
    intro ts' hr
    rcases repL_any.1 hr with ⟨e, rfl⟩ | ⟨_, hq, rfl⟩
    · subst e
      exact ⟨hus.2.2.1 rfl, fun _ => by simpa [yieldL, PTree.yield, opener] using hy⟩
    replace hr := hq
    simp [selfClosing, repL_node, repL_tok_cons, repL_cons2, repL_nil] at hr
    simp only [repL_name_cons] at hr
    try simp [selfClosing, repL_node, repL_tok_cons, repL_nil] at hr
    obtain ⟨_, ⟨_, ⟨_, ⟨_, h, rfl⟩, rfl⟩, rfl⟩, rfl⟩ := hr
    exact ⟨.paramsNames _ (ih h).1, fun _ => by simp [yieldL, PTree.yield]⟩
  | paramsVararg =>
    intro ts' hr
    rcases repL_any.1 hr with ⟨e, rfl⟩ | ⟨_, hq, rfl⟩
    · subst e
      exact ⟨hus.2.2.1 rfl, fun _ => by simpa [yieldL, PTree.yield, opener] using hy⟩
    replace hr := hq
    simp [selfClosing, repL_node, repL_tok_cons, repL_cons2, repL_nil] at hr
  | paramsNamesVararg ts h ih =>
    intro ts' hr
    rcases repL_any.1 hr with ⟨e, rfl⟩ | ⟨_, hq, rfl⟩
    · subst e
      exact ⟨hus.2.2.1 rfl, fun _ => by simpa [yieldL, PTree.yield, opener] using hy⟩
    replace hr := hq
    simp [selfClosing, repL_node, repL_tok_cons, repL_cons2, repL_nil] at hr
    simp only [repL_name_cons] at hr
    try simp [selfClosing, repL_node, repL_tok_cons, repL_nil, repL_append] at hr
    obtain ⟨_, ⟨_, ⟨_, ⟨_, ⟨_, h, rfl⟩, rfl⟩, rfl⟩, rfl⟩, rfl⟩ := hr
    exact ⟨.paramsNamesVararg _ (ih h).1, fun _ => by simp [yieldL, PTree.yield]⟩
  | paramsNoComma ts hx h ih =>
    intro ts' hr
    rcases repL_any.1 hr with ⟨e, rfl⟩ | ⟨_, hq, rfl⟩
    · subst e
      exact ⟨hus.2.2.1 rfl, fun _ => by simpa [yieldL, PTree.yield, opener] using hy⟩
    replace hr := hq
    simp [selfClosing, repL_node, repL_tok_cons, repL_cons2, repL_nil] at hr
    simp only [repL_name_cons] at hr
    try simp [selfClosing, repL_node, repL_tok_cons, repL_nil] at hr
    obtain ⟨_, ⟨_, ⟨_, ⟨_, h, rfl⟩, rfl⟩, rfl⟩, rfl⟩ := hr
    exact ⟨.paramsNoComma _ hx (ih h).1, fun _ => by simp [yieldL, PTree.yield]⟩
  | block ts h ih =>
    intro ts' hr
    refine ⟨?_, by simp⟩
    rw [repL_node (by decide)] at hr
    obtain ⟨_, hr, rfl⟩ := hr
    exact .block _ (ih hr).1
  | stmtsNil => intro ts' hr; simp [repL_nil] at hr
  | stmtsCons s ts hs hts hf ihs ihts =>
    intro ts' hr
    obtain ⟨k, hk⟩ := deriv_head hs (by simp) (by simp)
    rw [repL_cons] at hr
    rcases hr with ⟨e', h, rfl⟩ | ⟨_, h, rfl⟩
    · obtain ⟨g1, g2⟩ := single ihs (by simp) h
      refine ⟨.stmtsCons _ _ g1 hts (fun k hk => rep_mayFollow h (hf k hk)), fun _ => ?_⟩
      simp [yieldL, g2]
    · obtain ⟨g1, g2⟩ := ihts h
      refine ⟨.stmtsCons _ _ hs g1 (fun k hk => hf k (by rw [← g2 (by simp)]; exact hk)), fun _ => ?_⟩
      simp [yieldL] at hk ⊢; simp [hk]
  | stmtsSemi s ts hs hts ihs ihts =>
    intro ts' hr
    obtain ⟨k, hk⟩ := deriv_head hs (by simp) (by simp)
    rw [repL_cons] at hr
    rcases hr with ⟨e', h, rfl⟩ | ⟨_, h, rfl⟩
    · obtain ⟨g1, g2⟩ := single ihs (by simp) h
      refine ⟨.stmtsSemi _ _ g1 hts, fun _ => ?_⟩
      simp [yieldL, g2]
    · rw [repL_tok_cons] at h
      obtain ⟨_, h, rfl⟩ := h
      refine ⟨.stmtsSemi _ _ hs (ihts h).1, fun _ => ?_⟩
      simp [yieldL, PTree.yield] at hk ⊢
  | ifStmt e b es he hb hes ihe ihb ihes =>
    intro ts' hr
    rcases repL_any.1 hr with ⟨e, rfl⟩ | ⟨_, hq, rfl⟩
    · subst e
      exact ⟨hus.2.2.2.2 (by simp), fun _ => by simpa [yieldL, PTree.yield, opener] using hy⟩
    replace hr := hq
    have repL_cons_b := fun l => @repL_cons K us b (es ++ [.tok .endKw]) l
    simp [selfClosing, repL_node, repL_tok_cons, repL_cons2, repL_cons_b, repL_nil, repL_append] at hr
    obtain ⟨_, ⟨_, h, rfl⟩ | ⟨_, ⟨_, ⟨_, h, rfl⟩ | ⟨_, ⟨_, h, rfl⟩, rfl⟩, rfl⟩, rfl⟩, rfl⟩ := hr
    · exact ⟨.ifStmt _ _ _ (ihe h).1 hb hes, fun _ => by simp [yieldL, PTree.yield]⟩
    · exact ⟨.ifStmt _ _ _ he (ihb h).1 hes, fun _ => by simp [yieldL, PTree.yield]⟩
    · exact ⟨.ifStmt _ _ _ he hb (ihes h).1, fun _ => by simp [yieldL, PTree.yield]⟩
  | elseNone => intro ts' hr; simp [repL_nil] at hr
  | elseBranch b hb ih =>
    intro ts' hr
    simp [selfClosing, repL_node, repL_tok_cons, repL_cons2, repL_nil] at hr
    obtain ⟨_, ⟨_, h, rfl⟩, rfl⟩ := hr
    obtain ⟨e', rfl⟩ := repL_single h
    exact ⟨.elseBranch _ (ih h).1, fun _ => by simp [yieldL, PTree.yield]⟩
  | elseIf e b es he hb hes ihe ihb ihes =>
    intro ts' hr
    have repL_cons_b := fun l => @repL_cons K us b es l
    simp [selfClosing, repL_node, repL_tok_cons, repL_cons2, repL_cons_b, repL_nil, repL_append] at hr
    obtain ⟨_, ⟨_, ⟨_, h, rfl⟩ | ⟨_, ⟨_, ⟨_, h, rfl⟩ | ⟨_, h, rfl⟩, rfl⟩, rfl⟩, rfl⟩, rfl⟩ := hr
    · exact ⟨.elseIf _ _ _ (ihe h).1 hb hes, fun _ => by simp [yieldL, PTree.yield]⟩
    · exact ⟨.elseIf _ _ _ he (ihb h).1 hes, fun _ => by simp [yieldL, PTree.yield]⟩
    · exact ⟨.elseIf _ _ _ he hb (ihes h).1, fun _ => by simp [yieldL, PTree.yield]⟩
  | label => intro ts' hr; simp [selfClosing, repL_node, repL_tok_cons, repL_cons2, repL_nil] at hr
  | goto => intro ts' hr; simp [selfClosing, repL_node, repL_tok_cons, repL_cons2, repL_nil] at hr
  | «break» => intro ts' hr; simp [selfClosing, repL_node, repL_tok_cons, repL_cons2, repL_nil] at hr
  | doStmt b hb ih =>
    intro ts' hr
    rcases repL_any.1 hr with ⟨e, rfl⟩ | ⟨_, hq, rfl⟩
    · subst e
      exact ⟨hus.2.2.2.2 (by simp), fun _ => by simpa [yieldL, PTree.yield, opener] using hy⟩
    replace hr := hq
    simp [selfClosing, repL_node, repL_tok_cons, repL_cons2, repL_nil] at hr
    obtain ⟨_, ⟨_, h, rfl⟩, rfl⟩ := hr
    exact ⟨.doStmt _ (ih h).1, fun _ => by simp [yieldL, PTree.yield]⟩
  | «while» e b he hb ihe ihb =>
    intro ts' hr
    rcases repL_any.1 hr with ⟨e, rfl⟩ | ⟨_, hq, rfl⟩
    · subst e
      exact ⟨hus.2.2.2.2 (by simp), fun _ => by simpa [yieldL, PTree.yield, opener] using hy⟩
    replace hr := hq
    simp [selfClosing, repL_node, repL_tok_cons, repL_cons2, repL_nil] at hr
    obtain ⟨_, ⟨_, h, rfl⟩ | ⟨_, ⟨_, ⟨_, h, rfl⟩, rfl⟩, rfl⟩, rfl⟩ := hr
    · exact ⟨.while _ _ (ihe h).1 hb, fun _ => by simp [yieldL, PTree.yield]⟩
    · exact ⟨.while _ _ he (ihb h).1, fun _ => by simp [yieldL, PTree.yield]⟩
  | «repeat» b e hb he ihb ihe =>
    intro ts' hr
    simp [selfClosing, repL_node, repL_tok_cons, repL_cons2, repL_nil] at hr
    obtain ⟨_, ⟨_, ⟨_, h, rfl⟩ | ⟨_, ⟨_, h, rfl⟩, rfl⟩, rfl⟩, rfl⟩ := hr
    · exact ⟨.repeat _ _ (ihb h).1 he, fun _ => by simp [yieldL, PTree.yield]⟩
    · obtain ⟨e', rfl⟩ := repL_single h
      exact ⟨.repeat _ _ hb (ihe h).1, fun _ => by simp [yieldL, PTree.yield]⟩
  | localFunction p b hp hb ihp ihb =>
    intro ts' hr
    rcases repL_any.1 hr with ⟨e, rfl⟩ | ⟨_, hq, rfl⟩
    · subst e
      exact ⟨hus.2.2.2.2 (by simp), fun _ => by simpa [yieldL, PTree.yield, opener] using hy⟩
    replace hr := hq
    simp [selfClosing, repL_node, repL_tok_cons, repL_cons2, repL_nil] at hr
    obtain ⟨_, ⟨_, ⟨_, ⟨_, h, rfl⟩ | ⟨_, ⟨_, h, rfl⟩, rfl⟩, rfl⟩, rfl⟩, rfl⟩ := hr
    · exact ⟨.localFunction _ _ (ihp h).1 hb, fun _ => by simp [yieldL, PTree.yield]⟩
    · exact ⟨.localFunction _ _ hp (ihb h).1, fun _ => by simp [yieldL, PTree.yield]⟩
  | localNames ts h ih =>
    intro ts' hr
    simp [selfClosing, repL_node, repL_tok_cons, repL_cons2, repL_nil] at hr
    simp only [repL_name_cons] at hr
    try simp [selfClosing, repL_node, repL_tok_cons, repL_nil] at hr
    obtain ⟨_, ⟨_, ⟨_, ⟨_, h, rfl⟩, rfl⟩, rfl⟩, rfl⟩ := hr
    exact ⟨.localNames _ (ih h).1, fun _ => by simp [yieldL, PTree.yield]⟩
  | localAssign ts m h hm ih ihm =>
    intro ts' hr
    simp [selfClosing, repL_node, repL_tok_cons, repL_cons2, repL_nil] at hr
    simp only [repL_name_cons] at hr
    try simp [selfClosing, repL_node, repL_tok_cons, repL_nil] at hr
    obtain ⟨_, ⟨_, ⟨_, ⟨_, ⟨_, h', rfl⟩, rfl⟩, rfl⟩ | ⟨_, ⟨_, h', rfl⟩, rfl⟩, rfl⟩, rfl⟩ := hr
    · exact ⟨.localAssign _ _ (ih h').1 hm, fun _ => by simp [yieldL, PTree.yield]⟩
    · obtain ⟨e', rfl⟩ := repL_single h'
      exact ⟨.localAssign _ _ h (ihm h').1, fun _ => by simp [yieldL, PTree.yield]⟩
  | exprStmt m hm hs ih =>
    intro ts' hr
    simp [selfClosing, repL_node] at hr
    obtain ⟨_, h, rfl⟩ := hr
    obtain ⟨e', rfl⟩ := repL_single h
    obtain ⟨g1, g2⟩ := single ih (by simp) h
    exact ⟨.exprStmt _ g1 (by simpa [startsStmt, g2] using hs), fun _ => by simp [yieldL, PTree.yield, g2]⟩
  | assign m m' hm hs hm' ih ih' =>
    intro ts' hr
    simp [selfClosing, repL_node, repL_tok_cons, repL_cons2, repL_nil] at hr
    obtain ⟨_, ⟨_, h, rfl⟩ | ⟨_, ⟨_, h, rfl⟩, rfl⟩, rfl⟩ := hr
    · obtain ⟨g1, g2⟩ := single ih (by simp) h
      exact ⟨.assign _ _ g1 (by simpa [startsStmt, g2] using hs) hm', fun _ => by simp [yieldL, PTree.yield, g2]⟩
    · obtain ⟨e', rfl⟩ := repL_single h
      exact ⟨.assign _ _ hm hs (ih' h).1, fun _ => by simp [yieldL, PTree.yield]⟩
  | returnNone => intro ts' hr; simp [selfClosing, repL_node, repL_tok_cons, repL_nil] at hr
  | «return» m hm ih =>
    intro ts' hr
    simp [selfClosing, repL_node, repL_tok_cons, repL_cons2, repL_nil] at hr
    obtain ⟨_, ⟨_, h, rfl⟩, rfl⟩ := hr
    obtain ⟨e', rfl⟩ := repL_single h
    exact ⟨.return _ (ih h).1, fun _ => by simp [yieldL, PTree.yield]⟩
  | function_ n p b hn hp hb ihn ihp ihb =>
    intro ts' hr
    rcases repL_any.1 hr with ⟨e, rfl⟩ | ⟨_, hq, rfl⟩
    · subst e
      exact ⟨hus.2.2.2.2 (by simp), fun _ => by simpa [yieldL, PTree.yield, opener] using hy⟩
    replace hr := hq
    simp [selfClosing, repL_node, repL_tok_cons, repL_cons2, repL_nil] at hr
    obtain ⟨_, ⟨_, h, rfl⟩ | ⟨_, ⟨_, h, rfl⟩ | ⟨_, ⟨_, h, rfl⟩, rfl⟩, rfl⟩, rfl⟩ := hr
    · exact ⟨.function_ _ _ _ (ihn h).1 hp hb, fun _ => by simp [yieldL, PTree.yield]⟩
    · exact ⟨.function_ _ _ _ hn (ihp h).1 hb, fun _ => by simp [yieldL, PTree.yield]⟩
    · exact ⟨.function_ _ _ _ hn hp (ihb h).1, fun _ => by simp [yieldL, PTree.yield]⟩
  | pathNil => intro ts' hr; simp [repL_nil] at hr
  | pathCons ts h ih =>
    intro ts' hr
    rw [repL_tok_cons] at hr
    simp only [repL_nameRef_cons] at hr
    try simp [selfClosing, repL_node, repL_tok_cons, repL_nil] at hr
    obtain ⟨_, ⟨_, h, rfl⟩, rfl⟩ := hr
    exact ⟨.pathCons _ (ih h).1, fun _ => by simp [yieldL, PTree.yield]⟩
  | plainName => intro ts' hr; simp [selfClosing, repL_node, repL_tok_cons, repL_nil] at hr
  | methodName ts h ih =>
    intro ts' hr
    simp [selfClosing, repL_node, repL_tok_cons, repL_cons2, repL_nil] at hr
    simp only [repL_nameRef_cons] at hr
    try simp [selfClosing, repL_node, repL_tok_cons, repL_nil] at hr
    obtain ⟨_, ⟨_, ⟨_, ⟨_, ⟨_, h, rfl⟩, rfl⟩, rfl⟩, rfl⟩, rfl⟩ := hr
    exact ⟨.methodName _ (ih h).1, fun _ => by simp [yieldL, PTree.yield]⟩
  | staticName ts h ih =>
    intro ts' hr
    simp [selfClosing, repL_node, repL_tok_cons, repL_cons2, repL_nil] at hr
    simp only [repL_nameRef_cons] at hr
    try simp [selfClosing, repL_node, repL_tok_cons, repL_nil, repL_append] at hr
    obtain ⟨_, ⟨_, ⟨_, ⟨_, ⟨_, ⟨_, h, rfl⟩, rfl⟩, rfl⟩, rfl⟩, rfl⟩, rfl⟩ := hr
    exact ⟨.staticName _ (ih h).1, fun _ => by simp [yieldL, PTree.yield]⟩
  | staticNoDot ts hx h ih =>
    intro ts' hr
    simp [selfClosing, repL_node, repL_tok_cons, repL_cons2, repL_nil] at hr
    simp only [repL_nameRef_cons] at hr
    try simp [selfClosing, repL_node, repL_tok_cons, repL_nil, repL_append] at hr
    obtain ⟨_, ⟨_, ⟨_, ⟨_, ⟨_, h, rfl⟩, rfl⟩, rfl⟩, rfl⟩, rfl⟩ := hr
    exact ⟨.staticNoDot _ hx (ih h).1, fun _ => by simp [yieldL, PTree.yield]⟩
  | forStmt c b hc hb ihc ihb =>
    intro ts' hr
    rcases repL_any.1 hr with ⟨e, rfl⟩ | ⟨_, hq, rfl⟩
    · subst e
      exact ⟨hus.2.2.2.2 (by simp), fun _ => by simpa [yieldL, PTree.yield, opener] using hy⟩
    replace hr := hq
    simp [selfClosing, repL_node, repL_tok_cons, repL_cons2, repL_nil] at hr
    obtain ⟨_, ⟨_, h, rfl⟩ | ⟨_, ⟨_, ⟨_, h, rfl⟩, rfl⟩, rfl⟩, rfl⟩ := hr
    · exact ⟨.forStmt _ _ (ihc h).1 hb, fun _ => by simp [yieldL, PTree.yield]⟩
    · exact ⟨.forStmt _ _ hc (ihb h).1, fun _ => by simp [yieldL, PTree.yield]⟩
  | numericFor m hm ih =>
    intro ts' hr
    simp [selfClosing, repL_node, repL_tok_cons, repL_cons2, repL_nil] at hr
    obtain ⟨_, ⟨_, ⟨_, ⟨_, h, rfl⟩, rfl⟩, rfl⟩, rfl⟩ := hr
    obtain ⟨e', rfl⟩ := repL_single h
    exact ⟨.numericFor _ (ih h).1, fun _ => by simp [yieldL, PTree.yield]⟩
  | genericFor ts e h he ih ihe =>
    intro ts' hr
    simp [selfClosing, repL_node, repL_tok_cons, repL_cons2, repL_nil] at hr
    simp only [repL_name_cons] at hr
    try simp [selfClosing, repL_node, repL_tok_cons, repL_nil] at hr
    obtain ⟨_, ⟨_, ⟨_, ⟨_, ⟨_, h', rfl⟩, rfl⟩, rfl⟩ | ⟨_, ⟨_, h', rfl⟩, rfl⟩, rfl⟩, rfl⟩ := hr
    · exact ⟨.genericFor _ _ (ih h').1 he, fun _ => by simp [yieldL, PTree.yield]⟩
    · obtain ⟨e', rfl⟩ := repL_single h'
      exact ⟨.genericFor _ _ h (ihe h').1, fun _ => by simp [yieldL, PTree.yield]⟩
  | genericForList ts m hx h he ih ihe =>
    intro ts' hr
    simp [selfClosing, repL_node, repL_tok_cons, repL_cons2, repL_nil] at hr
    simp only [repL_name_cons] at hr
    try simp [selfClosing, repL_node, repL_tok_cons, repL_nil] at hr
    obtain ⟨_, ⟨_, ⟨_, ⟨_, ⟨_, h', rfl⟩, rfl⟩, rfl⟩ | ⟨_, ⟨_, h', rfl⟩, rfl⟩, rfl⟩, rfl⟩ := hr
    · exact ⟨.genericForList _ _ hx (ih h').1 he, fun _ => by simp [yieldL, PTree.yield]⟩
    · obtain ⟨e', rfl⟩ := repL_single h'
      exact ⟨.genericForList _ _ hx h (ihe h').1, fun _ => by simp [yieldL, PTree.yield]⟩


/-! ### the self-closing nodes of a derivation -/

theorem good_expr {x K us} (hK : K ∈ [SyntaxKind.parenExpr, .tableExpr, .functionExpr]) (h : Deriv x .expr [.node K us]) :
    Good x K us := by
  simp only [List.mem_cons, List.not_mem_nil, or_false] at hK
  rcases hK with rfl | rfl | rfl <;>
    exact ⟨fun _ => h, fun e => by simp at e, fun e => by simp at e, fun e => by simp at e, fun e => by simp at e⟩

theorem good_stmt {x K us} (hK : K ∈ [SyntaxKind.doStmt, .whileStmt, .ifStmt, .forStmt, .functionDefStmt, .localFunctionDefStmt])
    (h : Deriv x .stmt [.node K us]) : Good x K us := by
  simp only [List.mem_cons, List.not_mem_nil, or_false] at hK
  rcases hK with rfl | rfl | rfl | rfl | rfl | rfl <;>
    exact ⟨fun e => by simp at e, fun e => by simp at e, fun e => by simp at e, fun e => by simp at e, fun _ => h⟩

theorem good_index {x us} (h : Deriv x .index [.node .index us]) : Good x .index us :=
  ⟨fun e => by simp at e, fun _ => h, fun e => by simp at e, fun e => by simp at e, fun e => by simp at e⟩

theorem good_params {x us} (h : Deriv x .params [.node .paramList us]) : Good x .paramList us :=
  ⟨fun e => by simp at e, fun e => by simp at e, fun _ => h, fun e => by simp at e, fun e => by simp at e⟩

theorem good_args {x us} (h : Deriv x .callArgs [.node .callArgs [.node .argList us]]) : Good x .argList us :=
  ⟨fun e => by simp at e, fun e => by simp at e, fun e => by simp at e, fun _ => h, fun e => by simp at e⟩

/-- the self-closing nodes in the tree are good -/
def AllGood (x : Dialect) (t : PTree) : Prop := ∀ K cs, K ∈ selfClosing → Sub (.node K cs) t → Good x K cs

theorem all_tok (x k) : AllGood x (.tok k) := by
  intro K cs _ h; cases h

theorem all_node {x k cs} (h : ∀ c ∈ cs, AllGood x c) (hk : k ∈ selfClosing → Good x k cs) : AllGood x (.node k cs) := by
  intro K ds hK hs
  cases hs with
  | refl => exact hk hK
  | node _ c _ hc hs => exact h c hc K ds hK hs

theorem deriv_all {x nt ts} (h : Deriv x nt ts) : ∀ t ∈ ts, AllGood x t := by
  have hn : AllGood x nameT := all_node (by simp [all_tok]) (fun h => absurd h (by decide))
  have hr : AllGood x nameRefT := all_node (by simp [all_tok]) (fun h => absurd h (by decide))
  have cls : ∀ {k cs}, Good x k cs → (∀ c ∈ cs, AllGood x c) → AllGood x (.node k cs) := fun h1 h2 => all_node h2 fun _ => h1
  have opn : ∀ {k cs}, k ∉ selfClosing → (∀ c ∈ cs, AllGood x c) → AllGood x (.node k cs) := fun h1 h2 => all_node h2 fun h => absurd h h1
  have tok := all_tok x
  induction h with
  | function p b hp hb ihp ihb =>
    simp only [List.mem_cons, List.not_mem_nil, or_false, forall_eq, forall_eq_or_imp] at ihp ihb ⊢
    exact cls (good_expr (by simp) (.function _ _ hp hb)) (by simp [tok, ihp, ihb])
  | table ts h ih =>
    simp only [List.mem_cons, List.not_mem_nil, or_false, forall_eq]
    refine cls (good_expr (by simp) (.table _ h)) ?_
    simp only [List.mem_cons, List.mem_append, List.not_mem_nil, or_false]
    rintro c (rfl | hc | rfl)
    · exact tok _
    · exact ih c hc
    · exact tok _
  | paren e h ih =>
    simp only [List.mem_cons, List.not_mem_nil, or_false, forall_eq] at ih ⊢
    exact cls (good_expr (by simp) (.paren _ h)) (by simp [tok, ih])
  | index e h ih =>
    simp only [List.mem_cons, List.not_mem_nil, or_false, forall_eq] at ih ⊢
    exact cls (good_index (.index _ h)) (by simp [tok, ih])
  | argsEmpty =>
    simp only [List.mem_cons, List.not_mem_nil, or_false, forall_eq]
    refine opn (by decide) ?_
    simp only [List.mem_cons, List.not_mem_nil, or_false, forall_eq]
    exact cls (good_args .argsEmpty) (by simp [tok])
  | args m h ih =>
    simp only [List.mem_cons, List.not_mem_nil, or_false, forall_eq] at ih ⊢
    refine opn (by decide) ?_
    simp only [List.mem_cons, List.not_mem_nil, or_false, forall_eq]
    exact cls (good_args (.args _ h)) (by simp [tok, ih])
  | argsTable ts h ih =>
    simp only [List.mem_cons, List.not_mem_nil, or_false, forall_eq]
    refine opn (by decide) ?_
    simp only [List.mem_cons, List.not_mem_nil, or_false, forall_eq]
    refine cls (good_expr (by simp) (.table _ h)) ?_
    simp only [List.mem_cons, List.mem_append, List.not_mem_nil, or_false]
    rintro c (rfl | hc | rfl)
    · exact tok _
    · exact ih c hc
    · exact tok _
  | paramsEmpty =>
    simp only [List.mem_cons, List.not_mem_nil, or_false, forall_eq]
    exact cls (good_params .paramsEmpty) (by simp [tok])
  | paramsNames ts h ih =>
    simp only [List.mem_cons, List.not_mem_nil, or_false, forall_eq]
    refine cls (good_params (.paramsNames _ h)) ?_
    simp only [List.mem_cons, List.not_mem_nil, or_false, forall_eq, forall_eq_or_imp]
    refine ⟨tok _, opn (by decide) ?_, tok _⟩
    simp only [List.mem_cons, forall_eq_or_imp]
    exact ⟨hn, ih⟩
  | paramsVararg =>
    simp only [List.mem_cons, List.not_mem_nil, or_false, forall_eq]
    refine cls (good_params .paramsVararg) ?_
    simp only [List.mem_cons, List.not_mem_nil, or_false, forall_eq, forall_eq_or_imp]
    exact ⟨tok _, opn (by decide) (by simp), tok _, tok _⟩
  | paramsNamesVararg ts h ih =>
    simp only [List.mem_cons, List.not_mem_nil, or_false, forall_eq]
    refine cls (good_params (.paramsNamesVararg _ h)) ?_
    simp only [List.mem_cons, List.not_mem_nil, or_false, forall_eq, forall_eq_or_imp]
    refine ⟨tok _, opn (by decide) ?_, tok _, tok _⟩
    simp only [List.mem_cons, List.mem_append, List.not_mem_nil, or_false]
    rintro c (rfl | hc | rfl)
    · exact hn
    · exact ih c hc
    · exact tok _
  | paramsNoComma ts hx h ih =>
    simp only [List.mem_cons, List.not_mem_nil, or_false, forall_eq]
    refine cls (good_params (.paramsNoComma _ hx h)) ?_
    simp only [List.mem_cons, List.not_mem_nil, or_false, forall_eq, forall_eq_or_imp]
    refine ⟨tok _, opn (by decide) ?_, tok _, tok _⟩
    simp only [List.mem_cons, forall_eq_or_imp]
    exact ⟨hn, ih⟩
  | ifStmt e b es he hb hes ihe ihb ihes =>
    simp only [List.mem_cons, List.not_mem_nil, or_false, forall_eq] at ihe ihb ⊢
    refine cls (good_stmt (by simp) (.ifStmt _ _ _ he hb hes)) ?_
    simp only [List.mem_cons, List.mem_append, List.not_mem_nil, or_false]
    rintro c (rfl | rfl | rfl | rfl | hc | rfl)
    · exact tok _
    · exact ihe
    · exact tok _
    · exact ihb
    · exact ihes c hc
    · exact tok _
  | doStmt b hb ih =>
    simp only [List.mem_cons, List.not_mem_nil, or_false, forall_eq] at ih ⊢
    exact cls (good_stmt (by simp) (.doStmt _ hb)) (by simp [tok, ih])
  | «while» e b he hb ihe ihb =>
    simp only [List.mem_cons, List.not_mem_nil, or_false, forall_eq] at ihe ihb ⊢
    exact cls (good_stmt (by simp) (.while _ _ he hb)) (by simp [tok, ihe, ihb])
  | localFunction p b hp hb ihp ihb =>
    simp only [List.mem_cons, List.not_mem_nil, or_false, forall_eq] at ihp ihb ⊢
    exact cls (good_stmt (by simp) (.localFunction _ _ hp hb)) (by simp [tok, ihp, ihb, hn])
  | function_ n p b h hp hb ihn ihp ihb =>
    simp only [List.mem_cons, List.not_mem_nil, or_false, forall_eq] at ihn ihp ihb ⊢
    exact cls (good_stmt (by simp) (.function_ _ _ _ h hp hb)) (by simp [tok, ihp, ihb, ihn])
  | forStmt c b hc hb ihc ihb =>
    simp only [List.mem_cons, List.not_mem_nil, or_false, forall_eq] at ihc ihb ⊢
    exact cls (good_stmt (by simp) (.forStmt _ _ hc hb)) (by simp [tok, ihc, ihb])
  | _ =>
    simp_all only [List.mem_cons, List.mem_append, List.mem_singleton, List.not_mem_nil, or_false,
      forall_eq_or_imp, forall_eq, and_true, or_imp, forall_and, false_implies, implies_true]
    repeat' first
      | exact all_tok _ _
      | assumption
      | refine ⟨?_, ?_⟩
      | refine all_node ?_ (fun h => absurd h (by decide))
      | (simp_all only [List.mem_cons, List.mem_append, List.mem_singleton, List.not_mem_nil, or_false,
          forall_eq_or_imp, forall_eq, and_true, or_imp, forall_and, false_implies, implies_true])

end Pst
end Verif
