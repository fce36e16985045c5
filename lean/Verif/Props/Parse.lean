import Verif.Spec.Callbacks
import Verif.Spec.LuaPrecedence
import Verif.Proof.Complete7
import Verif.Proof.Eval

/-
C10, C11, C12, C13 and the parser part of C02: the recursive-descent parser on token kinds.
`parseKinds toks` are the callbacks `parser::parse` makes on the tree sink.
-/
set_option linter.unusedSimpArgs false
namespace Verif
open PTree Lua

/-! ### trees and their callbacks -/

theorem errorsOf_append (a b) : errorsOf (a ++ b) = errorsOf a ++ errorsOf b := by
  induction a with
  | nil => rfl
  | cons x xs ih => cases x <;> simp [errorsOf, ih]

mutual
theorem errorsOf_calls (t : PTree) : errorsOf (calls t) = errors t := by
  cases t with
  | tok k => rfl
  | err e => rfl
  | errNode cs e => simp [calls, errorsOf, errorsOf_append, errors, errorsOf_callsL cs]
  | node k cs => simp [calls, errorsOf, errorsOf_append, errors, errorsOf_callsL cs]
theorem errorsOf_callsL (ts : List PTree) : errorsOf (callsL ts) = errorsL ts := by
  cases ts with
  | nil => rfl
  | cons t ts => simp [callsL, errorsOf_append, errorsL, errorsOf_calls t, errorsOf_callsL ts]
end

mutual
theorem wellNested_calls (t : PTree) (b : Bool) (o : List Bool) (cs : List SinkCall)
    (h : WellNested (b :: o) cs) : WellNested (b :: o) (calls t ++ cs) := by
  cases t with
  | tok k => simpa [calls, WellNested] using h
  | err e => simpa [calls, WellNested] using h
  | errNode ts e =>
    simp only [calls, List.cons_append, WellNested, List.append_assoc, List.nil_append]
    exact wellNested_callsL ts _ _ _ (by simpa [WellNested] using h)
  | node k ts =>
    simp only [calls, List.cons_append, WellNested, List.append_assoc, List.nil_append]
    exact wellNested_callsL ts _ _ _ (by simpa [WellNested] using h)
theorem wellNested_callsL (ts : List PTree) (b : Bool) (o : List Bool) (cs : List SinkCall)
    (h : WellNested (b :: o) cs) : WellNested (b :: o) (callsL ts ++ cs) := by
  cases ts with
  | nil => simpa [callsL] using h
  | cons t ts =>
    simp only [callsL, List.append_assoc]
    exact wellNested_calls t b o _ (wellNested_callsL ts b o cs h)
end

theorem wellNested_node (k ts) : WellNested [] (calls (.node k ts)) := by
  simp only [calls, WellNested]
  exact wellNested_callsL ts true [] _ (by simp [WellNested])

mutual
theorem tokens_calls (t : PTree) : (calls t).count .token = (yield t).length := by
  cases t with
  | tok k => simp [calls, PTree.yield]
  | err e => simp [calls, PTree.yield]
  | errNode ts e => simp [calls, PTree.yield, tokens_callsL ts]
  | node k ts => simp [calls, PTree.yield, tokens_callsL ts]
theorem tokens_callsL (ts : List PTree) : (callsL ts).count .token = (yieldL ts).length := by
  cases ts with
  | nil => simp [callsL, yieldL]
  | cons t ts => simp [callsL, yieldL, tokens_calls t, tokens_callsL ts]
end

/-- a callback list that does not continue a list of siblings -/
def Ends (r : List SinkCall) : Prop := ∀ c, r.head? = some c → c = .finishNode ∨ ∃ e, c = .finishErrorNode e

mutual
theorem calls_inj (t : PTree) : ∀ t' r r' y y', calls t ++ r = calls t' ++ r' →
    yield t ++ y = yield t' ++ y' → t = t' ∧ r = r' ∧ y = y' := by
  intro t' r r' y y' h1 h2
  cases t with
  | tok k => cases t' <;> simp_all [calls, PTree.yield]
  | err e => cases t' <;> simp_all [calls, PTree.yield]
  | errNode ts e =>
    cases t' with
    | errNode ts' e' =>
      simp [calls] at h1
      simp [PTree.yield] at h2
      have := callsL_inj ts ts' _ _ y y' (by simp [Ends]) (by simp [Ends]) h1 h2
      simp_all
    | _ => simp [calls] at h1
  | node k ts =>
    cases t' with
    | node k' ts' =>
      simp [calls] at h1
      simp [PTree.yield] at h2
      have := callsL_inj ts ts' _ _ y y' (by simp [Ends]) (by simp [Ends]) h1.2 h2
      simp_all
    | _ => simp [calls] at h1
theorem callsL_inj (ts : List PTree) : ∀ ts' r r' y y', Ends r → Ends r' →
    callsL ts ++ r = callsL ts' ++ r' → yieldL ts ++ y = yieldL ts' ++ y' →
    ts = ts' ∧ r = r' ∧ y = y' := by
  intro ts' r r' y y' hr hr' h1 h2
  cases ts with
  | nil =>
    cases ts' with
    | nil => simp_all [callsL, yieldL]
    | cons t' ts' =>
      exfalso
      simp [callsL] at h1
      subst h1
      cases t' <;> simp [Ends, calls] at hr
  | cons t ts =>
    cases ts' with
    | nil =>
      exfalso
      simp [callsL] at h1
      subst h1
      cases t <;> simp [Ends, calls] at hr'
    | cons t' ts' =>
      simp only [callsL, yieldL, List.append_assoc] at h1 h2
      obtain ⟨rfl, h3, h4⟩ := calls_inj t t' _ _ _ _ h1 h2
      obtain ⟨rfl, h5, h6⟩ := callsL_inj ts ts' r r' y y' hr hr' h3 h4
      exact ⟨rfl, h5, h6⟩
end

/-! ### C02 (parser), C10 -/

theorem ne_of_not_mem {toks : List SyntaxKind} (h : SyntaxKind.eof ∉ toks) : NE toks := h

/-- **C02, parsing stage**: the parser returns normally on every token sequence (`Eof` is the token
source's end marker and is not a token of the text). -/
theorem C02_parse_total (toks : List SyntaxKind) (h : SyntaxKind.eof ∉ toks) :
    ∃ cs, parseKinds toks = .ok cs := by
  obtain ⟨ts, h1, -⟩ := parseKinds_main toks (ne_of_not_mem h)
  exact ⟨_, h1⟩

/-- **C10**: the callbacks are well nested with one root, one token callback is made per token, and
they are the pre-order walk of a tree `SourceFile(Block(...))` whose leaves are the tokens in order. -/
theorem C10_well_nested (toks : List SyntaxKind) (h : SyntaxKind.eof ∉ toks) :
    ∃ cs, parseKinds toks = .ok cs ∧ WellNested [] cs ∧ cs.count .token = toks.length ∧
      ∃ ts, cs = calls (.node .sourceFile [.node .block ts]) ∧ yieldL ts = toks := by
  obtain ⟨ts, h1, h2, -⟩ := parseKinds_main toks (ne_of_not_mem h)
  refine ⟨_, h1, wellNested_node _ _, ?_, ts, rfl, h2⟩
  rw [tokens_calls]; simp [PTree.yield, yieldL, h2]

/-- The hypothesis is met by real input, e.g. by the (erroneous) tokens of `x = = end )`. -/
example : ∃ cs, parseKinds [.ident, .eq, .eq, .endKw, .rParen] = .ok cs ∧ WellNested [] cs ∧
    cs.count .token = 5 := by
  obtain ⟨cs, h1, h2, h3, -⟩ := C10_well_nested [.ident, .eq, .eq, .endKw, .rParen] (by simp)
  exact ⟨cs, h1, h2, h3⟩

/-! ### C11 -/

theorem deriv_errors {x nt ts} (h : Deriv x nt ts) : errorsL ts = [] := by
  induction h <;> simp_all [errorsL, errors]

theorem program_errors {x t} (h : Program x t) : errors t = [] := by
  obtain ⟨b, rfl, hd⟩ := h
  have := deriv_errors hd
  simpa [errors] using this

/-- **C11** for the grammar without expression lists in generic `for`: from the tokens of any derivation
tree the parser reports no error and builds exactly that tree.  The documented grammar additionally
allows `for k, v in next, t do ... end`; see `C11_no_false_alarms_fails`. -/
theorem C11_no_false_alarms_partial (t : PTree) (h : Program .core t) :
    ∃ cs, parseKinds (yield t) = .ok cs ∧ errorsOf cs = [] ∧ cs = calls t := by
  obtain ⟨b, rfl, hd⟩ := h
  refine ⟨_, parseKinds_complete ⟨b, rfl, hd.weaken _⟩, ?_, rfl⟩
  rw [errorsOf_calls]; exact program_errors ⟨b, rfl, hd⟩

/-- the tree of `for k, v in next, t do end` in the documented grammar -/
def genericForTree : PTree :=
  .node .sourceFile [.node .block [.node .forStmt [.tok .forKw,
    .node .forContent [.node .genericFor [.node .multiName [nameT, .tok .comma, nameT], .tok .inKw,
      .node .multivalExpr [nameRefT, .tok .comma, nameRefT]]],
    .tok .doKw, .node .block [], .tok .endKw]]]

theorem genericForTree_program : Program .documented genericForTree := by
  refine ⟨_, rfl, .block _ (.stmtsCons _ _ (.forStmt _ _ ?_ (.block _ .stmtsNil)) .stmtsNil (by simp [yieldL]))⟩
  refine .genericForList [.tok .comma, nameT] _ rfl (.nameTailCons _ .nameTailNil) ?_
  exact .multival _ _ .nameRef (.tailCons _ _ .nameRef .tailNil)

set_option maxRecDepth 10000 in
/-- **C11 fails** for the documented grammar: `for k, v in next, t do end` is rejected. -/
theorem C11_no_false_alarms_fails : ∃ t, Program .documented t ∧
    ¬ ∃ cs, parseKinds (yield t) = .ok cs ∧ errorsOf cs = [] := by
  refine ⟨genericForTree, genericForTree_program, ?_⟩
  rintro ⟨cs, h1, h2⟩
  rw [parseEval_eq] at h1
  have h3 : (match parseEval (yield genericForTree) with
    | .ok cs => (errorsOf cs).isEmpty | .error _ => true) = false := by decide
  rw [h1] at h3
  simp [h2] at h3

/-- `local x = f(1)["k"] ; return x` as a case of the partial theorem. -/
example : ∃ t, Program .core t ∧ yield t = [.localKw, .ident, .eq, .ident, .lParen, .number, .rParen,
    .lBracket, .str, .rBracket, .semicolon, .returnKw, .ident] := by
  refine ⟨_, ⟨_, rfl, .block _ (.stmtsSemi _ _ (.localAssign _ _ .nameTailNil (.multival _ _
    (.indexE _ _ (.call _ _ .nameRef ?_ (.args _ (.multival _ _ (.literal .number ?_) .tailNil))) ?_
      (.index _ (.literal .str ?_))) .tailNil)) (.stmtsCons _ _ (.return _ (.multival _ _ .nameRef .tailNil))
        .stmtsNil ?_))⟩, ?_⟩
  · simp [callable, indexable, kindOf]
  · simp [literalKinds]
  · simp [indexable, kindOf]
  · simp [literalKinds]
  · simp [yieldL]
  · simp [PTree.yield, yieldL]

/-! ### C12 -/

/-- **C12** for the grammar the parser accepts (the documented one plus the two silently accepted
constructs `function f(a ...)` and `function a b()`): if the parser reports no error, the tokens are
those of a derivation tree, and that tree is the result. -/
theorem C12_error_free_derives_partial (toks : List SyntaxKind) (h : SyntaxKind.eof ∉ toks)
    (cs : List SinkCall) (hp : parseKinds toks = .ok cs) (he : errorsOf cs = []) :
    ∃ t, Program .accepted t ∧ yield t = toks ∧ cs = calls t := by
  obtain ⟨ts, h1, h2, -, h4⟩ := parseKinds_main toks (ne_of_not_mem h)
  rw [hp] at h1
  cases h1
  rw [errorsOf_calls] at he
  refine ⟨_, h4 (by simpa [errors, errorsL] using he), by simp [PTree.yield, yieldL, h2], rfl⟩

/-- The parser accepts exactly the extended grammar: no error is reported if and only if the tokens
derive. -/
theorem C12_accepts_iff_partial (toks : List SyntaxKind) (h : SyntaxKind.eof ∉ toks) :
    (∃ cs, parseKinds toks = .ok cs ∧ errorsOf cs = []) ↔ ∃ t, Program .accepted t ∧ yield t = toks := by
  constructor
  · rintro ⟨cs, h1, h2⟩
    obtain ⟨t, h3, h4, -⟩ := C12_error_free_derives_partial toks h cs h1 h2
    exact ⟨t, h3, h4⟩
  · rintro ⟨t, h1, rfl⟩
    exact ⟨_, parseKinds_complete h1, by rw [errorsOf_calls]; exact program_errors h1⟩

/-- The grammar is unambiguous: a token sequence has at most one derivation tree (so "the" tree of a
program is well defined). -/
theorem C12_unambiguous (t t' : PTree) (h : Program .accepted t) (h' : Program .accepted t')
    (hy : yield t = yield t') : t = t' := by
  have h1 := parseKinds_complete h
  have h2 := parseKinds_complete h'
  rw [hy, h2] at h1
  have h3 : calls t' = calls t := by simpa using h1
  exact (calls_inj t t' [] [] [] [] (by simp [h3]) (by simp [hy])).1

/-- Scanner for the pattern `function` name name: `none` once it has been seen. -/
def scan : Nat → List SyntaxKind → Option Nat
  | s, [] => some s
  | s, k :: ks =>
    if k = .functionKw then scan 1 ks
    else if k = .ident then (if s = 2 then none else if s = 1 then scan 2 ks else scan 0 ks)
    else scan 0 ks

theorem scan_append (s a b) : scan s (a ++ b) = (scan s a).bind (scan · b) := by
  induction a generalizing s with
  | nil => simp [scan]
  | cons k ks ih =>
    simp only [List.cons_append, scan]
    split
    · exact ih 1
    · split
      · split
        · rfl
        · split
          · exact ih 2
          · exact ih 0
      · exact ih 0

/-- Outside the silently accepted constructs no derivation contains `function` name name. -/
theorem scan_deriv {nt ts} (h : Deriv .documented nt ts) :
    (nt ≠ .funcName → scan 0 (yieldL ts) = some 0) ∧
    (nt = .params → ∀ s, scan s (yieldL ts) = some 0) ∧
    (nt = .funcName → ∃ s, scan 1 (yieldL ts) = some s) ∧
    (nt = .pathTail → ∃ s, scan 2 (yieldL ts) = some s) := by
  induction h with
  | paramsNoComma ts hx => cases hx
  | staticNoDot ts hx => cases hx
  | literal k hk =>
    have : k ≠ .functionKw ∧ k ≠ .ident := by constructor <;> rintro rfl <;> simp [literalKinds] at hk
    simp [PTree.yield, yieldL, scan, this]
  | «prefix» op e hk =>
    have : op ≠ .functionKw ∧ op ≠ .ident := by constructor <;> rintro rfl <;> simp [unaryOps] at hk
    simp_all [PTree.yield, yieldL, scan]
  | «infix» op l r hk =>
    have : op ≠ .functionKw ∧ op ≠ .ident := by constructor <;> rintro rfl <;> simp [isBinary, level] at hk
    simp_all [PTree.yield, yieldL, scan, scan_append]
  | itemsCons c sep ts _ hs =>
    have : sep ≠ .functionKw ∧ sep ≠ .ident := by constructor <;> rintro rfl <;> simp at hs
    simp_all [PTree.yield, yieldL, scan, scan_append]
  | function_ n p b _ _ _ ihn ihp ihb =>
    obtain ⟨s, hs⟩ := ihn.2.2.1 rfl
    simp_all [PTree.yield, yieldL, scan, scan_append]
  | methodName ts _ ih =>
    obtain ⟨s, hs⟩ := ih.2.2.2 rfl
    simp_all [PTree.yield, yieldL, scan, scan_append]
  | staticName ts _ ih =>
    obtain ⟨s, hs⟩ := ih.2.2.2 rfl
    simp_all [PTree.yield, yieldL, scan, scan_append]
  | _ => simp_all [PTree.yield, yieldL, scan, scan_append]

set_option maxRecDepth 10000 in
/-- **C12 fails** for the documented grammar: `function a b() end` is accepted without an error although
it does not derive. -/
theorem C12_error_free_derives_fails : ∃ toks cs, SyntaxKind.eof ∉ toks ∧ parseKinds toks = .ok cs ∧
    errorsOf cs = [] ∧ ¬ ∃ t, Program .documented t ∧ yield t = toks := by
  have ht : Program .accepted (.node .sourceFile [.node .block [.node .functionDefStmt [.tok .functionKw,
      .node .functionDefContent [.node .functionStatic [.node .indexPath [nameRefT], nameT]],
      .node .paramList [.tok .lParen, .tok .rParen], .node .block [], .tok .endKw]]]) :=
    ⟨_, rfl, .block _ (.stmtsCons _ _ (.function_ _ _ _ (.staticNoDot [] rfl .pathNil) .paramsEmpty
      (.block _ .stmtsNil)) .stmtsNil (by simp [yieldL]))⟩
  refine ⟨_, _, ?_, parseKinds_complete ht, ?_, ?_⟩
  · simp [PTree.yield, yieldL]
  · rw [errorsOf_calls]; exact program_errors ht
  · rintro ⟨t, ⟨b, rfl, hd⟩, hy⟩
    have h := (scan_deriv hd).1 (by simp)
    have hy' : yieldL [b] = [.functionKw, .ident, .ident, .lParen, .rParen, .endKw] := by
      simpa [PTree.yield, yieldL] using hy
    rw [hy'] at h
    simp [scan] at h

/-! ### C13 -/

theorem manual_left : ∀ op ∈ infixOps, ∀ q ∈ infixOps, (level op < level q ∨
    (level op = level q ∧ rightAssoc op = false)) → (manualLevel op < manualLevel q ∨
      (manualLevel op = manualLevel q ∧ (op = q → rightAssoc op = false))) := by decide
theorem manual_right : ∀ op ∈ infixOps, ∀ q ∈ infixOps, (level op < level q ∨
    (level op = level q ∧ rightAssoc op = true)) → (manualLevel op < manualLevel q ∨
      (manualLevel op = manualLevel q ∧ (op = q → rightAssoc op = true))) := by decide
theorem manual_unary_left : ∀ op ∈ infixOps, level op < unaryLevel ∨
    (level op = unaryLevel ∧ rightAssoc op = false) → manualLevel op < manualUnary := by decide
theorem manual_unary_right : ∀ op ∈ infixOps, unaryLevel < level op → manualUnary < manualLevel op := by decide

/-- operators on the edges of a derived expression are binary operators -/
theorem edges_binary {x nt ts} (h : Deriv x nt ts) : nt = .expr → ∀ t, ts = [t] →
    (∀ q ∈ leftOps t, q ∈ infixOps) ∧ (∀ q ∈ rightOps t, q ∈ infixOps ∧ level q ∈ rightLevels t) ∧
    (rightUnary t = true → unaryLevel ∈ rightLevels t) := by
  induction h with
  | «prefix» op e hop _ _ ih =>
    rintro - t ⟨rfl⟩
    have := ih rfl e rfl
    simp [leftOps, rightOps, rightUnary, rightLevels]
    grind
  | «infix» op l r hb _ _ _ _ ihl ihr =>
    rintro - t ⟨rfl⟩
    have h1 := ihl rfl l rfl
    have h2 := ihr rfl r rfl
    have := mem_infixOps_of_level hb
    simp [leftOps, rightOps, rightUnary, rightLevels, this]
    grind
  | _ => intro h t ht; first | (simp at h; done) | (cases ht; simp [leftOps, rightOps, rightUnary])

def AllWeak (t : PTree) : Prop := ∀ s, Sub s t → NestsByManualWeak s

theorem allWeak_tok (k) : AllWeak (.tok k) := by
  intro s h; cases h; simp [NestsByManualWeak]

theorem allWeak_node {k cs} (h : ∀ c ∈ cs, AllWeak c) (hn : NestsByManualWeak (.node k cs)) :
    AllWeak (.node k cs) := by
  intro s hs
  cases hs with
  | refl => exact hn
  | node _ c _ hc hs => exact h c hc s hs

theorem allWeak_node' {k cs} (h : ∀ c ∈ cs, AllWeak c) (hk : k ≠ .infixExpr) (hk' : k ≠ .prefixExpr) :
    AllWeak (.node k cs) := by
  refine allWeak_node h ?_
  unfold NestsByManualWeak
  split
  · simp_all
  · simp_all
  · trivial

theorem deriv_allWeak {x nt ts} (h : Deriv x nt ts) : ∀ t ∈ ts, AllWeak t := by
  have hn : AllWeak nameT := allWeak_node' (by simp [allWeak_tok]) (by simp) (by simp)
  have hr : AllWeak nameRefT := allWeak_node' (by simp [allWeak_tok]) (by simp) (by simp)
  induction h with
  | «prefix» op e hop he hl ih =>
    simp only [List.mem_singleton, forall_eq] at ih ⊢
    refine allWeak_node (by simp [allWeak_tok, ih]) ?_
    intro q hq
    exact manual_unary_right q ((edges_binary he rfl e rfl).1 q hq) (hl q hq)
  | «infix» op l r hb hl hr h1 h2 ihl ihr =>
    simp only [List.mem_singleton, forall_eq] at ihl ihr ⊢
    refine allWeak_node (by simp [allWeak_tok, ihl, ihr]) ?_
    have hop := mem_infixOps_of_level hb
    have el := edges_binary hl rfl l rfl
    have er := edges_binary hr rfl r rfl
    refine ⟨fun q hq => ?_, fun hu => ?_, fun q hq => ?_⟩
    · exact manual_left op hop q (el.2.1 q hq).1 (h1 _ (el.2.1 q hq).2)
    · exact manual_unary_left op hop (h1 _ (el.2.2 hu))
    · exact manual_right op hop q (er.1 q hq) (h2 q hq)
  | _ =>
    simp_all only [List.mem_cons, List.mem_append, List.mem_singleton, List.not_mem_nil, or_false,
      forall_eq_or_imp, forall_eq, and_true, or_imp, forall_and, false_implies, implies_true]
    repeat' first
      | exact allWeak_tok _
      | assumption
      | refine ⟨?_, ?_⟩
      | refine allWeak_node' ?_ (by simp) (by simp)
      | (simp_all only [List.mem_cons, List.mem_append, List.mem_singleton, List.not_mem_nil, or_false,
          forall_eq_or_imp, forall_eq, and_true, or_imp, forall_and, false_implies, implies_true])

/-- **C13**, for operators on different levels of the manual and for equal operators: in every tree the
parser returns without an error, every operator node nests as the manual says.  Not covered: two
different operators of the same level of the manual (`a - b + c`), see `C13_precedence_fails`. -/
theorem C13_precedence_partial (toks : List SyntaxKind) (h : SyntaxKind.eof ∉ toks)
    (t : PTree) (hp : parseKinds toks = .ok (calls t)) (hy : yield t = toks)
    (he : errorsOf (calls t) = []) (s : PTree) (hs : Sub s t) : NestsByManualWeak s := by
  obtain ⟨t', ⟨b, rfl, hd⟩, h2, h3⟩ := C12_error_free_derives_partial toks h _ hp he
  obtain ⟨rfl, -⟩ := calls_inj t _ [] [] [] [] (by simpa using h3) (by simp [hy, h2])
  have := deriv_allWeak hd
  exact allWeak_node' (by simpa using this) (by simp) (by simp) s hs

/-- `x = a + b - c` parses as `a + (b - c)`. -/
def sumTree : PTree :=
  .node .sourceFile [.node .block [.node .assignStmt [.node .multivalExpr [nameRefT], .tok .eq,
    .node .multivalExpr [.node .infixExpr [nameRefT, .tok .plus,
      .node .infixExpr [nameRefT, .tok .minus, nameRefT]]]]]]

theorem sumTree_program (x) : Program x sumTree := by
  refine ⟨_, rfl, .block _ (.stmtsCons _ _ (.assign _ _ (.multival _ _ .nameRef .tailNil) ?_
    (.multival _ _ (.infix _ _ _ ?_ .nameRef (.infix _ _ _ ?_ .nameRef .nameRef ?_ ?_) ?_ ?_) .tailNil))
      .stmtsNil ?_)⟩
  all_goals simp [startsStmt, PTree.yield, yieldL, isBinary, level, rightLevels, leftOps]

/-- **C13 fails** in general: for `x = a + b - c` (no syntax error) the tree is `a + (b - c)`. -/
theorem C13_precedence_fails : ∃ toks t s, SyntaxKind.eof ∉ toks ∧ parseKinds toks = .ok (calls t) ∧
    yield t = toks ∧ errorsOf (calls t) = [] ∧ Sub s t ∧ ¬ NestsByManual s := by
  refine ⟨yield sumTree, sumTree, .node .infixExpr [nameRefT, .tok .plus,
      .node .infixExpr [nameRefT, .tok .minus, nameRefT]], by simp [sumTree, PTree.yield, yieldL],
    parseKinds_complete (sumTree_program _), rfl, ?_, ?_, ?_⟩
  · rw [errorsOf_calls]; exact program_errors (sumTree_program .accepted)
  · refine .node _ _ _ _ (List.mem_singleton.2 rfl) (.node _ _ _ _ (List.mem_singleton.2 rfl) ?_)
    refine .node _ _ _ _ (List.mem_cons_of_mem _ (List.mem_cons_of_mem _ (List.mem_singleton.2 rfl))) ?_
    exact .node _ _ _ _ (List.mem_singleton.2 rfl) (.refl _)
  · simp [NestsByManual, leftOps, manualLevel, rightAssoc]

end Verif
