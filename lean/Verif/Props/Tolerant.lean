import Verif.Proof.TolerantGrammar
import Verif.Proof.Productions
import Verif.Props.ErrorMessages

/-
C103: what the nodes of a file are made of, with or without errors.
-/
namespace Verif
open Spec PTree Lexer Lua P Grammar

/-! ### trees of the parser -/

/-- the symbols of a tree -/
private def symE : PTree → List Sym
  | .tok k => [.tok k]
  | .node k _ => [.node k]
  | .errNode _ _ => [.node .error]
  | .err _ => []

private def symsE : List PTree → List Sym
  | [] => []
  | t :: ts => symE t ++ symsE ts

private theorem symsE_append (a b : List PTree) : symsE (a ++ b) = symsE a ++ symsE b := by
  induction a with
  | nil => rfl
  | cons x xs ih => simp [symsE, ih]

mutual
private def tolT : PTree → Prop
  | .tok _ => True
  | .err _ => True
  | .errNode cs _ => ∃ ks : List SyntaxKind, cs = ks.map PTree.tok
  | .node k cs => (shape k).Matches (symsE cs) ∧ tolTL cs
private def tolTL : List PTree → Prop
  | [] => True
  | t :: ts => tolT t ∧ tolTL ts
end

private theorem tolTL_append (a b : List PTree) : tolTL (a ++ b) ↔ tolTL a ∧ tolTL b := by
  induction a with
  | nil => simp [tolTL]
  | cons x xs ih => simp [tolTL, ih, and_assoc]

private theorem toTreeL_toks (ks : List SyntaxKind) : Item.toTreeL (ks.map Item.tok) = ks.map PTree.tok := by
  induction ks with
  | nil => rfl
  | cons k ks ih => simp [Item.toTreeL, Item.toTree, ih]

private theorem symsE_of : ∀ is : List Item, symsE (Item.toTreeL is) = symsI is
  | [] => rfl
  | i :: is => by
    have := symsE_of is
    cases i <;> simp [Item.toTreeL, Item.toTree, symsE, symsI, symE, symI, this]

mutual
private theorem tolT_of : ∀ (i : Item), tolI i → tolT (Item.toTree i)
  | .tok _, _ => trivial
  | .err _, _ => trivial
  | .errNode cs e, h => by
    obtain ⟨ks, rfl⟩ := h
    exact ⟨ks, toTreeL_toks ks⟩
  | .node p k bf af, h => by
    obtain ⟨h1, h2, h3⟩ := h
    refine ⟨?_, (tolTL_append _ _).2 ⟨tolTL_of bf h2, tolTL_of af h3⟩⟩
    rw [symsE_append, symsE_of, symsE_of]; exact h1
private theorem tolTL_of : ∀ (is : List Item), tolIL is → tolTL (Item.toTreeL is)
  | [], _ => trivial
  | i :: is, h => ⟨tolT_of i h.1, tolTL_of is h.2⟩
end

private theorem parseKinds_tol {ks : List SyntaxKind} (hne : NE ks) {ts : List PTree}
    (h : parseKinds ks = .ok (calls (.node .sourceFile [.node .block ts]))) (hy : yieldL ts = ks) :
    (shape .block).Matches (symsE ts) ∧ tolTL ts := by
  have hs := root_spec ks hne 0 [] []
  rw [wpF_iff] at hs
  obtain ⟨a, s', h1, items, toks', ev', rfl, h2, h3, ⟨p, q, af, rfl⟩, h4, h5⟩ := hs
  subst h3
  have hi : At [([], [])] ⟨ks, 0, [], []⟩ := ⟨rfl, trivial⟩
  obtain ⟨acc, hk, -, -⟩ := EP.root (c := any) [] [] _ _ _ hi trivial h1
  obtain ⟨s2, h6, _, h7⟩ := run_process _ _ _ _ h1 rfl
  have hp : parseKinds ks = .ok (calls (.node .sourceFile [.node .block (Item.toTreeL af)])) := by
    simp only [parseKinds, h6]
    simpa [Item.toTreeL, Item.toTree, callsL] using h7
  have hyy : yieldL (Item.toTreeL af) = ks := by simp at h2; rw [h2]; rfl
  have e := parseKinds_ts h hy hp hyy
  rw [e, symsE_of]
  have hk2 := hk.2
  simp [tolIL, tolI, symsI, symI] at hk2
  exact ⟨hk2.2.1, tolTL_of af hk2.2.2⟩

/-! ### syntax trees -/

mutual
private def TolG : Green → Prop
  | .token _ _ => True
  | .node k cs => (shape k).Matches (symsG cs) ∧ TolGL cs
private def TolGL : List Green → Prop
  | [] => True
  | g :: gs => TolG g ∧ TolGL gs
end

private theorem TolGL_append (a b : List Green) : TolGL (a ++ b) ↔ TolGL a ∧ TolGL b := by
  induction a with
  | nil => simp [TolGL]
  | cons x xs ih => simp [TolGL, ih, and_assoc]

private theorem TolGL_leaves (ls : List Lx) : TolGL (ls.map leaf) := by
  induction ls with
  | nil => simp [TolGL]
  | cons x xs ih => simp [TolGL, TolG, leaf]; exact ih

private theorem toks_error (ks : List SyntaxKind) : (shape .error).Matches (symsE (ks.map PTree.tok)) := by
  induction ks with
  | nil => exact .nil
  | cons k ks ih => exact .more (x := [_]) (.one ⟨k, rfl⟩) ih

private theorem toks_tol (ks : List SyntaxKind) : tolTL (ks.map PTree.tok) := by
  induction ks with
  | nil => trivial
  | cons k ks ih => exact ⟨trivial, ih⟩

mutual
private theorem place_tol (n : Nat) (t : PTree) (todo : List Lx) (ks : List SyntaxKind)
    (h : realKinds todo = yield t ++ ks) (hs : tolT t) :
    TolGL (place n t todo).greens ∧ symsG (place n t todo).greens = symE t ∧ realKinds (place n t todo).rest = ks := by
  cases t with
  | tok k =>
    obtain ⟨w, r, h1, h2⟩ := afterTriv_of_kinds (show realKinds todo = k :: ks by simpa [yield] using h)
    simp only [place, h1]
    refine ⟨?_, ?_, h2⟩
    · rw [TolGL_append]; exact ⟨TolGL_leaves _, by simp [TolGL, TolG, leaf]⟩
    · have := afterTriv_head h1
      simp only [isTriv] at this
      rw [symsG_append, symsG_lead]
      simp [symsG, symG, leaf, this, symE]
  | err e => exact ⟨trivial, rfl, by simpa [place, yield] using h⟩
  | errNode cs e =>
    obtain ⟨xs, rfl⟩ := hs
    have hk : realKinds (afterTriv todo) = yieldL (xs.map PTree.tok) ++ ks := by
      rw [realKinds_afterTriv]; simpa [yield] using h
    obtain ⟨h1, h2, h3⟩ := placeL_tol n (xs.map PTree.tok) (afterTriv todo) ks hk (toks_tol xs)
    simp only [place]
    refine ⟨?_, ?_, h3⟩
    · rw [TolGL_append]
      refine ⟨TolGL_leaves _, ⟨?_, h1⟩, trivial⟩
      rw [h2]; exact toks_error xs
    · rw [symsG_append, symsG_lead]; rfl
  | node k cs =>
    simp only [tolT] at hs
    have hk : realKinds (afterTriv todo) = yieldL cs ++ ks := by rw [realKinds_afterTriv]; simpa [yield] using h
    obtain ⟨h1, h2, h3⟩ := placeL_tol n cs (afterTriv todo) ks hk hs.2
    simp only [place]
    refine ⟨?_, ?_, h3⟩
    · rw [TolGL_append]
      refine ⟨TolGL_leaves _, ⟨?_, h1⟩, trivial⟩
      rw [h2]; exact hs.1
    · rw [symsG_append, symsG_lead]; rfl
private theorem placeL_tol (n : Nat) (ts : List PTree) (todo : List Lx) (ks : List SyntaxKind)
    (h : realKinds todo = yieldL ts ++ ks) (hs : tolTL ts) :
    TolGL (placeL n ts todo).greens ∧ symsG (placeL n ts todo).greens = symsE ts ∧ realKinds (placeL n ts todo).rest = ks := by
  cases ts with
  | nil => exact ⟨trivial, rfl, by simpa [placeL, yieldL] using h⟩
  | cons t ts =>
    simp only [tolTL] at hs
    obtain ⟨h1, h2, h3⟩ := place_tol n t todo (yieldL ts ++ ks) (by simpa [yieldL] using h) hs.1
    obtain ⟨h4, h5, h6⟩ := placeL_tol n ts _ ks h3 hs.2
    simp only [placeL]
    refine ⟨(TolGL_append _ _).2 ⟨h1, h4⟩, ?_, h6⟩
    rw [symsG_append, h2, h5]; rfl
end

private theorem parseText_tol (text : Text) (tree : Green) (errors : List SyntaxError)
    (h : parseText text = .ok (tree, errors)) : TolG tree ∧ tree.isNode = true := by
  obtain ⟨ls, ts, h1, h2, h3, -, h5⟩ := parseText_main text
  rw [h5] at h
  simp only [Except.ok.injEq, Prod.mk.injEq] at h
  obtain ⟨rfl, -⟩ := h
  have hne : NE (realKinds (ls.map lxOf)) := by
    intro hm
    simp only [realKinds, List.mem_map] at hm
    obtain ⟨l, hl, e⟩ := hm
    exact (lexemes_lx h1).2.2.2 l (List.mem_filter.mp hl).1 e
  obtain ⟨hb, ht⟩ := parseKinds_tol hne h2 h3
  obtain ⟨p1, p2, p3⟩ := placeL_tol text.len ts (ls.map lxOf) [] (by simp [h3]) ht
  refine ⟨⟨.one rfl, ⟨?_, ?_⟩, trivial⟩, rfl⟩
  · rw [symsG_append, p2, symsG_triv _ p3, List.append_nil]
    exact hb
  · exact (TolGL_append _ _).2 ⟨p1, TolGL_leaves _⟩

private theorem TolGL_mem {cs : List Green} {g : Green} (h : TolGL cs) (hg : g ∈ cs) : TolG g := by
  induction cs with
  | nil => simp at hg
  | cons c cs ih =>
    simp only [TolGL] at h
    rcases List.mem_cons.1 hg with rfl | hg
    · exact h.1
    · exact ih h.2 hg

private theorem TolG_below {a r : Red} (h : TolG a.green) (hr : Below a r) : TolG r.green := by
  induction hr with
  | self => exact h
  | @child r c _ hc ih =>
    have := elemsFrom_green (List.mem_filter.1 hc).1
    rcases r with ⟨p, o, g⟩
    cases g with
    | token k t => simp [Green.children] at this
    | node k cs => exact TolGL_mem ih.2 this

/-- **C103**: the parts of every node of every file, with or without errors, have the shape of the node's kind. -/
theorem C103_shape (text : Text) (tree : Green) (errors : List SyntaxError) (h : parseText text = .ok (tree, errors))
    (r : Red) (hr : Below (Red.root tree) r) : (shape r.kind).Matches ((parts r).map sym) := by
  obtain ⟨h0, hn0⟩ := parseText_tol text tree errors h
  have h1 := TolG_below (a := Red.root tree) h0 hr
  have hn : r.green.isNode = true := by
    cases hr with
    | self => exact hn0
    | child _ hc => exact child_node hc
  rw [parts_syms]
  rcases r with ⟨p, o, g⟩
  cases g with
  | token k t => simp [Green.isNode] at hn
  | node k cs => exact h1.1

/-! ### the shapes and the productions -/

theorem Spec.Pat.Matches.optNil {a : Pat} : (opt a).Matches [] := .right .eps

private theorem seq' {a b : Pat} {x y z : List Sym} (h1 : a.Matches x) (h2 : b.Matches y) (e : z = x ++ y) : (a ⬝ b).Matches z :=
  e ▸ .seq h1 h2

private theorem more' {a : Pat} {x y z : List Sym} (h1 : a.Matches x) (h2 : (Pat.star a).Matches y) (e : z = x ++ y) :
    (Pat.star a).Matches z := e ▸ .more h1 h2

private theorem sep_of {sep : SyntaxKind} {item : Sym → Prop} {a : Pat} (ha : ∀ s, item s → a.Matches [s]) {ss : List Sym}
    (h : Separated sep item ss) : (sepBy sep a).Matches ss := by
  induction h with
  | one s hs => exact seq' (ha s hs) .nil (by simp)
  | cons s ss hs _ ih =>
    unfold sepBy at ih
    generalize e : a ⬝ Pat.star (tk sep ⬝ a) = q at ih
    cases ih with
    | seq h1 h2 =>
      cases e
      exact seq' (ha s hs) (more' (seq' (.one rfl) h1 rfl) h2 rfl) (by simp)
    | _ => cases e

private theorem sep_of_end {sep : SyntaxKind} {item : Sym → Prop} {a : Pat} (ha : ∀ s, item s → a.Matches [s])
    (h0 : a.Matches []) {ss : List Sym} (h : Separated sep item ss) : (sepBy sep a).Matches (ss ++ [.tok sep]) := by
  induction h with
  | one s hs => exact seq' (ha s hs) (more' (seq' (.one rfl) h0 rfl) .nil rfl) (by simp)
  | cons s ss hs _ ih =>
    unfold sepBy at ih
    generalize e : a ⬝ Pat.star (tk sep ⬝ a) = q at ih
    generalize e2 : ss ++ [Sym.tok sep] = zs at ih
    cases ih with
    | seq h1 h2 =>
      cases e
      refine seq' (ha s hs) (more' (seq' (.one rfl) h1 rfl) h2 rfl) ?_
      simp [e2]
    | _ => cases e

/-- The productions of an error-free file are instances of the error-tolerant shapes. -/
theorem C103_tolerant {k : SyntaxKind} {ss : List Sym} (h : Production k ss) : (shape k).Matches ss := by
  have ex : ∀ s, IsExpr s → expr?.Matches [s] := fun s h => .left (.left (.one h))
  have nm : name?.Matches [.node .name] := .left (.left (.one rfl))
  have nr : nameRef?.Matches [.node .nameRef] := .left (.left (.one rfl))
  have t : ∀ k, (tk k).Matches [.tok k] := fun k => .one rfl
  have to : ∀ k, (opt (tk k)).Matches [.tok k] := fun k => .left (.one rfl)
  have n : ∀ k, (nd k).Matches [.node k] := fun k => .one rfl
  have no : ∀ k, (opt (nd k)).Matches [.node k] := fun k => .left (.one rfl)
  have e0 : ∀ ss, ElseOpt ss → (opt (nds [.elseBranch, .elseIfBranch])).Matches ss := by
    rintro ss (_ | _ | _)
    · exact .right .eps
    · exact .left (.one ⟨_, by simp, rfl⟩)
    · exact .left (.one ⟨_, by simp, rfl⟩)
  cases h with
  | block ss h =>
    show (Pat.star _).Matches ss
    induction h with
    | nil => exact .nil
    | plain k ss hk _ ih => exact more' (seq' (.left (.one ⟨k, hk, rfl⟩)) .optNil rfl) ih rfl
    | semi k ss hk _ ih => exact more' (seq' (.left (.one ⟨k, hk, rfl⟩)) (to _) rfl) ih rfl
  | tableExpr ss h =>
    refine seq' (seq' (t _) ?_ rfl) (to _) rfl
    clear t
    induction h with
    | nil => exact .nil
    | last => exact more' (seq' (seq' (n _) .optNil rfl) .optNil rfl) .nil rfl
    | cons ss _ ih => exact more' (seq' (seq' (n _) .optNil rfl) (no _) rfl) ih rfl
  | multivalExpr ss h => exact sep_of (fun s h => ex s h) h
  | multiName ss h => exact sep_of (fun s h => by subst h; exact nm) h
  | multiNameEmpty => exact seq' .optNil .nil rfl
  | multiNameComma ss h =>
    exact sep_of_end (fun s h => by subst h; exact nm) .optNil h
  | indexPath ss h => exact sep_of (fun s h => by subst h; exact nr) h
  | indexPathDot ss h => exact sep_of_end (fun s h => by subst h; exact nr) .optNil h
  | infixExpr l op r h1 h2 h3 => exact seq' (seq' (.one h1) (.one ⟨op, h2, rfl⟩) rfl) (ex _ h3) rfl
  | ifStmt e ss h1 h2 =>
    exact seq' (seq' (seq' (seq' (seq' (t _) (ex _ h1) rfl) (to _) rfl) (n _) rfl) (e0 _ h2) rfl) (to _) (by simp)
  | elseIfBranch e ss h1 h2 =>
    exact seq' (seq' (seq' (seq' (t _) (ex _ h1) rfl) (to _) rfl) (n _) rfl) (e0 _ h2) (by simp)
  | callArgs s h =>
    simp only [List.mem_cons, List.not_mem_nil, or_false] at h
    rcases h with rfl | rfl | rfl
    · exact .left (.one ⟨_, by simp, rfl⟩)
    · exact .left (.one ⟨_, by simp, rfl⟩)
    · exact .right (t _)
  | tableContent k h => exact .left (.one ⟨k, h, rfl⟩)
  | forContent k h => exact .left (.one ⟨k, h, rfl⟩)
  | literal k h => exact .one ⟨k, h, rfl⟩
  | tableSep k h => exact .one ⟨k, h, rfl⟩
  | tableKey k h => exact .one ⟨k, h, rfl⟩
  | functionDefContent k h => exact .one ⟨k, h, rfl⟩
  | callExpr f h => exact seq' (.one h) (n _) rfl
  | methodCallExpr f h => exact seq' (seq' (seq' (.one h) (t _) rfl) (n _) rfl) (no _) rfl
  | indexExpr f h => exact seq' (.one h) (n _) rfl
  | dotExpr f h => exact seq' (seq' (.one h) (t _) rfl) (to _) rfl
  | prefixExpr op e h1 h2 => exact seq' (.one ⟨op, h1, rfl⟩) (ex _ h2) rfl
  | positionalValue e h => exact .one h
  | parenExpr e h => exact seq' (seq' (t _) (ex _ h) rfl) (to _) rfl
  | index e h => exact seq' (seq' (t _) (ex _ h) rfl) (to _) rfl
  | keyValue e h => exact seq' (seq' (n _) (to _) rfl) (ex _ h) rfl
  | whileStmt e h => exact seq' (seq' (seq' (seq' (t _) (ex _ h) rfl) (to _) rfl) (n _) rfl) (to _) rfl
  | repeatUntilStmt e h => exact seq' (seq' (seq' (t _) (n _) rfl) (to _) rfl) (ex _ h) rfl
  | genericFor e h => exact seq' (seq' (n _) (to _) rfl) (ex _ h) rfl
  | paramListEmpty => exact seq' (seq' (seq' (to _) .optNil rfl) .optNil rfl) (to _) rfl
  | paramList => exact seq' (seq' (seq' (to _) (no _) rfl) .optNil rfl) (to _) rfl
  | paramListVararg => exact seq' (seq' (seq' (to _) (no _) rfl) (.left (seq' (t _) .optNil rfl)) rfl) (to _) rfl
  | argListEmpty => exact seq' (seq' (t _) .optNil rfl) (to _) rfl
  | argList => exact seq' (seq' (t _) (no _) rfl) (to _) rfl
  | localNames => exact seq' (seq' (t _) (n _) rfl) .optNil rfl
  | localAssign => exact seq' (seq' (t _) (n _) rfl) (.left (seq' (t _) (n _) rfl)) rfl
  | returnNone => exact seq' (t _) .optNil rfl
  | returnStmt => exact seq' (t _) (no _) rfl
  | labelDelim => exact to _
  | nameRef => exact to _
  | labelStmt => exact seq' (seq' (n _) nm rfl) (n _) rfl
  | functionMethod => exact seq' (seq' (n _) (t _) rfl) nm rfl
  | functionStatic => exact seq' (n _) nm rfl
  | functionExpr => exact seq' (seq' (seq' (t _) (n _) rfl) (n _) rfl) (to _) rfl
  | functionDefStmt => exact seq' (seq' (seq' (seq' (t _) (n _) rfl) (n _) rfl) (n _) rfl) (to _) rfl
  | localFunctionDefStmt => exact seq' (seq' (seq' (seq' (seq' (t _) (t _) rfl) nm rfl) (n _) rfl) (n _) rfl) (to _) rfl
  | forStmt => exact seq' (seq' (seq' (seq' (t _) (n _) rfl) (to _) rfl) (n _) rfl) (to _) rfl
  | numericFor => exact seq' (seq' (n _) (t _) rfl) (n _) rfl
  | doStmt => exact seq' (seq' (t _) (n _) rfl) (to _) rfl
  | assignStmt => exact seq' (seq' (n _) (t _) rfl) (n _) rfl
  | gotoStmt => exact seq' (t _) (n _) rfl
  | elseBranch => exact seq' (t _) (n _) rfl
  | exprStmt => exact n _
  | breakStmt => exact t _
  | name => exact t _
  | sourceFile => exact n _
end Verif
