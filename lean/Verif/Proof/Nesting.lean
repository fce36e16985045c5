import Verif.Spec.Nesting
import Verif.Props.Joining
import Verif.Props.Trivia
import Verif.Proof.BlockPlace

/-
Splitting the tokens of a text, trees without white space and comments, and replacing a block.
-/
namespace Verif
open Lexer Lua Accept Spec PTree

namespace Nest

/-! ### the lexer -/

/-- A token stays what it is when the text ends behind it. -/
theorem reads_end {w : Text} {k : SyntaxKind} {r : Text} (h : Reads w k none r) : Reads w k none [] := by
  generalize e : (none : Option String) = err at h
  cases h with
  | keyword h1 h2 => exact .keyword h1 (by simp)
  | name h1 h2 h3 h4 => exact .name h1 h2 h3 (by simp)
  | space h1 h2 h3 => exact .space h1 h2 (by simp)
  | @operator s k rest h1 h2 h3 h4 =>
    refine .operator h1 (fun p hp hpre => h2 p hp ?_) (by simp) (by simp)
    rw [List.append_nil] at hpre
    exact hpre.trans (List.prefix_append _ _)
  | tilde h1 => exact .tilde (by simp)
  | number h1 h2 =>
    refine .number h1 fun p q hpq hp hs => ?_
    exact hp (List.append_eq_nil_iff.1 hpq.symm).1
  | quoted h1 h2 h3 => exact .quoted h1 h2 h3
  | quotedEnd => cases e
  | quotedLine => cases e
  | long h1 h2 => exact .long h1 h2
  | longBad => cases e
  | longEnd => cases e
  | lineComment h1 h2 h3 => exact .lineComment h1 h2 (.inl rfl)
  | @blockComment body closing line rest h1 h2 h3 h4 h5 =>
    refine .blockComment h1 h2 ?_ h4 (.inl rfl)
    rcases h3 with h3 | ⟨h3, h6, h7⟩
    · exact .inl h3
    · refine .inr ⟨h3, ?_⟩
      cases line with
      | nil => simp
      | cons c l => exact ⟨by simpa using h6, by simpa using h7⟩
  | blockCommentEnd h1 => exact .blockCommentEnd h1
  | other => cases e

/-- The tokens up to some place are the tokens of the text up to there, and the others those of the rest. -/
theorem lexemes_split {la lb : List Lexeme} : ∀ {text : Text}, Lexemes text (la ++ lb) → (∀ l ∈ la, l.err = none) →
    ∃ a b, text = a ++ b ∧ Lexemes a la ∧ Lexemes b lb ∧ a = (la.map (·.word)).flatten := by
  induction la with
  | nil => intro text h _; exact ⟨[], text, rfl, .nil, h, rfl⟩
  | cons l la ih =>
    intro text h he
    generalize hx : l :: la ++ lb = ls at h
    cases h with
    | nil => cases hx
    | @cons s l' rest ls h1 h2 =>
      simp only [List.cons_append, List.cons.injEq] at hx
      obtain ⟨rfl, rfl⟩ := hx
      obtain ⟨a, b, rfl, h3, h4, h5⟩ := ih h2 fun x hx => he x (by simp [hx])
      obtain ⟨w, k, err⟩ := l
      have e := h1.append
      simp only at e
      subst e
      obtain rfl : err = none := he ⟨w, k, err⟩ (by simp)
      obtain ⟨hw, hr⟩ := firstLexeme_reads.1 h1
      refine ⟨w ++ a, b, by simp, ?_, h4, by simp [h5]⟩
      refine Lexemes.cons (firstLexeme_reads.2 ⟨hw, ?_⟩) h3
      cases a with
      | nil => exact reads_end hr
      | cons c a => exact reads_next a hr

/-! ### trees without white space and comments -/

def real (ls : List Lx) : List Lx := ls.filter fun l => !isTriv l

mutual
def dress : PTree → List Lx → Green × List Lx
  | .tok k, [] => (.token k [], [])
  | .tok _, l :: ls => (leaf l, ls)
  | .err _, ls => (.token .error [], ls)
  | .errNode _ _, ls => (.token .error [], ls)
  | .node k cs, ls => (.node k (dressL cs ls).1, (dressL cs ls).2)
def dressL : List PTree → List Lx → List Green × List Lx
  | [], ls => ([], ls)
  | t :: ts, ls => ((dress t ls).1 :: (dressL ts (dress t ls).2).1, (dressL ts (dress t ls).2).2)
end

theorem real_append (a b : List Lx) : real (a ++ b) = real a ++ real b := by simp [real]

mutual
theorem dress_strip (k : SyntaxKind) (cs : List Green) (r : List Lx) :
    dress (strip (.node k cs)) (real (Green.leavesL cs) ++ r) = (withoutTrivia (.node k cs), r) := by
  have := dress_stripL cs r
  simp [strip, dress, this, withoutTrivia]
theorem dress_stripL (cs : List Green) (r : List Lx) :
    dressL (stripL cs) (real (Green.leavesL cs) ++ r) = (withoutTriviaL cs, r) := by
  match cs with
  | [] => simp [stripL, dressL, withoutTriviaL, Green.leavesL, real]
  | .token k w :: cs =>
    have ih := dress_stripL cs r
    by_cases hk : k.isTrivia = true
    · simp [stripL, withoutTriviaL, Green.leavesL, Green.leaves, hk, real_append]
      simpa [real, isTriv, hk] using ih
    · have e : real ((k, w) :: Green.leavesL cs) = (k, w) :: real (Green.leavesL cs) := by simp [real, isTriv, hk]
      simp [stripL, strip, withoutTriviaL, Green.leavesL, Green.leaves, hk, e, dressL, dress, ih, leaf]
  | .node k ds :: cs =>
    have ih := dress_stripL cs r
    have ih2 := dress_strip k ds (real (Green.leavesL cs) ++ r)
    simp [stripL, withoutTriviaL, Green.leavesL, Green.leaves, real_append, dressL, ih2, ih]
end

/-- A tree without white space and comments is given by its shape and its tokens. -/
theorem withoutTrivia_eq {k k' cs cs'} (h : strip (.node k cs) = strip (.node k' cs'))
    (hl : real (Green.leavesL cs) = real (Green.leavesL cs')) :
    withoutTrivia (.node k cs) = withoutTrivia (.node k' cs') := by
  have h1 := dress_strip k cs []
  have h2 := dress_strip k' cs' []
  rw [h, hl, h2] at h1
  exact (Prod.mk.inj h1).1.symm

/-- the nodes of a tree -/
def inner (g : Green) : List Green := (g.nodes 0).map (·.2)
def innerL (gs : List Green) : List Green := (Green.nodesL 0 gs).map (·.2)

mutual
theorem nodes_snd' (off off' : Nat) (g : Green) : (g.nodes off).map (·.2) = (g.nodes off').map (·.2) := by
  cases g with
  | token k w => simp [Green.nodes]
  | node k cs => simp [Green.nodes, nodesL_snd' off off' cs]
theorem nodesL_snd' (off off' : Nat) (gs : List Green) :
    (Green.nodesL off gs).map (·.2) = (Green.nodesL off' gs).map (·.2) := by
  cases gs with
  | nil => simp [Green.nodesL]
  | cons g gs =>
    simp [Green.nodesL, nodes_snd' off off' g, nodesL_snd' (off + g.len) (off' + g.len) gs]
end

theorem inner_node (k cs) : inner (.node k cs) = .node k cs :: innerL cs := by simp [inner, innerL, Green.nodes]
theorem inner_token (k w) : inner (.token k w) = [] := by simp [inner, Green.nodes]
theorem innerL_nil : innerL [] = [] := rfl
theorem innerL_cons (g gs) : innerL (g :: gs) = inner g ++ innerL gs := by
  simp only [innerL, inner, Green.nodesL, List.map_append]
  rw [nodesL_snd' (0 + g.len) 0]
theorem innerL_append (a b) : innerL (a ++ b) = innerL a ++ innerL b := by
  induction a with
  | nil => rfl
  | cons g gs ih => simp [innerL_cons, ih]

mutual
theorem inner_bare (g : Green) : inner (withoutTrivia g) = (inner g).map withoutTrivia := by
  cases g with
  | token k w => simp [withoutTrivia, inner_token]
  | node k cs => simp [withoutTrivia, inner_node, inner_bareL cs]
theorem inner_bareL (cs : List Green) : innerL (withoutTriviaL cs) = (innerL cs).map withoutTrivia := by
  match cs with
  | [] => simp [withoutTriviaL, innerL_nil]
  | .token k w :: cs =>
    have ih := inner_bareL cs
    by_cases hk : k.isTrivia = true
    · simp [withoutTriviaL, hk, innerL_cons, inner_token, ih]
    · simp [withoutTriviaL, hk, innerL_cons, inner_token, ih]
  | .node k ds :: cs =>
    simp [withoutTriviaL, innerL_cons, inner_bare (.node k ds), inner_bareL cs]
end

theorem kind_bare (g : Green) : (withoutTrivia g).kind = g.kind := by cases g <;> rfl

theorem nodesIn_bare (g : Green) : nodesIn (withoutTrivia g) = (nodesIn g).map withoutTrivia := by
  cases g with
  | token k w => rfl
  | node k cs =>
    simp only [nodesIn, withoutTrivia, Green.children]
    induction cs with
    | nil => rfl
    | cons c cs ih =>
      cases c with
      | token k w =>
        by_cases hk : k.isTrivia = true
        · simpa [withoutTriviaL, hk, Green.isNode] using ih
        · simpa [withoutTriviaL, hk, Green.isNode] using ih
      | node k ds =>
        simpa [withoutTriviaL, withoutTrivia, Green.isNode] using ih

def oneCall (ks : List SyntaxKind) : Prop :=
  ks.countP (fun c => c == .callExpr || c == .methodCallExpr) = 1 ∧
    ∀ c ∈ ks, c = .callExpr ∨ c = .methodCallExpr ∨ c = .parenExpr
def targets (ks : List SyntaxKind) : Prop :=
  ∀ c ∈ ks, c = .nameRef ∨ c = .dotExpr ∨ c = .indexExpr ∨ c = .parenExpr
def kinds (gs : List Green) : List SyntaxKind := gs.map (·.kind)

/-- what is required of a statement, from the kinds of the nodes in it -/
def stmtFine (g : Green) : Prop :=
  (g.kind = .exprStmt → ∃ m, nodesIn g = [m] ∧ m.kind = .multivalExpr ∧ oneCall (kinds (nodesIn m))) ∧
  (g.kind = .assignStmt → ∃ l r, nodesIn g = [l, r] ∧ l.kind = .multivalExpr ∧ r.kind = .multivalExpr ∧
    targets (kinds (nodesIn l)))

theorem fine_iff (g : Green) : Fine g ↔ stmtFine g ∧ ∀ w, g = .node .literal [.token .str w] → StringOk w := by
  have e1 : ∀ m : Green, oneCall (kinds (nodesIn m)) ↔
      ((nodesIn m).countP (fun c => c.kind == .callExpr || c.kind == .methodCallExpr) = 1 ∧
      ∀ c ∈ nodesIn m, c.kind = .callExpr ∨ c.kind = .methodCallExpr ∨ c.kind = .parenExpr) := by
    intro m; simp only [oneCall, kinds, List.countP_map, List.forall_mem_map]; rfl
  have e2 : ∀ m : Green, targets (kinds (nodesIn m)) ↔
      ∀ c ∈ nodesIn m, c.kind = .nameRef ∨ c.kind = .dotExpr ∨ c.kind = .indexExpr ∨ c.kind = .parenExpr := by
    intro m; simp only [targets, kinds, List.forall_mem_map]
  simp only [stmtFine, e1, e2]
  exact ⟨fun h => ⟨⟨h.exprStmt, h.assignStmt⟩, h.literal⟩, fun h => ⟨h.1.1, h.1.2, h.2⟩⟩

theorem kinds_bare (g : Green) : kinds (nodesIn (withoutTrivia g)) = kinds (nodesIn g) := by
  rw [nodesIn_bare]; simp [kinds, kind_bare]

theorem stmtFine_bare (g : Green) : stmtFine (withoutTrivia g) ↔ stmtFine g := by
  simp only [stmtFine, kind_bare, nodesIn_bare]
  constructor
  · rintro ⟨h1, h2⟩
    refine ⟨fun hk => ?_, fun hk => ?_⟩
    · obtain ⟨m, a, b, c⟩ := h1 hk
      obtain ⟨n, hn, rfl⟩ := List.map_eq_singleton_iff.1 a
      exact ⟨n, hn, by rw [← b, kind_bare], by rw [← kinds_bare]; exact c⟩
    · obtain ⟨l, r, a, b, c, d⟩ := h2 hk
      obtain ⟨l', x, hx, rfl, a'⟩ := List.map_eq_cons_iff.1 a
      obtain ⟨r', rfl, rfl⟩ := List.map_eq_singleton_iff.1 a'
      exact ⟨l', r', hx, by rw [← b, kind_bare], by rw [← c, kind_bare], by rw [← kinds_bare]; exact d⟩
  · rintro ⟨h1, h2⟩
    refine ⟨fun hk => ?_, fun hk => ?_⟩
    · obtain ⟨m, a, b, c⟩ := h1 hk
      exact ⟨withoutTrivia m, by simp [a], by rw [kind_bare, b], by rw [kinds_bare]; exact c⟩
    · obtain ⟨l, r, a, b, c, d⟩ := h2 hk
      exact ⟨withoutTrivia l, withoutTrivia r, by simp [a], by rw [kind_bare, b], by rw [kind_bare, c],
        by rw [kinds_bare]; exact d⟩

/-! ### replacing a block -/

theorem swap_rep {x y : Green} {vs ws a b g g'} (hx : x = .node .block vs) (hy : y = .node .block ws)
    (h : Swap x y a b g g') : RepL (stripL ws) [strip g] [strip g'] := by
  induction h with
  | here => subst hx hy; exact .here
  | @down k pre c c' post a b h ih =>
    have e : ∀ d : Green, d.isNode = true → stripL (pre ++ d :: post) = stripL pre ++ ([strip d] ++ stripL post) := by
      intro d hd
      cases d with
      | token => simp [Green.isNode] at hd
      | node => simp [stripL]
    have hn : c.isNode = true ∧ c'.isNode = true := by
      cases h with
      | here => subst hx hy; exact ⟨rfl, rfl⟩
      | down => exact ⟨rfl, rfl⟩
    simp only [strip, e c hn.1, e c' hn.2]
    exact .down (repL_append.2 (.inr ⟨_, repL_append.2 (.inl ⟨_, ih, rfl⟩), rfl⟩))

theorem swap_fine {x y : Green} {vs ws a b g g'} (hx : x = .node .block vs) (hy : y = .node .block ws)
    (h : Swap x y a b g g') (hg : ∀ n ∈ inner g, stmtFine n) (hyf : ∀ n ∈ inner y, stmtFine n)
    (hlit : ∀ n ∈ inner g, n.kind = .literal → ∃ l : Lx, n = .node .literal [leaf l]) :
    (∀ n ∈ inner g', stmtFine n) ∧ g'.kind = g.kind ∧ g.isNode = true ∧ g'.isNode = true ∧
      (g.kind ≠ .block → kinds (nodesIn g') = kinds (nodesIn g)) ∧
      ∀ n ∈ inner g', n.kind = .literal → n ∈ inner g ∨ n ∈ inner y := by
  induction h with
  | here =>
    refine ⟨hyf, by rw [hx, hy]; rfl, by rw [hx]; rfl, by rw [hy]; rfl, fun h => absurd (by rw [hx]; rfl) h, fun n hn _ => .inr hn⟩
  | @down k pre c c' post a b h ih =>
    have hin : ∀ d, inner (.node k (pre ++ d :: post)) = .node k (pre ++ d :: post) :: (innerL pre ++ (inner d ++ innerL post)) := by
      intro d; rw [inner_node, innerL_append, innerL_cons]
    obtain ⟨h1, h2, h3, h4, h5, h6⟩ := ih (fun n hn => hg n (by rw [hin]; simp [hn])) fun n hn => hlit n (by rw [hin]; simp [hn])
    have hnodes : ∀ d : Green, d.isNode = true → nodesIn (.node k (pre ++ d :: post)) =
        pre.filter (·.isNode) ++ d :: post.filter (·.isNode) := by
      intro d hd; simp [nodesIn, Green.children, hd]
    have hk : kinds (nodesIn (.node k (pre ++ c' :: post))) = kinds (nodesIn (.node k (pre ++ c :: post))) := by
      simp [hnodes c h3, hnodes c' h4, kinds, h2]
    have hs : stmtFine (.node k (pre ++ c' :: post)) := by
      have := hg (.node k (pre ++ c :: post)) (by rw [hin]; simp)
      refine ⟨fun hk => ?_, fun hk => ?_⟩
      · obtain ⟨m, e1, e2, e3⟩ := this.1 hk
        rw [hnodes c h3] at e1
        rw [hnodes c' h4]
        cases hp : pre.filter (·.isNode) with
        | cons p ps => rw [hp] at e1; simp at e1
        | nil =>
          rw [hp] at e1
          simp only [List.nil_append, List.cons.injEq] at e1
          obtain ⟨rfl, e1⟩ := e1
          refine ⟨c', by simp [e1], by rw [h2, e2], by rw [h5 (by rw [e2]; simp)]; exact e3⟩
      · obtain ⟨l, r, e1, e2, e3, e4⟩ := this.2 hk
        rw [hnodes c h3] at e1
        rw [hnodes c' h4]
        cases hp : pre.filter (·.isNode) with
        | nil =>
          rw [hp] at e1
          simp only [List.nil_append, List.cons.injEq] at e1
          obtain ⟨rfl, e1⟩ := e1
          exact ⟨c', r, by simp [e1], by rw [h2, e2], e3, by rw [h5 (by rw [e2]; simp)]; exact e4⟩
        | cons p ps =>
          rw [hp] at e1
          simp only [List.cons_append, List.cons.injEq] at e1
          obtain ⟨rfl, e1⟩ := e1
          cases ps with
          | cons q qs => simp at e1
          | nil =>
            simp only [List.nil_append, List.cons.injEq] at e1
            obtain ⟨rfl, e1⟩ := e1
            exact ⟨p, c', by simp [e1], e2, by rw [h2, e3], e4⟩
    refine ⟨?_, rfl, rfl, rfl, fun _ => hk, ?_⟩
    · intro n hn
      rw [hin] at hn
      simp only [List.mem_cons, List.mem_append] at hn
      rcases hn with rfl | hn | hn | hn
      · exact hs
      · exact hg n (by rw [hin]; simp [hn])
      · exact h1 n hn
      · exact hg n (by rw [hin]; simp [hn])
    · intro n hn hl
      rw [hin] at hn ⊢
      simp only [List.mem_cons, List.mem_append] at hn ⊢
      rcases hn with rfl | hn | hn | hn
      · obtain ⟨l, hl⟩ := hlit (.node k (pre ++ c :: post)) (by rw [hin]; simp) hl
        simp only [Green.node.injEq] at hl
        have : c ∈ [leaf l] := by rw [← hl.2]; simp
        simp only [List.mem_singleton] at this
        subst this
        simp [leaf, Green.isNode] at h3
      · exact .inl (.inr (.inl hn))
      · rcases h6 n hn hl with h | h
        · exact .inl (.inr (.inr (.inl h)))
        · exact .inr h
      · exact .inl (.inr (.inr (.inr hn)))

/-! ### what stands before a block -/

theorem solidL_last {a b : List PTree} {t : PTree} (h : solidL (a ++ t :: b) = true) (hb : yieldL b = []) :
    b = [] ∧ solid t = true := by
  induction a with
  | nil =>
    cases b with
    | nil => exact ⟨rfl, by simpa [solidL] using h⟩
    | cons u b => exact absurd hb (solidL_yield (by simpa [solidL] using h))
  | cons u a ih =>
    refine ih ?_
    cases e : a ++ t :: b with
    | nil => simp at e
    | cons x y => rw [List.cons_append, e] at h; simpa [solidL] using h

theorem yieldL_real (cs : List Green) : yieldL (stripL cs) = (real (Green.leavesL cs)).map (·.1) := by
  rw [yield_stripL]; simp [real, isTriv, List.filter_map, Function.comp_def]

/-- an empty node is not the last thing in a statement -/
theorem empty_inside {x g : Green} {p a b} (h : Ctx x g p a b) (hx : x.isNode = true) (he : x.leaves = [])
    (hs : solid (strip g) = true) : real b ≠ [] := by
  induction h with
  | here =>
    intro _
    cases x with
    | token => simp [Green.isNode] at hx
    | node k cs =>
      refine solid_yield hs ?_
      have : Green.leavesL cs = [] := he
      simp [strip, PTree.yield, yieldL_real, this, real]
  | @down k pre c post p a b h ih =>
    intro hb
    rw [real_append, List.append_eq_nil_iff] at hb
    have hn : c.isNode = true := by
      cases h with
      | here => exact hx
      | down => rfl
    have e : stripL (pre ++ c :: post) = stripL pre ++ strip c :: stripL post := by
      cases c with
      | token => simp [Green.isNode] at hn
      | node => simp [stripL]
    simp only [strip, solid, e] at hs
    exact ih (solidL_last hs (by rw [yieldL_real, hb.2]; rfl)).2 hb.1

theorem errs_none {ls : List Lexeme} (pos : Nat) : (attach pos ls).filterMap (·.2) = [] ↔ ∀ l ∈ ls, l.err = none := by
  induction ls generalizing pos with
  | nil => simp [attach]
  | cons l ls ih =>
    simp only [attach, List.filterMap_cons, List.mem_cons, forall_eq_or_imp, ← ih (pos + l.word.len)]
    cases l.err <;> simp

/-- A comment ends at the end of its line. -/
theorem comment_next {w : Text} {r : Text} (h : Reads w .comment none r) : r = [] ∨ r.head? = some '\n' := by
  generalize hk : SyntaxKind.comment = k at h
  cases h with
  | lineComment _ _ h => exact h
  | blockComment _ _ _ _ h => exact h
  | blockCommentEnd => exact .inl rfl
  | keyword hm =>
    have : ∀ p ∈ keywords, p.2 ≠ .comment := by decide
    exact absurd hk.symm (this _ hm)
  | operator hm =>
    have : ∀ p ∈ operators, p.2 ≠ .comment := by decide
    exact absurd hk.symm (this _ hm)
  | _ => cases hk

theorem newline_space {l : Lexeme} {s r : Text} (h : FirstLexeme s l r) (hs : s.head? = some '\n') : l.kind = .whitespace := by
  obtain ⟨w, k, e⟩ := l
  have ha := h.append
  simp only at ha
  subst ha
  obtain ⟨hw, hr⟩ := firstLexeme_reads.1 h
  cases w with
  | nil => exact absurd rfl hw
  | cons c w =>
    simp at hs
    subst hs
    generalize hx : '\n' :: w = x at hr
    cases hr with
    | space => rfl
    | @keyword s k rest hm h2 =>
      have : ∀ p ∈ keywords, p.1.toList.head? ≠ some '\n' := by decide
      exact absurd (by rw [← hx]; rfl) (this _ hm)
    | @operator s k rest hm h2 =>
      have : ∀ p ∈ operators, p.1.toList.head? ≠ some '\n' := by decide
      exact absurd (by rw [← hx]; rfl) (this _ hm)
    | name h1 => simp at hx; rw [← hx.1] at h1; exact absurd h1 (by decide)
    | tilde => simp at hx
    | number h1 =>
      subst hx
      exact absurd (number_prefix (u := ['\n']) (v := w) (by simp) h1) fun h => newline_number (w := []) h
    | quoted h1 => simp at hx; rw [← hx.1] at h1; exact absurd h1 (by decide)
    | quotedEnd h1 => simp at hx; rw [← hx.1] at h1; exact absurd h1 (by decide)
    | quotedLine h1 => simp at hx; rw [← hx.1] at h1; exact absurd h1 (by decide)
    | long => simp [longOpen] at hx
    | longBad => simp at hx
    | longEnd => simp at hx
    | lineComment => simp at hx
    | blockComment => simp at hx
    | blockCommentEnd => simp at hx
    | other _ _ h1 => simp at hx; rw [← hx.1] at h1; exact absurd (by decide) h1

/-- where a block is: it is the block of the file, or inside one of its statements -/
theorem block_place {x : Green} {gs : List Green} {p a b} (hx : x.kind = .block)
    (h : Ctx x (.node .sourceFile [.node .block gs]) p a b) : a = [] ∨
    ∃ pre c post p' a' b', gs = pre ++ c :: post ∧ Ctx x c p' a' b' ∧ p = 0 :: pre.length :: p' ∧
      a = Green.leavesL pre ++ a' ∧ b = b' ++ Green.leavesL post := by
  generalize hg : Green.node .sourceFile [.node .block gs] = g at h
  cases h with
  | here => subst hg; simp [Green.kind] at hx
  | @down k pre c post p a b h =>
    simp only [Green.node.injEq] at hg
    obtain ⟨rfl, hg⟩ := hg
    cases pre with
    | cons q pre => simp at hg
    | nil =>
      simp only [List.nil_append, List.cons.injEq] at hg
      obtain ⟨rfl, rfl⟩ := hg
      generalize hc : Green.node .block gs = c at h
      cases h with
      | here => exact .inl rfl
      | @down k pre c post p a b h =>
        simp only [Green.node.injEq] at hc
        obtain ⟨rfl, rfl⟩ := hc
        exact .inr ⟨pre, c, post, p, a, b, rfl, h, by simp, by simp [Green.leavesL], by simp [Green.leavesL]⟩

theorem wlen_words (l : List Lexeme) : wlen (l.map lxOf) = Text.len (l.map (·.word)).flatten := by
  induction l with
  | nil => rfl
  | cons x l ih => simp [wlen, wordsOf, lxOf, Function.comp_def] at ih ⊢

/-- What stands before a block is not a comment. -/
theorem before_block {text : Text} {gs : List Green} (p1 : parseText text = .ok (.node .sourceFile [.node .block gs], []))
    {la lr : List Lexeme} (l1 : Lexemes text (la ++ lr)) (x1 : ∀ l ∈ la ++ lr, l.err = none) {r : Red} {b : List Lx}
    (hk : r.green.kind = .block) (hn : r.green.isNode = true)
    (ctx : Ctx r.green (.node .sourceFile [.node .block gs]) r.path (la.map lxOf) b)
    (hlr : r.green.leaves ++ b = lr.map lxOf) : ∀ l, la.getLast? = some l → l.kind = .comment → False := by
  intro l hl hlk
  obtain ⟨ini, rfl⟩ : ∃ ini, la = ini ++ [l] := by
    have hne : la ≠ [] := by rintro rfl; simp at hl
    rw [List.getLast?_eq_some_getLast hne] at hl
    simp only [Option.some.injEq] at hl
    exact ⟨la.dropLast, by rw [← hl]; exact (List.dropLast_concat_getLast hne).symm⟩
  rcases block_place hk ctx with h0 | ⟨pre, c, post, p', a', b', rfl, hctx, hpath, ha, hb'⟩
  · simp at h0
  have hp : 2 ≤ r.path.length := by rw [hpath]; simp
  have hnext := starts_real p1 hp ctx hn
  cases hnil : lr with
  | nil =>
    subst hnil
    obtain ⟨hlo, hb0⟩ := List.append_eq_nil_iff.1 hlr
    subst hb0
    have hsol : solidL (stripL (pre ++ c :: post)) = true := by
      obtain ⟨b0, hb0, hd⟩ := (strip_tree _ _ p1)
      simp only [strip, stripL, PTree.node.injEq, List.cons.injEq, and_true, true_and] at hb0
      subst hb0
      cases hd with
      | block _ hd =>
        refine deriv_solid hd (by simp) (by simp) ?_
        have hcn : c.isNode = true := by
          cases hctx with
          | here => exact hn
          | down => rfl
        cases c with
        | token => simp [Green.isNode] at hcn
        | node => simp [stripL]
    have hcn : stripL (pre ++ c :: post) = stripL pre ++ strip c :: stripL post := by
      have hcn : c.isNode = true := by
        cases hctx with
        | here => exact hn
        | down => rfl
      cases c with
      | token => simp [Green.isNode] at hcn
      | node => simp [stripL]
    rw [hcn] at hsol
    obtain ⟨rfl, hpost⟩ := List.append_eq_nil_iff.1 hb'.symm
    exact empty_inside hctx hn hlo (solidL_last hsol (by rw [yieldL_real, hpost]; rfl)).2 rfl
  | cons l' rest =>
    rw [hnil] at l1
    have hl' : isTriv (lxOf l') = false := by
      refine hnext (lxOf l') ?_
      rw [hlr, hnil]; rfl
    obtain ⟨A3, R3, e3, h3, h4, w3⟩ := lexemes_split (la := ini) (lb := l :: l' :: rest) (by simpa using l1)
      fun x hx => x1 x (by simp [hx])
    generalize hz : l :: l' :: rest = z at h4
    cases h4 with
    | nil => cases hz
    | @cons _ l0 r0 ls0 g1 g2 =>
      simp only [List.cons.injEq] at hz
      obtain ⟨rfl, rfl⟩ := hz
      generalize hz : l' :: rest = z at g2
      cases g2 with
      | nil => cases hz
      | @cons _ l0 r1 ls0 g3 g4 =>
        simp only [List.cons.injEq] at hz
        obtain ⟨rfl, rfl⟩ := hz
        have hne : r0 ≠ [] := by
          rintro rfl
          exact g3.word_ne (List.append_eq_nil_iff.1 g3.append.symm).1
        obtain ⟨w, k, err⟩ := l
        have e := g1.append
        simp only at e hlk
        subst e hlk
        obtain rfl : err = none := x1 ⟨w, .comment, err⟩ (by simp)
        rcases comment_next (firstLexeme_reads.1 g1).2 with h0 | h0
        · exact hne h0
        · have := newline_space g3 h0
          simp [isTriv, lxOf, this, SyntaxKind.isTrivia] at hl'

/-! ### lists of statements -/

/-- a list of statements, or what is left of one behind a statement and before its semicolon -/
def Tail (us : List PTree) : Prop :=
  Deriv .accepted .stmts us ∨ ∃ us', us = .tok .semicolon :: us' ∧ Deriv .accepted .stmts us'

theorem stmts_split {a b : List PTree} (h : Deriv .accepted .stmts (a ++ b)) : Deriv .accepted .stmts a ∧ Tail b := by
  generalize hn : NT.stmts = nt at h
  generalize hc : a ++ b = c at h
  induction h generalizing a b with
  | stmtsNil =>
    obtain ⟨rfl, rfl⟩ := List.append_eq_nil_iff.1 hc
    exact ⟨.stmtsNil, .inl .stmtsNil⟩
  | stmtsCons s ts h1 h2 h3 ih1 ih2 =>
    cases a with
    | nil => simp only [List.nil_append] at hc; subst hc; exact ⟨.stmtsNil, .inl (.stmtsCons s ts h1 h2 h3)⟩
    | cons x a =>
      simp only [List.cons_append, List.cons.injEq] at hc
      obtain ⟨rfl, hc⟩ := hc
      obtain ⟨i1, i2⟩ := ih2 rfl hc
      refine ⟨.stmtsCons x a h1 i1 fun k hk => h3 k ?_, i2⟩
      rw [← hc, yieldL_append]
      cases hy : yieldL a with
      | nil => rw [hy] at hk; simp at hk
      | cons y ys => rw [hy] at hk; simpa using hk
  | stmtsSemi s ts h1 h2 ih1 ih2 =>
    cases a with
    | nil => simp only [List.nil_append] at hc; subst hc; exact ⟨.stmtsNil, .inl (.stmtsSemi s ts h1 h2)⟩
    | cons x a =>
      simp only [List.cons_append, List.cons.injEq] at hc
      obtain ⟨rfl, hc⟩ := hc
      cases a with
      | nil =>
        simp only [List.nil_append] at hc
        subst hc
        exact ⟨.stmtsCons x [] h1 .stmtsNil (by simp [yieldL]), .inr ⟨ts, rfl, h2⟩⟩
      | cons y a =>
        simp only [List.cons_append, List.cons.injEq] at hc
        obtain ⟨rfl, hc⟩ := hc
        obtain ⟨i1, i2⟩ := ih2 rfl hc
        exact ⟨.stmtsSemi x a h1 i1, i2⟩
  | _ => cases hn

theorem stmts_glue {ts us : List PTree} (h : Deriv .accepted .stmts ts) (hu : Tail us)
    (hk : KeepsApart (yieldL ts) (yieldL us))
    (hs : us.head? = some (.tok .semicolon) → ∃ k, (yieldL ts).getLast? = some k ∧ k ≠ .semicolon) :
    Deriv .accepted .stmts (ts ++ us) := by
  generalize hn : NT.stmts = nt at h
  induction h with
  | stmtsNil =>
    rcases hu with hu | ⟨us', rfl, -⟩
    · exact hu
    · obtain ⟨k, hk, -⟩ := hs rfl
      simp [yieldL] at hk
  | stmtsCons s ts h1 h2 h3 ih1 ih2 =>
    by_cases he : ts = []
    · subst he
      have hl := last_not_semi h1 (by simp)
      have hsol := deriv_solid h1 (by simp) (by simp) (by simp)
      have hne := solidL_yield hsol
      simp only [yieldL, List.append_nil] at hl hk hne
      rcases hu with hu | ⟨us', rfl, hu⟩
      · refine .stmtsCons s us h1 hu fun k' hk' => ?_
        cases hq : (yield s).getLast? with
        | none => simp at hq; exact absurd hq hne
        | some k =>
          rcases hk k k' hq hk' with rfl | ⟨a, b⟩
          · exact absurd hq hl
          · refine ⟨fun e => absurd e a, ?_⟩
            rintro rfl
            exact b (by simpa [PTree.yield, yieldL] using hq.symm)
      · exact .stmtsSemi s us' h1 hu
    · have hy : yieldL ts ≠ [] := solidL_yield (deriv_solid h2 (by simp) (by simp) he)
      have hg : (yieldL (s :: ts)).getLast? = (yieldL ts).getLast? := by
        simp only [yieldL, List.getLast?_append]
        cases hq : (yieldL ts).getLast? with
        | none => simp at hq; exact absurd hq hy
        | some k => rfl
      refine .stmtsCons s _ h1 (ih2 ?_ ?_ rfl) fun k hk' => h3 k ?_
      · intro k k' a b
        exact hk k k' (by rw [hg]; exact a) b
      · intro hh
        obtain ⟨k, a, b⟩ := hs hh
        exact ⟨k, by rw [← hg]; exact a, b⟩
      · rw [show ts.append us = ts ++ us from rfl, yieldL_append] at hk'
        cases hq : yieldL ts with
        | nil => exact absurd hq hy
        | cons x xs => rw [hq] at hk'; simpa using hk'
  | stmtsSemi s ts h1 h2 ih1 ih2 =>
    by_cases he : ts = []
    · subst he
      rcases hu with hu | ⟨us', rfl, hu⟩
      · exact .stmtsSemi s us h1 hu
      · obtain ⟨k, a, b⟩ := hs rfl
        simp [yieldL, PTree.yield, List.getLast?_append] at a
        exact absurd a.symm b
    · have hy : yieldL ts ≠ [] := solidL_yield (deriv_solid h2 (by simp) (by simp) he)
      have hg : (yieldL (s :: .tok .semicolon :: ts)).getLast? = (yieldL ts).getLast? := by
        simp only [yieldL, List.getLast?_append]
        cases hq : (yieldL ts).getLast? with
        | none => simp at hq; exact absurd hq hy
        | some k => rfl
      refine .stmtsSemi s _ h1 (ih2 ?_ ?_ rfl)
      · intro k k' a b
        exact hk k k' (by rw [hg]; exact a) b
      · intro hh
        obtain ⟨k, a, b⟩ := hs hh
        exact ⟨k, by rw [← hg]; exact a, b⟩
  | _ => cases hn

/-- new statements between old ones -/
theorem stmts_splice {a b c : List PTree} (ha : Deriv .accepted .stmts a) (hb : Deriv .accepted .stmts b) (hc : Tail c)
    (h1 : KeepsApart (yieldL a) (yieldL b ++ yieldL c)) (h2 : KeepsApart (yieldL a ++ yieldL b) (yieldL c))
    (h3 : (yieldL c).head? = some .semicolon → ∃ k, (yieldL a ++ yieldL b).getLast? = some k ∧ k ≠ .semicolon) :
    Deriv .accepted .stmts (a ++ b ++ c) := by
  have hsemi : c.head? = some (.tok .semicolon) → (yieldL c).head? = some .semicolon := by
    cases c with
    | nil => simp
    | cons x c => simp; rintro rfl; simp [yieldL, PTree.yield]
  by_cases he : b = []
  · subst he
    simp only [yieldL, List.append_nil, List.nil_append] at h1 h2 h3 ⊢
    exact stmts_glue ha hc h2 fun h => h3 (hsemi h)
  · have hy : yieldL b ≠ [] := solidL_yield (deriv_solid hb (by simp) (by simp) he)
    have hg : (yieldL a ++ yieldL b).getLast? = (yieldL b).getLast? := by
      rw [List.getLast?_append]
      cases hq : (yieldL b).getLast? with
      | none => simp at hq; exact absurd hq hy
      | some k => rfl
    have hbc : Deriv .accepted .stmts (b ++ c) := by
      refine stmts_glue hb hc ?_ fun h => ?_
      · intro k k' x y; exact h2 k k' (by rw [hg]; exact x) y
      · obtain ⟨k, x, y⟩ := h3 (hsemi h)
        exact ⟨k, by rw [← hg]; exact x, y⟩
    rw [List.append_assoc]
    refine stmts_glue ha (.inl hbc) (by rw [yieldL_append]; exact h1) fun h => ?_
    cases hb with
    | stmtsNil => exact absurd rfl he
    | stmtsCons s ts d =>
      simp only [List.cons_append, List.head?_cons, Option.some.injEq] at h
      subst h; cases d
    | stmtsSemi s ts d =>
      simp only [List.cons_append, List.head?_cons, Option.some.injEq] at h
      subst h; cases d

/-! ### the blocks of a derivation -/

def BlocksOk (x : Dialect) (t : PTree) : Prop := ∀ cs, Sub (.node .block cs) t → Deriv x .block [.node .block cs]

theorem blocks_tok (x k) : BlocksOk x (.tok k) := by
  intro s h; cases h

theorem blocks_node {x k cs} (h : ∀ c ∈ cs, BlocksOk x c) (hk : k ≠ .block) : BlocksOk x (.node k cs) := by
  intro s hs
  cases hs with
  | refl => exact absurd rfl hk
  | node _ c _ hc hs => exact h c hc s hs

/-- every block inside a derivation is derived -/
theorem deriv_blocks {x nt ts} (h : Deriv x nt ts) : ∀ t ∈ ts, BlocksOk x t := by
  have hn : BlocksOk x nameT := blocks_node (by simp [blocks_tok]) (by simp)
  have hr : BlocksOk x nameRefT := blocks_node (by simp [blocks_tok]) (by simp)
  induction h with
  | block ts h ih =>
    simp only [List.mem_singleton, forall_eq]
    intro cs hs
    cases hs with
    | refl => exact .block _ h
    | node _ c _ hc hs => exact ih c hc cs hs
  | _ =>
    simp_all only [List.mem_cons, List.mem_append, List.mem_singleton, List.not_mem_nil, or_false,
      forall_eq_or_imp, forall_eq, and_true, or_imp, forall_and, false_implies, implies_true]
    repeat' first
      | exact blocks_tok _ _
      | assumption
      | refine ⟨?_, ?_⟩
      | refine blocks_node ?_ (by simp)
      | (simp_all only [List.mem_cons, List.mem_append, List.mem_singleton, List.not_mem_nil, or_false,
          forall_eq_or_imp, forall_eq, and_true, or_imp, forall_and, false_implies, implies_true])

end Nest
end Verif
