import Verif.Proof.NodePlace
import Verif.Proof.Nesting

/-
Replacing a self-closing construct: the tokens and the checks.
-/
namespace Verif
namespace Pst
open Lexer Accept Spec PTree Lua Nest

/-- Behind some tokens the text may change, if its first character stays. -/
theorem lexemes_change {la lb lb' : List Lexeme} {b b' : Text} (hb : Lexemes b lb) (hb' : Lexemes b' lb')
    (hc : b.head? = b'.head?) : ∀ {text : Text}, Lexemes text (la ++ lb) →
    Lexemes ((la.map (·.word)).flatten ++ b') (la ++ lb') := by
  induction la with
  | nil => intro _ _; exact hb'
  | cons l la ih =>
    intro text h
    generalize hx : l :: la ++ lb = ls at h
    cases h with
    | nil => cases hx
    | @cons s l' rest ls h1 h2 =>
      simp only [List.cons_append, List.cons.injEq] at hx
      obtain ⟨rfl, rfl⟩ := hx
      have ih := ih h2
      have hr : rest = (la.map (·.word)).flatten ++ b := by
        rw [← h2.flatten, ← hb.flatten]; simp
      obtain ⟨w, k, err⟩ := l
      have e := h1.append
      simp only at e
      subst e
      obtain ⟨hw, hr1⟩ := firstLexeme_reads.1 h1
      have hhead : rest.head? = ((la.map (·.word)).flatten ++ b').head? := by
        rw [hr, List.head?_append, List.head?_append, hc]
      have := Lexemes.cons (firstLexeme_reads.2 ⟨hw, (show Reads w k err ((la.map (·.word)).flatten ++ b') from ?_)⟩) ih
      · simpa using this
      · cases hq : (la.map (·.word)).flatten ++ b' with
        | nil =>
          rw [hq] at hhead
          simp only [List.head?_nil, List.head?_eq_none_iff] at hhead
          rw [hhead] at hr1
          exact hr1
        | cons c r2 =>
          rw [hq] at hhead
          cases rest with
          | nil => simp at hhead
          | cons c' r1 =>
            simp only [List.head?_cons, Option.some.injEq] at hhead
            subst hhead
            exact reads_next r2 hr1

def fixedKinds : List SyntaxKind := selfClosing.map opener ++ selfClosing.map closer
def wordOf (k : SyntaxKind) : Option String := ((keywords ++ operators).find? (·.2 == k)).map (·.1)

theorem fixed_reads {w : Text} {k : SyntaxKind} {r : Text} (h : Reads w k none r) (hk : k ∈ fixedKinds) :
    some w = (wordOf k).map String.toList := by
  cases h with
  | keyword h1 h2 =>
    have : ∀ p ∈ keywords, p.2 ∈ fixedKinds → some p.1.toList = (wordOf p.2).map String.toList := by decide
    exact this _ h1 hk
  | operator h1 h2 =>
    have : ∀ p ∈ operators, p.2 ∈ fixedKinds → some p.1.toList = (wordOf p.2).map String.toList := by decide
    exact this _ h1 hk
  | _ => exact absurd hk (by decide)

theorem lexemes_reads {text : Text} {ls : List Lexeme} (h : Lexemes text ls) : ∀ l ∈ ls, ∃ r, Reads l.word l.kind l.err r := by
  induction h with
  | nil => simp
  | @cons s l rest ls h1 _ ih =>
    intro l' hl
    simp only [List.mem_cons] at hl
    rcases hl with rfl | hl
    · have e := h1.append
      subst e
      exact ⟨rest, (firstLexeme_reads.1 h1).2⟩
    · exact ih l' hl

/-- Tokens of a kind that is spelled in one way are the same. -/
theorem fixed_same {t1 t2 : Text} {ls1 ls2 : List Lexeme} {l1 l2 : Lexeme} (h1 : Lexemes t1 ls1) (h2 : Lexemes t2 ls2)
    (m1 : l1 ∈ ls1) (m2 : l2 ∈ ls2) (e1 : l1.err = none) (e2 : l2.err = none) (hk : l1.kind = l2.kind)
    (hf : l1.kind ∈ fixedKinds) : l1 = l2 := by
  obtain ⟨r1, p1⟩ := lexemes_reads h1 l1 m1
  obtain ⟨r2, p2⟩ := lexemes_reads h2 l2 m2
  rw [e1] at p1
  rw [e2] at p2
  have q1 := fixed_reads p1 hf
  have q2 := fixed_reads p2 (hk ▸ hf)
  rw [← hk, ← q1] at q2
  obtain ⟨w1, k1, x1⟩ := l1
  obtain ⟨w2, k2, x2⟩ := l2
  simp only at *
  subst hk e1 e2
  simp only [Option.some.injEq] at q2
  rw [q2]

theorem swap_fine {K : SyntaxKind} (hK : K ∈ selfClosing) {x y : Green} {vs ws a b g g'} (hx : x = .node K vs) (hy : y = .node K ws)
    (h : Swap x y a b g g') (hg : ∀ n ∈ inner g, stmtFine n) (hyf : ∀ n ∈ inner y, stmtFine n)
    (hlit : ∀ n ∈ inner g, n.kind = .literal → ∃ l : Lx, n = .node .literal [leaf l]) :
    (∀ n ∈ inner g', stmtFine n) ∧ g'.kind = g.kind ∧ g.isNode = true ∧ g'.isNode = true ∧
      (g.kind ≠ K → kinds (nodesIn g') = kinds (nodesIn g)) ∧
      ∀ n ∈ inner g', n.kind = .literal → n ∈ inner g ∨ n ∈ inner y := by
  have hm : SyntaxKind.multivalExpr ≠ K := by rintro rfl; revert hK; decide
  induction h with
  | here =>
    refine ⟨hyf, by rw [hx, hy]; rfl, by rw [hx]; rfl, by rw [hy]; rfl, fun h => absurd (by rw [hx]; rfl) h, fun n hn _ => .inr hn⟩
  | @down k pre c c' post a b h ih =>
    have hin : ∀ d, inner (.node k (pre ++ d :: post)) = .node k (pre ++ d :: post) :: (innerL pre ++ (inner d ++ innerL post)) := by
      intro d; rw [inner_node, innerL_append, innerL_cons]
    obtain ⟨h1, h2, h3, h4, h5, h6⟩ := ih (fun n hn => hg n (by rw [hin]; simp [hn])) fun n hn => hlit n (by rw [hin]; simp [hn])
    have hnodes : ∀ d : Green, d.isNode = true → nodesIn (.node k (pre ++ d :: post)) =
        pre.filter (·.isNode) ++ d :: post.filter (·.isNode) := by
      intro d hd; simp [nodesIn, Green.children, hd]
    have hk : kinds (nodesIn (.node k (pre ++ c' :: post))) = kinds (nodesIn (.node k (pre ++ c :: post))) := by
      simp [hnodes c h3, hnodes c' h4, kinds, h2]
    have hs : stmtFine (.node k (pre ++ c' :: post)) := by
      have := hg (.node k (pre ++ c :: post)) (by rw [hin]; simp)
      refine ⟨fun hk => ?_, fun hk => ?_⟩
      · obtain ⟨m, e1, e2, e3⟩ := this.1 hk
        rw [hnodes c h3] at e1
        rw [hnodes c' h4]
        cases hp : pre.filter (·.isNode) with
        | cons p ps => rw [hp] at e1; simp at e1
        | nil =>
          rw [hp] at e1
          simp only [List.nil_append, List.cons.injEq] at e1
          obtain ⟨rfl, e1⟩ := e1
          refine ⟨c', by simp [e1], by rw [h2, e2], by rw [h5 (by rw [e2]; exact hm)]; exact e3⟩
      · obtain ⟨l, r, e1, e2, e3, e4⟩ := this.2 hk
        rw [hnodes c h3] at e1
        rw [hnodes c' h4]
        cases hp : pre.filter (·.isNode) with
        | nil =>
          rw [hp] at e1
          simp only [List.nil_append, List.cons.injEq] at e1
          obtain ⟨rfl, e1⟩ := e1
          exact ⟨c', r, by simp [e1], by rw [h2, e2], e3, by rw [h5 (by rw [e2]; exact hm)]; exact e4⟩
        | cons p ps =>
          rw [hp] at e1
          simp only [List.cons_append, List.cons.injEq] at e1
          obtain ⟨rfl, e1⟩ := e1
          cases ps with
          | cons q qs => simp at e1
          | nil =>
            simp only [List.nil_append, List.cons.injEq] at e1
            obtain ⟨rfl, e1⟩ := e1
            exact ⟨p, c', by simp [e1], e2, by rw [h2, e3], e4⟩
    refine ⟨?_, rfl, rfl, rfl, fun _ => hk, ?_⟩
    · intro n hn
      rw [hin] at hn
      simp only [List.mem_cons, List.mem_append] at hn
      rcases hn with rfl | hn | hn | hn
      · exact hs
      · exact hg n (by rw [hin]; simp [hn])
      · exact h1 n hn
      · exact hg n (by rw [hin]; simp [hn])
    · intro n hn hl
      rw [hin] at hn ⊢
      simp only [List.mem_cons, List.mem_append] at hn ⊢
      rcases hn with rfl | hn | hn | hn
      · obtain ⟨l, hl⟩ := hlit (.node k (pre ++ c :: post)) (by rw [hin]; simp) hl
        simp only [Green.node.injEq] at hl
        have : c ∈ [leaf l] := by rw [← hl.2]; simp
        simp only [List.mem_singleton] at this
        subst this
        simp [leaf, Green.isNode] at h3
      · exact .inl (.inr (.inl hn))
      · rcases h6 n hn hl with h | h
        · exact .inl (.inr (.inr (.inl h)))
        · exact .inr h
      · exact .inl (.inr (.inr (.inr hn)))

end Pst
end Verif
