import Verif.Proof.WrapPlace
import Verif.Proof.Pasting
import Verif.Props.Stability

/-
Putting an expression in parentheses: the tokens and the checks.
-/
namespace Verif
namespace Wrp
open Lexer Accept PTree Lua Nest
open Spec (expressionKinds openPlaces callEnds Reads Spelled nodesIn)

private theorem number_chars {t : Text} (h : Spelled .number t) : '(' ∉ t ∧ ')' ∉ t := by
  have key : ∀ q : Char, q = '(' ∨ q = ')' → q ∉ t := by
    intro q hq hm
    have nd : Char.isDigit q = false := by rcases hq with rfl | rfl <;> decide
    generalize hk : SyntaxKind.number = k at h
    cases h with
    | @fixed s k hm =>
      subst hk
      have : ∀ p ∈ keywords ++ operators, p.2 ≠ .number := by decide
      exact this _ hm rfl
    | name => cases hk
    | space => cases hk
    | lineComment => cases hk
    | blockComment => cases hk
    | quoted => cases hk
    | long => cases hk
    | tilde => cases hk
    | @number d ds tail h1 h2 h3 =>
      simp only [List.mem_cons, List.mem_append] at hm
      rcases hm with rfl | hm | hm
      · rw [nd] at h1; cases h1
      · have := h2 _ hm; rw [nd] at this; cases this
      · cases h3 with
        | mk h4 h5 =>
          rcases List.mem_append.1 hm with hm | hm
          · rcases h4 with rfl | ⟨ds, rfl, hd⟩
            · cases hm
            · simp only [List.mem_cons] at hm
              rcases hm with rfl | hm
              · rcases hq with hq | hq <;> cases hq
              · have := hd _ hm; rw [nd] at this; cases this
          · rcases h5 with rfl | ⟨c, sign, ds, rfl, hc, hs, hd⟩
            · cases hm
            · simp only [List.mem_cons, List.mem_append] at hm
              rcases hm with rfl | hm | hm
              · rcases hq with rfl | rfl <;> simp at hc
              · rcases hs with rfl | rfl
                · cases hm
                · simp at hm; subst hm; rcases hq with hq | hq <;> cases hq
              · have := hd _ hm; rw [nd] at this; cases this
    | @hex ds h1 =>
      simp only [List.mem_cons] at hm
      rcases hm with rfl | rfl | hm
      · rcases hq with hq | hq <;> cases hq
      · rcases hq with hq | hq <;> cases hq
      · have := h1 _ hm
        revert this
        rcases hq with rfl | rfl <;> decide
  exact ⟨key _ (.inl rfl), key _ (.inr rfl)⟩

private theorem operators_grow : ∀ s ∈ operators, ∀ p ∈ operators, s.1.toList <+: p.1.toList →
    s.1.toList.length < p.1.toList.length →
    ∃ q ∈ operators, q.1.toList = p.1.toList.take (s.1.toList.length + 1) := by decide +kernel

private theorem operators_last : ∀ q ∈ operators, q.1.toList.length ≥ 2 →
    ∃ x ∈ ['=', ':', '.'], q.1.toList.getLast? = some x := by decide +kernel


/-- Behind a token other than a comment, a parenthesis may stand. -/
theorem reads_paren {w : Text} {k : SyntaxKind} {rest : Text} {c' : Char} (r' : Text) (h : Reads w k none rest)
    (hk : k ≠ .comment) (hc : c' = '(' ∨ c' = ')') : Reads w k none (c' :: r') := by
  have hn : nameChar c' = false := by rcases hc with rfl | rfl <;> decide
  have hs : c' ∉ spaces := by rcases hc with rfl | rfl <;> decide
  have ho : c' ≠ '=' ∧ c' ≠ ':' ∧ c' ≠ '.' ∧ c' ≠ '-' ∧ c' ≠ '[' := by rcases hc with rfl | rfl <;> decide
  obtain ⟨o1, o2, o3, o4, o5⟩ := ho
  generalize he : (none : Option String) = err at h
  cases h with
  | keyword h1 h2 => exact .keyword h1 (by simpa using hn)
  | name h1 h2 h3 h4 => exact .name h1 h2 h3 (by simpa using hn)
  | space h1 h2 h3 => exact .space h1 h2 (by simpa using hs)
  | @operator s k rest h1 h2 h3 h4 =>
    refine .operator h1 (fun p hp hpre => ?_) (by simpa using fun _ => o4) (by simpa using fun _ => ⟨o5, o1⟩)
    refine Nat.le_of_not_lt fun hlt => ?_
    have hsp : s.toList <+: p.1.toList := List.prefix_of_prefix_length_le (List.prefix_append _ _) hpre (Nat.le_of_lt hlt)
    obtain ⟨q, hq, eq⟩ := operators_grow (s, k) h1 p hp hsp hlt
    have hql : q.1.toList.length = s.toList.length + 1 := by rw [eq, List.length_take]; simp only; omega
    have hq2 : q.1.toList <+: s.toList ++ c' :: r' := by rw [eq]; exact (List.take_prefix _ _).trans hpre
    have hq3 : q.1.toList = s.toList ++ [c'] := by
      have : s.toList ++ [c'] <+: s.toList ++ c' :: r' := ⟨r', by simp⟩
      exact (List.prefix_of_prefix_length_le hq2 this (by simp; omega)).eq_of_length (by simp; omega)
    have hs0 : s.toList.length ≥ 1 := by
      have : ∀ p ∈ operators, p.1.toList.length ≥ 1 := by decide
      exact this _ h1
    obtain ⟨x, hx, hl⟩ := operators_last q hq (by omega)
    rw [hq3, List.getLast?_concat] at hl
    simp only [Option.some.injEq] at hl
    subst hl
    simp only [List.mem_cons, List.not_mem_nil, or_false] at hx
    rcases hx with hx | hx | hx
    · exact o1 hx
    · exact o2 hx
    · exact o3 hx
  | tilde h1 => exact .tilde (by simpa using o1)
  | number h1 h2 =>
    refine .number h1 fun p q hpq hp hsp => ?_
    cases p with
    | nil => exact hp rfl
    | cons x p =>
      simp only [List.cons_append, List.cons.injEq] at hpq
      obtain ⟨rfl, -⟩ := hpq
      obtain ⟨n1, n2⟩ := number_chars hsp
      rcases hc with rfl | rfl
      · exact n1 (by simp)
      · exact n2 (by simp)
  | quoted h1 h2 h3 => exact .quoted h1 h2 h3
  | quotedEnd => cases he
  | quotedLine => cases he
  | long h1 h2 => exact .long h1 h2
  | longBad => cases he
  | longEnd => cases he
  | lineComment => exact absurd rfl hk
  | blockComment => exact absurd rfl hk
  | blockCommentEnd => exact absurd rfl hk
  | other => cases he

theorem paren_lexeme {c : Char} {k : SyntaxKind} {r : Text} {ls : List Lexeme} (hc : (c, k) = ('(', .lParen) ∨ (c, k) = (')', .rParen))
    (h : Lexemes r ls) : Lexemes (c :: r) (⟨[c], k, none⟩ :: ls) := by
  have hop : ∀ p ∈ operators, ∀ c ∈ ['(', ')'], p.1.toList.head? = some c → p.1.toList.length ≤ 1 := by decide
  have key : ∀ (s : String), (s, k) ∈ operators → s.toList = [c] → c ∈ ['(', ')'] → s ≠ "-" → s ≠ "[" →
      Lexemes (c :: r) (⟨[c], k, none⟩ :: ls) := by
    intro s hm he hcm h1 h2
    refine Lexemes.cons (rest := r) ((firstLexeme_reads (w := [c])).2 ⟨by simp, ?_⟩) h
    rw [← he]
    refine .operator hm (fun p hp hpre => ?_) (fun e => absurd e h1) (fun e => absurd e h2)
    cases hp0 : p.1.toList with
    | nil => simp
    | cons x y =>
      rw [hp0, he] at hpre
      simp at hpre
      have := hop p hp c hcm (by rw [hp0, hpre.1]; rfl)
      rw [hp0] at this
      rw [he]
      exact this
  rcases hc with hc | hc
  · simp only [Prod.mk.injEq] at hc
    obtain ⟨rfl, rfl⟩ := hc
    exact key "(" (by decide) (by decide) (by decide) (by decide) (by decide)
  · simp only [Prod.mk.injEq] at hc
    obtain ⟨rfl, rfl⟩ := hc
    exact key ")" (by decide) (by decide) (by decide) (by decide) (by decide)

/-- Behind some tokens, the last of which is not a comment, the rest may be replaced by one that starts with a parenthesis. -/
theorem lexemes_paren {lb lb' : List Lexeme} {b' : Text} {c' : Char} (hc : c' = '(' ∨ c' = ')') (hb' : Lexemes (c' :: b') lb') :
    ∀ {la : List Lexeme} {text : Text}, Lexemes text (la ++ lb) → (∀ l ∈ la, l.err = none) →
    (∀ l, la.getLast? = some l → l.kind ≠ .comment) →
    Lexemes ((la.map (·.word)).flatten ++ c' :: b') (la ++ lb') := by
  intro la
  induction la with
  | nil => intro _ _ _ _; exact hb'
  | cons l la ih =>
    intro text h he hl
    generalize hx : l :: la ++ lb = ls at h
    cases h with
    | nil => cases hx
    | @cons s l' rest ls h1 h2 =>
      simp only [List.cons_append, List.cons.injEq] at hx
      obtain ⟨rfl, rfl⟩ := hx
      have ih := ih h2 (fun x hx => he x (List.mem_cons_of_mem _ hx)) (fun x hx => hl x (by
        cases la with
        | nil => simp at hx
        | cons => simpa using hx))
      have her := he l (List.mem_cons_self ..)
      obtain ⟨w, k, err⟩ := l
      simp only at her
      subst her
      have e := h1.append
      simp only at e
      subst e
      obtain ⟨hw, hr1⟩ := firstLexeme_reads.1 h1
      have := Lexemes.cons (firstLexeme_reads.2 ⟨hw, (show Reads w k none ((la.map (·.word)).flatten ++ c' :: b') from ?_)⟩) ih
      · simpa using this
      · cases la with
        | nil => exact reads_paren _ hr1 (hl _ rfl) hc
        | cons l2 la =>
          have hne := h2.words_ne l2 (by simp)
          have hr : rest = l2.word ++ ((la ++ lb).map (·.word)).flatten := by rw [← h2.flatten]; simp
          obtain ⟨z, zs, hz⟩ := List.exists_cons_of_ne_nil hne
          rw [hr, hz] at hr1
          simp only [List.map_cons, List.flatten_cons, hz, List.cons_append]
          exact reads_next _ hr1

/-! ### the checks -/

theorem wrap_fine {lp rp : Lx} {K : SyntaxKind} {gs : List Green} (hK : K ∈ expressionKinds) {j k q a b g g'}
    (h : GW lp rp K gs j k q a b g g') (hg : ∀ n ∈ inner g, stmtFine n)
    (hlit : ∀ n ∈ inner g, n.kind = .literal → ∃ l : Lx, n = .node .literal [leaf l]) :
    (∀ n ∈ inner g', stmtFine n) ∧
      (g'.kind = g.kind ∨ g'.kind = .parenExpr ∧ k ∈ openPlaces ∧ (j = .exprStmt → g.kind ≠ .callExpr ∧ g.kind ≠ .methodCallExpr)) ∧
      (g.kind = .multivalExpr → kinds (nodesIn g') = kinds (nodesIn g) ∨ ∃ u v K', kinds (nodesIn g) = u ++ K' :: v ∧
        kinds (nodesIn g') = u ++ .parenExpr :: v ∧ (k = .exprStmt → K' ≠ .callExpr ∧ K' ≠ .methodCallExpr)) ∧
      ∀ n ∈ inner g', n.kind = .literal → n ∈ inner g := by
  induction h with
  | @here j k h1 h2 =>
    have hl : ∀ l : Lx, inner (leaf l) = [] := by intro l; simp [inner, leaf, Green.nodes]
    have hin : ∀ n, n ∈ inner (parenG lp rp K gs) → n = parenG lp rp K gs ∨ n ∈ inner (.node K gs) := by
      intro n hn
      rw [show parenG lp rp K gs = .node .parenExpr [leaf lp, .node K gs, leaf rp] from rfl, inner_node, innerL_cons,
        innerL_cons, innerL_cons, hl, hl] at hn
      simpa [innerL, Green.nodesL] using hn
    refine ⟨fun n hn => ?_, .inr ⟨rfl, h1, fun e => ?_⟩, fun e => ?_, fun n hn hl => ?_⟩
    · rcases hin n hn with rfl | hn
      · exact ⟨fun e => by simp [Green.kind] at e, fun e => by simp [Green.kind] at e⟩
      · exact hg n hn
    · exact h2 e
    · have e : K = .multivalExpr := e
      subst e; exact absurd hK (by decide)
    · rcases hin n hn with rfl | hn
      · simp [Green.kind] at hl
      · exact hn
  | @down j k l pre c c' post q a b h ih =>
    have hin : ∀ d, inner (.node l (pre ++ d :: post)) = .node l (pre ++ d :: post) :: (innerL pre ++ (inner d ++ innerL post)) := by
      intro d; rw [inner_node, innerL_append, innerL_cons]
    obtain ⟨h1, h2, h5, h6⟩ := ih (fun n hn => hg n (by rw [hin]; simp [hn])) fun n hn => hlit n (by rw [hin]; simp [hn])
    obtain ⟨h3, h4⟩ := h.node
    have hnodes : ∀ d : Green, d.isNode = true → nodesIn (.node l (pre ++ d :: post)) =
        pre.filter (·.isNode) ++ d :: post.filter (·.isNode) := by
      intro d hd; simp [nodesIn, Green.children, hd]
    have same : l ∉ openPlaces → c'.kind = c.kind := by
      intro hl
      rcases h2 with h2 | h2
      · exact h2
      · exact absurd h2.2.1 hl
    have calls : l = .exprStmt → c.kind = .multivalExpr → oneCall (kinds (nodesIn c)) → oneCall (kinds (nodesIn c')) := by
      intro hl hc h7
      rcases h5 hc with e | ⟨u, v, K', e1, e2, e3⟩
      · rw [e]; exact h7
      · rw [e1] at h7
        rw [e2]
        obtain ⟨n1, n2⟩ := e3 hl
        simp only [oneCall, List.countP_append, List.countP_cons] at h7 ⊢
        refine ⟨by simpa [n1, n2] using h7.1, fun x hx => ?_⟩
        simp only [List.mem_append, List.mem_cons] at hx
        rcases hx with hx | rfl | hx
        · exact h7.2 x (by simp [hx])
        · simp
        · exact h7.2 x (by simp [hx])
    have tgts : c.kind = .multivalExpr → targets (kinds (nodesIn c)) → targets (kinds (nodesIn c')) := by
      intro hc h7
      rcases h5 hc with e | ⟨u, v, K', e1, e2, -⟩
      · rw [e]; exact h7
      · rw [e1] at h7
        rw [e2]
        intro x hx
        simp only [List.mem_append, List.mem_cons] at hx
        rcases hx with hx | rfl | hx
        · exact h7 x (by simp [hx])
        · simp
        · exact h7 x (by simp [hx])
    have hs : stmtFine (.node l (pre ++ c' :: post)) := by
      have := hg (.node l (pre ++ c :: post)) (by rw [hin]; simp)
      refine ⟨fun hk => ?_, fun hk => ?_⟩
      · obtain ⟨m, e1, e2, e3⟩ := this.1 hk
        have hl : l = .exprStmt := hk
        have same := same (by rw [hl]; decide)
        rw [hnodes c h3] at e1
        rw [hnodes c' h4]
        cases hp : pre.filter (·.isNode) with
        | cons p ps => rw [hp] at e1; simp at e1
        | nil =>
          rw [hp] at e1
          simp only [List.nil_append, List.cons.injEq] at e1
          obtain ⟨rfl, e1⟩ := e1
          exact ⟨c', by simp [e1], by rw [same, e2], calls hl e2 e3⟩
      · obtain ⟨m, r, e1, e2, e3, e4⟩ := this.2 hk
        have hl : l = .assignStmt := hk
        have same := same (by rw [hl]; decide)
        rw [hnodes c h3] at e1
        rw [hnodes c' h4]
        cases hp : pre.filter (·.isNode) with
        | nil =>
          rw [hp] at e1
          simp only [List.nil_append, List.cons.injEq] at e1
          obtain ⟨rfl, e1⟩ := e1
          exact ⟨c', r, by simp [e1], by rw [same, e2], e3, tgts e2 e4⟩
        | cons p ps =>
          rw [hp] at e1
          simp only [List.cons_append, List.cons.injEq] at e1
          obtain ⟨rfl, e1⟩ := e1
          cases ps with
          | cons q qs => simp at e1
          | nil =>
            simp only [List.nil_append, List.cons.injEq] at e1
            obtain ⟨rfl, e1⟩ := e1
            exact ⟨p, c', by simp [e1], e2, by rw [same, e3], e4⟩
    refine ⟨?_, .inl rfl, fun _ => ?_, ?_⟩
    · intro n hn
      rw [hin] at hn
      simp only [List.mem_cons, List.mem_append] at hn
      rcases hn with rfl | hn | hn | hn
      · exact hs
      · exact hg n (by rw [hin]; simp [hn])
      · exact h1 n hn
      · exact hg n (by rw [hin]; simp [hn])
    · rw [hnodes c h3, hnodes c' h4]
      simp only [kinds, List.map_append, List.map_cons]
      rcases h2 with h2 | ⟨h2, -, h7⟩
      · exact .inl (by rw [h2])
      · exact .inr ⟨_, _, _, rfl, by rw [h2], h7⟩
    · intro n hn hl
      rw [hin] at hn ⊢
      simp only [List.mem_cons, List.mem_append] at hn ⊢
      rcases hn with rfl | hn | hn | hn
      · obtain ⟨x, hx⟩ := hlit (.node l (pre ++ c :: post)) (by rw [hin]; simp) hl
        simp only [Green.node.injEq] at hx
        have : c ∈ [leaf x] := by rw [← hx.2]; simp
        simp only [List.mem_singleton] at this
        subst this
        simp [leaf, Green.isNode] at h3
      · exact .inr (.inl hn)
      · exact .inr (.inr (.inl (h6 n hn hl)))
      · exact .inr (.inr (.inr hn))

end Wrp
end Verif
