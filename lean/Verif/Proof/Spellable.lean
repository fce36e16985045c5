import Verif.Props.Stability
import Verif.Props.Parse
import Verif.Props.Reparse

/-
Every sequence of tokens of the grammar can be written down.
-/
set_option linter.unusedSimpArgs false
namespace Verif
open PTree Lua Spec Lexer

/-- The kinds of the tokens programs are made of. -/
def terms : List SyntaxKind := (keywords ++ operators).map (·.2) ++ [.ident, .number, .str]

private theorem op_nospace : ∀ p ∈ operators, ' ' ∉ p.1.toList := by decide
private theorem op_first : ∀ p ∈ operators, ∀ c, p.1.toList.head? = some c → c ∉ spaces := by decide
private theorem kw_first : ∀ p ∈ keywords, ∀ c, p.1.toList.head? = some c → c ∉ spaces := by decide
private theorem op_ne : ∀ p ∈ operators, p.1.toList ≠ [] := by decide
private theorem kw_ne : ∀ p ∈ keywords, p.1.toList ≠ [] := by decide

/-- A way to write each token, so that it ends at a space. -/
theorem term_word : ∀ k ∈ terms, ∃ w : Text, w ≠ [] ∧ (∀ c, w.head? = some c → c ∉ spaces) ∧
    ∀ rest, FirstLexeme (w ++ ' ' :: rest) ⟨w, k, none⟩ (' ' :: rest) := by
  intro k hk
  simp only [terms, List.map_append, List.mem_append, List.mem_map, List.mem_cons, List.not_mem_nil, or_false] at hk
  rcases hk with (⟨p, hp, rfl⟩ | ⟨p, hp, rfl⟩) | rfl | rfl | rfl
  · exact ⟨_, kw_ne p hp, kw_first p hp, fun rest => firstLexeme_reads.2
      ⟨kw_ne p hp, .keyword hp (by intro c h; cases h; decide)⟩⟩
  · refine ⟨_, op_ne p hp, op_first p hp, fun rest => firstLexeme_reads.2
      ⟨op_ne p hp, .operator hp ?_ (by simp) (by simp)⟩⟩
    intro q hq hpre
    refine Nat.le_of_not_lt fun hl => op_nospace q hq ?_
    obtain ⟨z, hz⟩ := hpre
    have h1 : (q.1.toList ++ z)[p.1.toList.length]? = some ' ' := by rw [hz]; simp
    rw [List.getElem?_append_left hl] at h1
    exact List.mem_of_getElem? h1
  · exact ⟨['a'], by simp, by decide, fun rest => firstLexeme_reads.2
      ⟨by simp, .name (by decide) (by simp) (by decide) (by intro c h; cases h; decide)⟩⟩
  · exact ⟨['1'], by simp, by decide, fun rest => .mk (c := '1') (cs := ' ' :: rest) rfl rfl⟩
  · exact ⟨['"', '"'], by simp, by decide, fun rest => firstLexeme_reads.2 ⟨by simp, .quoted (d := '"') (body := [])
      (.inr rfl) ⟨by simp, by intro p q h; simp at h⟩ (by simp)⟩⟩

private def ok (ks : List SyntaxKind) : Bool := ks.all (terms.contains ·)

private theorem ok_nil : ok [] = true := rfl
private theorem ok_app (a b) : ok (a ++ b) = (ok a && ok b) := by simp [ok]
private theorem ok_cons (k b) : ok (k :: b) = (ok [k] && ok b) := by simp [ok]

private theorem deriv_ok {x nt ts} (h : Deriv x nt ts) : ok (yieldL ts) = true := by
  have hb : ∀ k, isBinary k → ok [k] = true := by intro k; unfold isBinary; cases k <;> decide
  have hl : ∀ k ∈ literalKinds, ok [k] = true := by decide
  have hu : ∀ k ∈ unaryOps, ok [k] = true := by decide
  have hs : ∀ k ∈ [SyntaxKind.comma, .semicolon], ok [k] = true := by decide
  have ht : ∀ k ∈ [SyntaxKind.functionKw, .endKw, .lBrace, .rBrace, .lParen, .rParen, .ident, .colon, .dot, .comma, .eq,
    .lBracket, .rBracket, .str, .tripleDot, .semicolon, .ifKw, .thenKw, .elseKw, .elseifKw, .doubleColon, .gotoKw, .breakKw,
    .doKw, .whileKw, .repeatKw, .untilKw, .localKw, .returnKw, .forKw, .inKw], ok [k] = true := by decide
  simp only [List.forall_mem_cons] at ht
  induction h
  case literal k hk => simpa [yieldL, PTree.yield] using hl k hk
  case «prefix» op e hop _ _ ih =>
    have := hu op hop
    simp only [yieldL, PTree.yield, List.append_nil, List.nil_append, List.cons_append] at ih ⊢
    rw [ok_cons]; simp [*]
  case «infix» op l r hop _ _ _ _ ih1 ih2 =>
    have := hb op hop
    simp only [yieldL, PTree.yield, List.append_nil, List.nil_append, List.cons_append] at ih1 ih2 ⊢
    rw [ok_app, ok_cons]; simp [*]
  case itemsCons c sep ts _ hsep _ ih1 ih2 =>
    have := hs sep hsep
    simp only [yieldL, PTree.yield, List.append_nil, List.nil_append, List.cons_append] at ih1 ih2 ⊢
    rw [ok_app, ok_cons]; simp [*]
  all_goals
    simp only [yieldL, PTree.yield, nameT, nameRefT, yieldL_append, List.append_nil, List.nil_append, List.cons_append] at *
    repeat (first | rw [ok_app] | rw [ok_cons _ (_ :: _)] | rw [ok_cons _ (_ ++ _)] | rw [ok_cons _ (yieldL _)] | rw [ok_cons _ (PTree.yield _)])
    simp_all [ok_nil]

/-- The tokens of a derivation are among them. -/
theorem deriv_terms {x nt ts} (h : Deriv x nt ts) : ∀ k ∈ yieldL ts, k ∈ terms := by
  have := deriv_ok h
  simpa [ok] using this

/-- A text for a sequence of tokens. -/
theorem write_tokens : ∀ ks : List SyntaxKind, (∀ k ∈ ks, k ∈ terms) → ∃ text ls, Lexemes text ls ∧
    (∀ l ∈ ls, l.err = none) ∧ realKinds (ls.map lxOf) = ks ∧ (∀ c, text.head? = some c → c ∉ spaces)
  | [], _ => ⟨[], [], .nil, by simp, rfl, by simp⟩
  | k :: ks, h => by
    obtain ⟨text, ls, h1, h2, h3, h4⟩ := write_tokens ks fun k hk => h k (by simp [hk])
    obtain ⟨w, w1, w2, w3⟩ := term_word k (h k (by simp))
    have hk : k.isTrivia = false := by
      have : ∀ k ∈ terms, k.isTrivia = false := by decide
      exact this k (h k (by simp))
    have hsp : FirstLexeme ([' '] ++ text) ⟨[' '], .whitespace, none⟩ text :=
      firstLexeme_reads.2 ⟨by simp, .space (by simp) (by decide) h4⟩
    refine ⟨w ++ ([' '] ++ text), _ :: _ :: ls, .cons (w3 text) (.cons hsp h1), ?_, ?_, ?_⟩
    · simpa using h2
    · have e : ∀ (l : Lx) (ls : List Lx), realKinds (l :: ls) = if l.1.isTrivia then realKinds ls else l.1 :: realKinds ls := by
        intro l ls
        simp only [realKinds, List.filter_cons, isTriv]
        cases l.1.isTrivia <;> simp
      simp only [List.map_cons, e]
      rw [h3]
      simp only [lxOf, hk]
      simp [SyntaxKind.isTrivia]
    · intro c hc
      cases w with
      | nil => exact absurd rfl w1
      | cons d w => exact w2 c (by simpa using hc)
end Verif
