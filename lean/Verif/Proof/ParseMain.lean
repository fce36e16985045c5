import Verif.Proof.GrammarSpecStmt
import Verif.Proof.Process

/-
The parser on every token sequence: it succeeds, and its callbacks describe a tree over exactly the
input tokens.
-/
namespace Verif
open Item PTree Lua P Grammar

/-- From a specification in the frame semantics to the callbacks. -/
theorem parseKinds_of_spec {toks : List SyntaxKind} {P : List Item → List SyntaxKind → Prop}
    (h : Spec (root (2 * toks.length + 3)) toks fun _ => P) :
    ∃ items toks', parseKinds toks = .ok (callsL (toTreeL items)) ∧ toks = yld items ++ toks' ∧
      P items toks' := by
  have := h 0 [] []
  rw [wpF_iff] at this
  obtain ⟨a, s', h1, items, toks', ev', rfl, h2, h3⟩ := this
  obtain ⟨s2, h4, _, h5⟩ := run_process _ _ _ _ h1 rfl
  refine ⟨items, toks', ?_, h2, h3⟩
  simp only [parseKinds, h4]
  simpa using h5

/-- Every token sequence parses; the callbacks describe one `SourceFile` node holding one `Block`
node, over exactly the input tokens, well shaped, and derived from the grammar if error-free. -/
theorem parseKinds_main (toks : List SyntaxKind) (hne : NE toks) :
    ∃ ts, parseKinds toks = .ok (calls (.node .sourceFile [.node .block ts])) ∧
      yieldL ts = toks ∧ shapedL ts ∧
      (errorsL ts = [] → Program .accepted (.node .sourceFile [.node .block ts])) := by
  obtain ⟨items, toks', h1, h2, rfl, ⟨p, q, af, rfl⟩, h3, h4⟩ := parseKinds_of_spec (root_spec toks hne)
  refine ⟨toTreeL af, ?_, ?_, ?_, ?_⟩
  · simpa [toTreeL, toTree, callsL] using h1
  · simp at h2; rw [h2]; rfl
  · simp at h3; exact h3
  · intro he
    obtain ⟨t, ht, hp⟩ := h4 (by simp; exact he)
    simp [toTreeL, toTree] at ht
    rw [ht]; exact hp

end Verif
