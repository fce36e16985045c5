import Verif.Proof.DiagnosticsProof
import Verif.Proof.Decide

/-
C47 (the diagnostics collection) and C48 (the diagnostics of a text).
-/
namespace Verif
open Spec DiagnosticCollection

/-- C47.  After any history of calls, draining the collection reports exactly the files for which, since the
last drain, diagnostics were set that differ from those the file had; each of them once; and it
reports `None` exactly if there are none. -/
theorem C47_changes_exact (ops : List DiagOp) :
    match (run {} ops).takeChanges.2 with
    | none => ∀ k, ¬ Dirty ops k
    | some files => files ≠ [] ∧ files.Nodup ∧ ∀ k, k ∈ files ↔ Dirty ops k := by
  obtain ⟨-, h2, h3⟩ := run_spec _ ops rfl
  unfold takeChanges
  by_cases h : (run {} ops).changes.isEmpty
  · rw [if_pos h]
    intro k hk
    rw [← h3, List.isEmpty_iff.1 h] at hk
    cases hk
  · rw [if_neg h]
    exact ⟨fun hh => h (by simp only [hh, List.isEmpty_nil]), h2, h3⟩

/-- C47.  The diagnostics of a file are always the last ones set (none if there were none). -/
theorem C47_diagnostics_for (ops : List DiagOp) (k : Nat) :
    (run {} ops).diagnosticsFor k = (storedAfter ops k).getD [] := by
  unfold diagnosticsFor
  rw [(run_spec _ ops rfl).1 k]

/-- Diagnostics are the same exactly if source, severity, range and message are: a change in any one of
them, or in their number, is a change. -/
theorem C47_equal (a b : Diag) : areDiagnosticsEqual a b = true ↔
    a.source = b.source ∧ a.severity = b.severity ∧ (a.start, a.stop) = (b.start, b.stop) ∧
      a.message = b.message := by
  rw [areDiagnosticsEqual_iff]
  cases a; cases b
  simp
  constructor
  · rintro ⟨h1, h2, h3, h4, h5⟩; exact ⟨h4, h3, ⟨h1, h2⟩, h5⟩
  · rintro ⟨h4, h3, ⟨h1, h2⟩, h5⟩; exact ⟨h1, h2, h3, h4, h5⟩

def sampleDiag (m : String) : Diag := ⟨⟨0, 0⟩, ⟨0, 1⟩, .error, "lua-analyzer", m⟩

/-- Non-vacuity of C47: file 1 is reported once although it changed twice, file 2 is not reported although
it was set again. -/
example :
    (run {} [.set 2 [sampleDiag "a"], .take, .set 1 [], .set 2 [sampleDiag "a"], .set 1 [sampleDiag "b"]]).takeChanges.2 =
      some [1] := by decide +kernel

/-- C48.  Every text has diagnostics (computing them does not panic).  They are those of its first 128
syntax errors, in order; each is an error from "lua-analyzer" with the message of the syntax error; and
its range is sent as positions that resolve, on the server, back to the range of the syntax error whenever
that is a range of the text. -/
theorem C48_first_128 (text : Text) : ∃ (tree : Green) (errors : List SyntaxError) (ds : List Diag),
    sourceFileParse text = .ok (tree, errors) ∧ diagnosticsOf text = some ds ∧
    ds.length = min 128 errors.length ∧
    ∀ (i : Nat) (d : Diag), ds[i]? = some d → ∃ e : SyntaxError, errors[i]? = some e ∧ d.message = "Syntax Error: " ++ e.msg ∧
      d.severity = .error ∧ d.source = "lua-analyzer" ∧
      (RangeOf text e.range → Lsp.textRange (LineIndex.new text) d.start d.stop = some e.range) := by
  obtain ⟨tree, errors, h, -, -⟩ := C08_source_file_parse_total text
  obtain ⟨ds, hds⟩ := diagnosticsOf_total text
  refine ⟨tree, errors, ds, h, hds, ?_, ?_⟩
  · unfold diagnosticsOf at hds
    rw [h] at hds
    have := congrArg List.length ((mapM_some_iff _ _ _).1 hds)
    simp at this
    omega
  · intro i d hd
    unfold diagnosticsOf at hds
    rw [h] at hds
    have hm := congrArg (·[i]?) ((mapM_some_iff _ _ _).1 hds)
    simp only [List.getElem?_map, hd, Option.map_some] at hm
    cases he : (errors.take 128)[i]? with
    | none => rw [he] at hm; cases hm
    | some e =>
      rw [he] at hm
      simp only [Option.map_some, Option.some.injEq] at hm
      have hi : errors[i]? = some e := by
        rw [List.getElem?_take] at he
        split at he
        · exact he
        · cases he
      refine ⟨e, hi, ?_⟩
      unfold toDiag at hm
      cases hr : Lsp.range (LineIndex.new text) e.range with
      | none => rw [hr] at hm; cases hm
      | some r =>
        rw [hr] at hm
        simp only [Option.map_some, Option.some.injEq] at hm
        subst hm
        refine ⟨rfl, rfl, rfl, fun hrange => ?_⟩
        obtain ⟨s, e', h1, h2⟩ := Lsp.range_roundtrip text e.range hrange
        rw [hr] at h1
        simp only [Option.some.injEq] at h1
        subst h1
        exact h2

/-- The diagnostics of a text whose errors are known. -/
theorem diagnosticsOf_of {text : Text} {tree : Green} {errors : List SyntaxError}
    (h : sourceFileParse text = .ok (tree, errors)) :
    diagnosticsOf text = (errors.take 128).mapM (toDiag (LineIndex.new text)) := by
  unfold diagnosticsOf; rw [h]

/-- Non-vacuity of C48: a text with an error on its second line. -/
example : diagnosticsOf "\nx='\\q'".toList =
    some [⟨⟨1, 3⟩, ⟨1, 5⟩, .error, "lua-analyzer", "Syntax Error: Invalid escape sequence"⟩] := by
  have h : sourceFileParse "\nx='\\q'".toList =
      .ok ((match sourceFileParseEval "\nx='\\q'".toList with | .ok (t, _) => t | .error _ => .token .eof []),
        [⟨"Invalid escape sequence", ⟨4, 6⟩⟩]) := by
    rw [sourceFileParse_eq_eval]; decide +kernel
  rw [diagnosticsOf_of h]
  decide +kernel

end Verif
