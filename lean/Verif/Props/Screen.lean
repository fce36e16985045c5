import Verif.Props.Server
import Verif.Props.ClientPositions
import Verif.Props.Manual
import Verif.Props.Accepted

/-
C122: what the user sees of the text in the editor, end to end: from the keystrokes (as changes sent by the client)
through the server, the parser, the validation and the publishing of the diagnostics, to the marks in the text.
-/
namespace Verif
open Spec Server

/-- One diagnostic as the client shows it stands for the error `e` of the text: the same message, and by the rules of the
protocol it marks the very place of the error (as far as carriage returns before it are followed by line feeds; behind
others the protocol's lines and the server's differ). -/
structure Marks (text : Text) (d : Diag) (e : SyntaxError) : Prop where
  message : d.message = "Syntax Error: " ++ e.msg
  severity : d.severity = .error
  start : ∀ A B, text = A ++ B → Text.len A = e.range.start → RangeOf text e.range →
    (LspSpec.offset text d.start = some e.range.start ↔ LspSpec.NoLoneCr A)
  stop : ∀ A B, text = A ++ B → Text.len A = e.range.stop → RangeOf text e.range →
    (LspSpec.offset text d.stop = some e.range.stop ↔ LspSpec.NoLoneCr A)

private theorem marks_of {text : Text} {e : SyntaxError} {d : Diag} (h : toDiag (LineIndex.new text) e = some d) :
    Marks text d e := by
  unfold toDiag at h
  cases hr : Lsp.range (LineIndex.new text) e.range with
  | none => rw [hr] at h; cases h
  | some r =>
    rw [hr] at h
    simp only [Option.map_some, Option.some.injEq] at h
    subst h
    have key : RangeOf text e.range → ∃ a b, LspSpec.offset text r.1 = some a ∧ LspSpec.offset text r.2 = some b ∧
        ∀ A B C, text = A ++ B ++ C → Text.len A = e.range.start → Text.len A + Text.len B = e.range.stop →
        ((a = e.range.start ↔ LspSpec.NoLoneCr A) ∧ (b = e.range.stop ↔ LspSpec.NoLoneCr (A ++ B))) := by
      intro h
      obtain ⟨s, t, a, b, h1, h2, h3, -, -, h4⟩ := Lsp.range_client_exact text e.range h
      rw [hr] at h1
      simp only [Option.some.injEq] at h1
      subst h1
      exact ⟨a, b, h2, h3, h4⟩
    have split : RangeOf text e.range → ∃ A B C, text = A ++ B ++ C ∧ Text.len A = e.range.start ∧
        Text.len A + Text.len B = e.range.stop := by
      rintro ⟨h1, -, ⟨A, X, h0, hA⟩, ⟨A', C, h2, hC⟩⟩
      obtain ⟨m, h3, h4⟩ := TextEdit.append_split (h0.symm.trans h2) (by omega)
      refine ⟨A, m, C, by rw [h2, h3], hA, ?_⟩
      rw [h3, Text.len_append] at hC
      exact hC
    refine ⟨rfl, rfl, ?_, ?_⟩
    · intro A B hAB hA hrange
      obtain ⟨a, b, h1, h2, h3⟩ := key hrange
      obtain ⟨A1, B1, C1, h4, h5, h6⟩ := split hrange
      have : A = A1 := by
        rw [List.append_assoc] at h4
        exact (Text.append_inj_len (hAB.symm.trans h4) (by omega)).1
      subst this
      rw [h1, ← (h3 _ _ _ h4 h5 h6).1]
      simp
    · intro A B hAB hA hrange
      obtain ⟨a, b, h1, h2, h3⟩ := key hrange
      obtain ⟨A1, B1, C1, h4, h5, h6⟩ := split hrange
      have : A = A1 ++ B1 := (Text.append_inj_len (hAB.symm.trans h4) (by rw [Text.len_append]; omega)).1
      subst this
      rw [h2, ← (h3 _ _ _ h4 h5 h6).2]
      simp

/-- **C122**: when the server has handled everything, the client of a document that was never closed shows, for the text
the user sees, the first 128 errors of `SourceFile::parse`, each at its place. -/
theorem C122_marks {config : Config} {es : List (ServerEvent × Orders)} {s : Server}
    (h : run diagnosticsOf (.new config) es = some s) (hf : Follows (happened es)) (hq : s.tasks = [])
    {p : AbsPath} {text : Text} (ht : clientText p (happened es) = some text)
    (hc : ServerEvent.didClose (.file p) ∉ happened es) :
    ∃ tree errors ds, sourceFileParse text = .ok (tree, errors) ∧ shown p s.sent = some ds ∧
      ds.length = min 128 errors.length ∧
      ∀ (i : Nat) (d : Diag), ds[i]? = some d → ∃ e, errors[i]? = some e ∧ Marks text d e := by
  have hd := C45_diagnostics_converge_partial h hf hq ht hc
  obtain ⟨tree, errors, hp, -, -⟩ := C08_source_file_parse_total text
  obtain ⟨ds, hds⟩ := diagnosticsOf_total text
  refine ⟨tree, errors, ds, hp, hd.trans hds, ?_, ?_⟩
  · unfold diagnosticsOf at hds
    rw [hp] at hds
    have := congrArg List.length ((mapM_some_iff _ _ _).1 hds)
    simp at this
    omega
  · intro i d hi
    unfold diagnosticsOf at hds
    rw [hp] at hds
    have hm := congrArg (·[i]?) ((mapM_some_iff _ _ _).1 hds)
    simp only [List.getElem?_map, hi, Option.map_some] at hm
    cases he : (errors.take 128)[i]? with
    | none => rw [he] at hm; cases hm
    | some e =>
      rw [he] at hm
      simp only [Option.map_some, Option.some.injEq] at hm
      refine ⟨e, ?_, marks_of hm⟩
      rw [List.getElem?_take] at he
      split at he
      · exact he
      · cases he

/-- **C122**: nothing is marked exactly if the text is accepted (C78 says which texts are). -/
theorem C122_clean {config : Config} {es : List (ServerEvent × Orders)} {s : Server}
    (h : run diagnosticsOf (.new config) es = some s) (hf : Follows (happened es)) (hq : s.tasks = [])
    {p : AbsPath} {text : Text} (ht : clientText p (happened es) = some text)
    (hc : ServerEvent.didClose (.file p) ∉ happened es) :
    shown p s.sent = some [] ↔ ∃ tree, sourceFileParse text = .ok (tree, []) := by
  obtain ⟨tree, errors, ds, h1, h2, h3, -⟩ := C122_marks h hf hq ht hc
  rw [h1, h2]
  constructor
  · intro h
    cases h
    simp only [List.length_nil] at h3
    have : errors = [] := List.eq_nil_of_length_eq_zero (by omega)
    exact ⟨tree, by rw [this]⟩
  · rintro ⟨t, h4⟩
    simp only [Except.ok.injEq, Prod.mk.injEq] at h4
    rw [h4.2] at h3
    have : ds = [] := List.eq_nil_of_length_eq_zero (by simpa using h3)
    rw [this]

/-- **C122**: in a Lua 5.1 program (with the exceptions of C115) nothing is marked. -/
theorem C122_manual {config : Config} {es : List (ServerEvent × Orders)} {s : Server}
    (h : run diagnosticsOf (.new config) es = some s) (hf : Follows (happened es)) (hq : s.tasks = [])
    {p : AbsPath} {text : Text} (ht : clientText p (happened es) = some text)
    (hc : ServerEvent.didClose (.file p) ∉ happened es)
    (tokens : List Token) (hl : tokenize text = .ok (tokens, []))
    (hd : Manual.Derives false .chunk ((tokens.map (·.kind)).filter fun k => !k.isTrivia))
    (hs : Manual.StringsOk text tokens) : shown p s.sent = some [] :=
  (C122_clean h hf hq ht hc).2 (C115_manual_partial text tokens hl hd hs)

/-- **C122**, for every history of a client that follows the protocol (and a configuration and loader batches the server
can handle): the server survives it, and once its queue has been handled the user sees the errors of the text. -/
theorem C122_seen (config : Config) (es : List (ServerEvent × Orders)) (o : Orders)
    (ha : AllAdmissible (happened es)) (hb : storedFiles (happened es) ≤ 4294967295)
    {p : AbsPath} {text : Text} (ht : clientText p (happened es) = some text)
    (hc : ServerEvent.didClose (.file p) ∉ happened es) :
    ∃ s tree errors ds, run diagnosticsOf (.new config) (es ++ [(.task, o)]) = some s ∧
      sourceFileParse text = .ok (tree, errors) ∧ shown p s.sent = some ds ∧ ds.length = min 128 errors.length ∧
      (∀ (i : Nat) (d : Diag), ds[i]? = some d → ∃ e, errors[i]? = some e ∧ Marks text d e) ∧
      (ds = [] ↔ ∃ tree, sourceFileParse text = .ok (tree, [])) := by
  obtain ⟨s, h⟩ := C44_no_panic_partial config es ha hb
  obtain ⟨s', h1, hq⟩ := C45_drained h o
  have hr := run_snoc.2 ⟨s, h, h1⟩
  have hf : Follows (happened (es ++ [(.task, o)])) := by
    intro past p version changes rest text he hct
    have hmap : happened (es ++ [(.task, o)]) = happened es ++ [.task] := by simp [happened]
    rw [hmap] at he
    rcases List.eq_nil_or_concat rest with rfl | ⟨rest', x, rfl⟩
    · have := List.append_inj' he rfl
      simp at this
    · have he' : happened es ++ [ServerEvent.task] = (past ++ .didChange (.file p) version changes :: rest') ++ [x] := by
        rw [he]; simp
      exact ha past _ rest' (List.append_inj' he' rfl).1 text hct
  have ht' : clientText p (happened (es ++ [(.task, o)])) = some text := by
    rw [show happened (es ++ [(.task, o)]) = happened es ++ [.task] by simp [happened], clientText, List.foldl_append]
    exact ht
  have hc' : ServerEvent.didClose (.file p) ∉ happened (es ++ [(.task, o)]) := by
    simpa [happened] using hc
  obtain ⟨tree, errors, ds, h2, h3, h4, h5⟩ := C122_marks hr hf hq ht' hc'
  refine ⟨s', tree, errors, ds, hr, h2, h3, h4, h5, ?_⟩
  rw [← C122_clean hr hf hq ht' hc', h3]
  simp

/-- The user opens an empty file and types a program: nothing is marked. -/
private def typed : List (ServerEvent × Orders) :=
  [.didOpen (.file "/a.lua") 1 [], .didChange (.file "/a.lua") 2 [⟨none, badText⟩, ⟨some (⟨0, 0⟩, ⟨0, 6⟩), manualText⟩]].map
    (·, Orders.plain)

private theorem typed_ok : AllAdmissible (happened typed) ∧ storedFiles (happened typed) ≤ 4294967295 ∧
    clientText "/a.lua" (happened typed) = some manualText ∧ ServerEvent.didClose (.file "/a.lua") ∉ happened typed := by
  refine ⟨?_, by decide, by decide, by simp [happened, typed]⟩
  intro past e rest h
  simp only [typed, happened, List.map_cons, List.map_nil] at h
  rcases past with _ | ⟨e1, _ | ⟨e2, past⟩⟩
  · simp only [List.nil_append, List.cons.injEq] at h
    rw [← h.1]; trivial
  · simp only [List.cons_append, List.nil_append, List.cons.injEq] at h
    obtain ⟨rfl, rfl, -⟩ := h
    intro text ht
    have : clientText "/a.lua" [.didOpen (.file "/a.lua") 1 []] = some [] := by decide
    rw [this] at ht
    cases ht
    refine ⟨by simp, fun t ht => ?_⟩
    cases ht
    refine ⟨?_, fun t ht => trivial⟩
    intro s e he
    cases he
    refine ⟨by simp [badText, LspSpec.NoLoneCr], ⟨badText, [], [], badText, by decide, rfl, rfl⟩,
      ⟨badText, [], badText, [], by decide, by decide, by decide⟩, by decide⟩
  · simp at h

example : ∃ s, run diagnosticsOf (.new .default) (typed ++ [(.task, Orders.plain)]) = some s ∧ shown "/a.lua" s.sent = some [] := by
  obtain ⟨h1, h2, h3, h4⟩ := typed_ok
  obtain ⟨s, tree, errors, ds, g1, -, g3, -, -, g6⟩ := C122_seen .default typed .plain h1 h2 h3 h4
  exact ⟨s, g1, by rw [g3, g6.2 (C115_manual_partial _ _ manualText_tokens manualText_derives manualText_strings)]⟩

/-- And a text with an error: it is marked. -/
example : ∃ s, run diagnosticsOf (.new .default) (sampleHistory ++ [(.task, Orders.plain)]) = some s ∧
    shown "/a.lua" s.sent = some [badDiag] ∧ Marks badText badDiag ⟨"Invalid escape sequence", ⟨3, 5⟩⟩ := by
  have h : (run diagnosticsOf (.new .default) (sampleHistory ++ [(.task, Orders.plain)])).map
      (fun s => shown "/a.lua" s.sent) = some (some [badDiag]) := by
    rw [diagnosticsOf_tables badText_diagnostics noText_diagnostics]
    decide +kernel
  cases hr : run diagnosticsOf (.new .default) (sampleHistory ++ [(.task, Orders.plain)]) with
  | none => rw [hr] at h; cases h
  | some s =>
    rw [hr] at h
    simp only [Option.map_some, Option.some.injEq] at h
    exact ⟨s, rfl, h, marks_of (by decide)⟩

end Verif
