import Verif.Proof.ServerDiag

/-
C39 to C46, C54, C60: the main loop, over every history of events.  A history `es` is a list of events with
the iteration orders of the hash tables; `run diagnosticsOf (.new config) es = some s` says that a server started
with `config` handles it without a panic and is then in state `s`.
-/
namespace Verif
open Spec Server

/-- Orders for the examples. -/
def Orders.plain : Orders := ⟨id, id, fun _ => .refl _, fun _ => .refl _⟩

/-- The events of a history. -/
abbrev happened (es : List (ServerEvent × Orders)) : List ServerEvent := es.map (·.1)

/-! ### C39 -/

/-- C39.  After every history, the analysed text of every file id is the current contents of the Vfs if they
are valid UTF-8, and empty if they are not; if the file does not exist its text is empty or was never set. -/
theorem C39_db_follows_vfs {config : Config} {es : List (ServerEvent × Orders)} {s : Server}
    (h : run diagnosticsOf (.new config) es = some s) (id : Nat) :
    match s.vfs.fileContents id with
    | some (.utf8 text) => s.fileText id = some text
    | some (.invalid _) => s.fileText id = some []
    | none => s.fileText id = none ∨ s.fileText id = some [] := by
  have := (Inv.run h).sync id
  unfold SyncAt at this
  split <;> rename_i hc <;> rw [hc] at this <;> exact this

/-- C39, in terms of the history: a file exists (has an id) exactly if it has contents after the history, and
then its analysed text is that of these contents. -/
theorem C39_db_follows_history {config : Config} {es : List (ServerEvent × Orders)} {s : Server}
    (h : run diagnosticsOf (.new config) es = some s) (hf : Follows (happened es)) (p : AbsPath) :
    match (fileAfter p (happened es)).2 with
    | some contents => ∃ id, s.vfs.fileId p = some (some id) ∧ s.fileText id = some (contents.toText.getD [])
    | none => s.vfs.fileId p = some none := by
  have hi := Inv.run h
  have hm := (Mirror.run h hf p).contents
  cases hc : (fileAfter p (happened es)).2 with
  | some b =>
    rw [hc] at hm
    obtain ⟨id, h1, h2⟩ := (Vfs.contentsOf_some hi.wf).1 hm
    refine ⟨id, h1, ?_⟩
    have := hi.sync id
    unfold SyncAt at this
    rw [h2] at this
    exact this
  | none =>
    rw [hc] at hm
    rw [Vfs.fileId_wf hi.wf]
    cases hx : s.vfs.paths.idxOf? p with
    | none => rfl
    | some i =>
      unfold Vfs.contentsOf at hm
      rw [hx] at hm
      simp only [Option.bind_some] at hm
      simp [hm]

/-! ### C40 -/

/-- C40, partial: the exact condition under which a batch of the file loader makes the server panic, in every
state that can be reached (as long as at most 2^32-1 files are stored).  The batch must be one that gives
a closed file contents it did not have, and leaves the file deleted. -/
theorem C40_batch_panics_partial {config : Config} {es : List (ServerEvent × Orders)} {s : Server}
    (h : run diagnosticsOf (.new config) es = some s) (hf : Follows (happened es))
    (first : LoaderMsg) (rest : List LoaderMsg) (o : Orders)
    (hb : storedFiles (happened es) + (writes (first :: rest)).length ≤ 4294967295) :
    handleEvent diagnosticsOf s (.loader first rest, o) = none ↔
      ∃ p, (fileAfter p (happened es)).1 = false ∧
        Creates (fun q => (fileAfter q (happened es)).2) (writes (first :: rest)) p ∧
        afterWrites (fun q => (fileAfter q (happened es)).2) (writes (first :: rest)) p = none := by
  have hp : s.vfs.paths.length ≤ storedFiles (happened es) := paths_run h
  rw [loader_none_iff diagnosticsOf_total (Inv.run h) (by omega)]
  have key : ∀ p, p ∉ openDocs s ↔ (fileAfter p (happened es)).1 = false := by
    intro p
    rw [(Mirror.run h hf p).isOpen]
    simp
  constructor
  · rintro ⟨p, h1, h2, h3⟩
    have hc := (Mirror.run h hf p).contents
    exact ⟨p, (key p).1 h1, (creates_congr hc _).1 h2, by
      rw [← afterWrites_congr (c := s.vfs.contentsOf) hc]; exact h3⟩
  · rintro ⟨p, h1, h2, h3⟩
    have hc := (Mirror.run h hf p).contents
    exact ⟨p, (key p).2 h1, (creates_congr hc _).2 h2, by
      rw [afterWrites_congr (c' := fun q => (fileAfter q (happened es)).2) hc]; exact h3⟩

/-- **C40 fails**: a file that is created and deleted before the server gets to process the two reports. -/
theorem C40_batch_fails : handleEvent diagnosticsOf (.new .default)
    (.loader (.loaded [("/a.lua", some (.utf8 []))]) [.loaded [("/a.lua", none)]], Orders.plain) = none := by
  have h := C40_batch_panics_partial (config := .default) (es := []) (s := .new .default) rfl
    (by intro past p v cs rest t h; simp at h)
    (.loaded [("/a.lua", some (.utf8 []))]) [.loaded [("/a.lua", none)]] Orders.plain
    (by simp [storedFiles, writes])
  refine h.2 ⟨"/a.lua", rfl, ⟨[], .utf8 [], [("/a.lua", none)], rfl, ?_⟩, ?_⟩
  · simp [afterWrites, fileAfter]
  · simp [afterWrites, writes]

/-- A batch that only creates and modifies files is handled. -/
example : ∃ s, handleEvent diagnosticsOf (.new .default)
    (.loader (.progress 1 0 1) [.loaded [("/a.lua", some (.utf8 [])), ("/a.lua", some (.utf8 ['x']))]], Orders.plain) =
      some s := by
  have h := C40_batch_panics_partial (config := .default) (es := []) (s := .new .default) rfl
    (by intro past p v cs rest t h; simp at h)
    (.progress 1 0 1) [.loaded [("/a.lua", some (.utf8 [])), ("/a.lua", some (.utf8 ['x']))]] Orders.plain
    (by simp [storedFiles, writes])
  cases hh : handleEvent diagnosticsOf (.new .default)
    (.loader (.progress 1 0 1) [.loaded [("/a.lua", some (.utf8 [])), ("/a.lua", some (.utf8 ['x']))]], Orders.plain) with
  | some s => exact ⟨s, rfl⟩
  | none =>
    obtain ⟨p, -, ⟨before, b, after, h2, -⟩, h3⟩ := h.1 hh
    exfalso
    by_cases hp : p = "/a.lua"
    · subst hp; simp [afterWrites, writes] at h3
    · have : (p, some b) ∈ [(("/a.lua" : AbsPath), some (Bytes.utf8 [])), ("/a.lua", some (.utf8 ['x']))] := by
        have h2' : [(("/a.lua" : AbsPath), some (Bytes.utf8 [])), ("/a.lua", some (.utf8 ['x']))] =
            before ++ (p, some b) :: after := h2
        rw [h2']; simp
      simp [hp] at this

/-! ### C41, C42 -/

/-- C41.  If the client uses distinct ids then after every history each of its requests has been answered at
most once, and nothing else has been answered; the requests not answered yet are exactly those for which a
response is in the task queue, so that after the queue has been drained every request has been answered
exactly once. -/
theorem C41_one_response {config : Config} {es : List (ServerEvent × Orders)} {s : Server}
    (h : run diagnosticsOf (.new config) es = some s) (hn : (requests (happened es)).Nodup) :
    (∀ id, answers id s.sent ≤ 1) ∧
    (∀ id, answers id s.sent = 1 → id ∈ requests (happened es)) ∧
    (∀ id ∈ requests (happened es), answers id s.sent = 0 → ∃ oc, Task.response id oc ∈ s.tasks) ∧
    (∀ o s', handleEvent diagnosticsOf s (.task, o) = some s' →
      s'.tasks = [] ∧ ∀ id ∈ requests (happened es), answers id s'.sent = 1) := by
  have hr := Reqs.run h
  have hc := hr.count hn
  refine ⟨fun id => ?_, fun id h1 => ?_, fun id h1 h2 => ?_, fun o s' h1 => ?_⟩
  · have := hc id; split at this <;> split at this <;> omega
  · have := hc id
    rw [h1] at this
    split at this
    · split at this
      · omega
      · omega
    · split at this
      · assumption
      · omega
  · have := hc id
    rw [h2, if_pos h1] at this
    have hin : id ∈ s.incoming := by
      split at this
      · assumption
      · omega
    obtain ⟨oc, ho⟩ := hr.queued id hin
    unfold responses at ho
    obtain ⟨t, ht1, ht2⟩ := List.mem_flatMap.1 ho
    cases t with
    | diagnostics => simp at ht2
    | response i oc' =>
      simp at ht2
      obtain ⟨rfl, rfl⟩ := ht2
      exact ⟨oc, ht1⟩
  · have hr' := hr.step (Inv.run h) h1
    have ht : s'.tasks = [] := by
      rw [task_event (Inv.run h)] at h1
      cases h1
      rfl
    refine ⟨ht, fun id hid => ?_⟩
    have hreq : requests (happened es ++ [.task]) = requests (happened es) := by rw [requests_snoc]; simp
    have := hr'.count (by rw [hreq]; exact hn) id
    rw [hreq, if_pos hid] at this
    have hni : id ∉ s'.incoming := by
      intro hm
      obtain ⟨oc, ho⟩ := hr'.queued id hm
      rw [ht] at ho
      simp [responses] at ho
    rw [if_neg hni] at this
    exact this

/-- C41.  Every response, whatever the history, is to a request of the history, and its outcome is the one
prescribed for that request: `InvalidRequest` after a shutdown request, otherwise `MethodNotFound` for unknown
methods, `InvalidParams` for bad parameters, and success for the rest. -/
theorem C41_outcomes {config : Config} {es : List (ServerEvent × Orders)} {s : Server}
    (h : run diagnosticsOf (.new config) es = some s) (id : ReqId) (oc : Outcome)
    (hm : Msg.response id oc ∈ s.sent) :
    ∃ past m ok rest, happened es = past ++ .request id m ok :: rest ∧ Prescribed past m ok oc :=
  (Reqs.run h).justSent id oc hm

/-- C42.  After a shutdown request, a request with an id that is not in flight is answered with
`InvalidRequest`, at once, and that is all that happens. -/
theorem C42_after_shutdown {config : Config} {es : List (ServerEvent × Orders)} {s : Server}
    (h : run diagnosticsOf (.new config) es = some s) (hs : ShutdownIn (happened es)) (id : ReqId) (m : Method)
    (ok : Bool) (o : Orders) (hid : id ∉ s.incoming) :
    handleEvent diagnosticsOf s (.request id m ok, o) = some { s with sent := s.sent ++ [.response id .invalidRequest] } := by
  have hsd := (Reqs.run h).shutdown.2 hs
  rw [request_event (Inv.run h)]
  rcases onRequest_spec s id m ok with hh | ⟨h1, -⟩
  · rw [hh, List.erase_of_not_mem hid, hsd]
    rcases s with ⟨_, _, _, _, _, _, _, _, _, _, _, _, _⟩
    simp only at hsd
    subst hsd
    rfl
  · rw [h1] at hsd; cases hsd

/-- C42.  An id that the client has not used, or whose request has been answered, is not in flight. -/
theorem C42_fresh_ids {config : Config} {es : List (ServerEvent × Orders)} {s : Server}
    (h : run diagnosticsOf (.new config) es = some s) (id : ReqId) :
    (id ∉ requests (happened es) → id ∉ s.incoming) ∧
    ((requests (happened es)).Nodup → answers id s.sent = 1 → id ∉ s.incoming) := by
  have hr := Reqs.run h
  refine ⟨fun h1 h2 => h1 (hr.sub id h2), fun h1 h2 h3 => ?_⟩
  have := hr.count h1 id
  rw [h2, if_pos h3] at this
  split at this <;> omega

/-- Non-vacuity of C41 and C42: completion is answered after shutdown (it was requested before), the
request after shutdown is refused. -/
example : (run diagnosticsOf (.new .default) ([.request (.int 1) .completion true, .request (.int 2) .unknown true,
      .request (.int 3) .shutdown true, .request (.int 4) .completion true, .task].map (·, Orders.plain))).map (·.sent) =
    some [.response (.int 2) .methodNotFound, .response (.int 3) .ok, .response (.int 4) .invalidRequest,
      .response (.int 1) .ok] := by rfl

/-! ### C43 -/

/-- C43, partial (missing: documents with lone carriage returns).  After every history in which the client's changes conform to the protocol, a document is open on the
server exactly if it is on the client; and then the server's contents for it, and the text it
analyses, are the client's text, whatever the file loader has reported for the file. -/
theorem C43_open_documents_mirrored_partial {config : Config} {es : List (ServerEvent × Orders)} {s : Server}
    (h : run diagnosticsOf (.new config) es = some s) (hf : Follows (happened es)) (p : AbsPath) :
    (p ∈ s.memDocs.map (·.1) ↔ ∃ text, clientText p (happened es) = some text) ∧
    ∀ text, clientText p (happened es) = some text → ∃ id, s.vfs.fileId p = some (some id) ∧
      s.vfs.fileContents id = some (.utf8 text) ∧ s.fileText id = some text := by
  have hi := Inv.run h
  have hm := Mirror.run h hf p
  refine ⟨?_, fun text ht => ?_⟩
  · constructor
    · intro ho
      have h1 := hm.isOpen.1 ho
      obtain ⟨t, ht⟩ := hi.docs p ho
      rw [hm.contents] at ht
      exact ⟨t, (hm.text t).2 (by rw [← h1, ← ht])⟩
    · rintro ⟨t, ht⟩
      exact hm.isOpen.2 (by rw [(hm.text t).1 ht])
  · have h1 := (hm.text text).1 ht
    have h2 := hm.contents
    rw [h1] at h2
    obtain ⟨id, h3, h4⟩ := (Vfs.contentsOf_some hi.wf).1 h2
    refine ⟨id, h3, h4, ?_⟩
    have := hi.sync id
    unfold SyncAt at this
    rw [h4] at this
    exact this

/-- The diagnostics of a text, as a table that agrees with `diagnosticsOf` (to evaluate examples). -/
theorem diagnosticsOf_table {t : Text} {ds : List Diag} (h : diagnosticsOf t = some ds) :
    diagnosticsOf = fun t' => if t' = t then some ds else diagnosticsOf t' := by
  funext t'
  split
  · rename_i e; rw [e, h]
  · rfl

/-- A text with one diagnostic. -/
def badText : Text := "x='\\q'".toList
def badDiag : Diag := ⟨⟨0, 3⟩, ⟨0, 5⟩, .error, "lua-analyzer", "Syntax Error: Invalid escape sequence"⟩

theorem badText_diagnostics : diagnosticsOf badText = some [badDiag] := by
  have h : sourceFileParse badText = .ok (assignTree .str "'\\q'".toList, [⟨"Invalid escape sequence", ⟨3, 5⟩⟩]) := by
    rw [sourceFileParse_eq_eval]; decide +kernel
  unfold diagnosticsOf
  rw [h]
  decide +kernel

theorem noText_diagnostics : diagnosticsOf [] = some [] := by
  have h : sourceFileParse [] = .ok (.node .sourceFile [.node .block []], []) := by
    rw [sourceFileParse_eq_eval]; decide +kernel
  unfold diagnosticsOf
  rw [h]
  decide +kernel

theorem diagnosticsOf_tables {t u : Text} {ds es : List Diag} (h : diagnosticsOf t = some ds)
    (h' : diagnosticsOf u = some es) :
    diagnosticsOf = fun t' => if t' = t then some ds else if t' = u then some es else diagnosticsOf t' := by
  funext t'
  split
  · rename_i e; rw [e, h]
  · split
    · rename_i e; rw [e, h']
    · rfl

/-- A history: open a document, the loader reports another text for it, edit the document. -/
def sampleHistory : List (ServerEvent × Orders) :=
  [.didOpen (.file "/a.lua") 1 [], .loader (.loaded [("/a.lua", some (.utf8 ['z']))]) [],
    .didChange (.file "/a.lua") 2 [⟨none, badText⟩]].map (·, Orders.plain)

/-- Non-vacuity of C43: its hypotheses hold of that history, which is handled without a panic. -/
example : Follows (happened sampleHistory) ∧ clientText "/a.lua" (happened sampleHistory) = some badText ∧
    AllAdmissible (happened sampleHistory) := by
  have ha : AllAdmissible (happened sampleHistory) := by
    intro past e rest h
    simp only [sampleHistory, happened, List.map_cons, List.map_nil] at h
    rcases past with _ | ⟨e1, _ | ⟨e2, _ | ⟨e3, past⟩⟩⟩
    · simp only [List.nil_append, List.cons.injEq] at h
      rw [← h.1]; trivial
    · simp only [List.cons_append, List.nil_append, List.cons.injEq] at h
      obtain ⟨rfl, rfl, -⟩ := h
      intro p hp hc hw
      by_cases he : "/a.lua" = p
      · subst he; simp [fileAfter] at hp
      · obtain ⟨before, b, after, h1, -⟩ := hc
        have : (p, some b) ∈ writes [.loaded [("/a.lua", some (.utf8 ['z']))]] := by rw [h1]; simp
        simp [writes] at this
        exact he this.1.symm
    · simp only [List.cons_append, List.nil_append, List.cons.injEq] at h
      obtain ⟨rfl, rfl, rfl, -⟩ := h
      intro t _
      exact ⟨fun s e h => (by cases h), fun t _ => trivial⟩
    · simp at h
  refine ⟨follows_of_admissible ha, ?_, ha⟩
  simp [clientText, happened, sampleHistory, applyChange]

/-- **C43 fails** for documents with lone carriage returns, which end lines in the protocol but not on the
server: the client's text is `a\rX\nc`, the server's `a\rb\nX`. -/
theorem C43_lone_cr_fails : let es := [.didOpen (.file "/a.lua") 1 "a\rb\nc".toList,
      .didChange (.file "/a.lua") 2 [⟨some (⟨1, 0⟩, ⟨1, 1⟩), "X".toList⟩]]
    clientText "/a.lua" es = some "a\rX\nc".toList ∧
    (run (fun _ => some []) (.new .default) (es.map (·, Orders.plain))).map (fun s => s.vfs.fileContents 0) =
      some (some (.utf8 "a\rb\nX".toList)) := by
  decide +kernel

/-! ### C44 -/

/-- C44, partial: every history is handled without a panic if, all along, the client's changes conform to the
protocol, its notifications are well formed and its responses are to configuration requests of the server
with absolute library paths, no batch of the loader creates a closed file and deletes it again,
and at most 2^32-1 files are stored.  (Missing: relative library paths, C54, and such batches, C40.) -/
theorem C44_no_panic_partial (config : Config) (es : List (ServerEvent × Orders))
    (ha : AllAdmissible (happened es)) (hb : storedFiles (happened es) ≤ 4294967295) :
    ∃ s, run diagnosticsOf (.new config) es = some s :=
  run_total diagnosticsOf_total config es ha hb

/-- **C44 fails** in general: a response to no request, malformed parameters of a known notification. -/
theorem C44_no_panic_fails :
    handleEvent diagnosticsOf (.new .default) (.response (.int 0) true none, Orders.plain) = none ∧
    handleEvent diagnosticsOf (.new .default) (.malformedNotification, Orders.plain) = none := ⟨rfl, rfl⟩

/-! ### C45 -/

/-- C45, partial: once the tasks queued have been handled, a client that follows the protocol shows, for every
document that is open and was never closed, exactly the diagnostics of its current text.
(Missing: documents that were closed and opened again.) -/
theorem C45_diagnostics_converge_partial {config : Config} {es : List (ServerEvent × Orders)} {s : Server}
    (h : run diagnosticsOf (.new config) es = some s) (hf : Follows (happened es)) (hq : s.tasks = [])
    {p : AbsPath} {text : Text} (ht : clientText p (happened es) = some text)
    (hc : ServerEvent.didClose (.file p) ∉ happened es) :
    shown p s.sent = diagnosticsOf text := by
  have hi := Inv.run h
  have hs := Shown.run h
  obtain ⟨h1, h2⟩ := C43_open_documents_mirrored_partial h hf p
  obtain ⟨id, h3, h4, h5⟩ := h2 text ht
  have hp := ((Vfs.fileId_iff hi.wf p id).1 h3).1
  obtain ⟨d, hd1, hd2⟩ := hs.latest p (h1.2 ⟨text, ht⟩) id text hp (by rw [Vfs.contentsOf_at hi.wf hp]; exact h4)
  unfold latest at hd2
  rw [hq] at hd2
  simp only [entries, List.flatMap_nil, List.reverse_nil, List.lookup_nil, Option.none_or] at hd2
  rcases hs.shown p with h6 | ⟨h6, -⟩
  · rw [h6, Vfs.idxOf?_of_get hi.wf.nodup hp, Option.bind_some, hd2, hd1]
  · exact absurd h6 hc

/-- C45, partial: for a document that was closed before and has been opened again, the client shows the
diagnostics of the current text or none. -/
theorem C45_reopened_partial {config : Config} {es : List (ServerEvent × Orders)} {s : Server}
    (h : run diagnosticsOf (.new config) es = some s) (hf : Follows (happened es)) (hq : s.tasks = [])
    {p : AbsPath} {text : Text} (ht : clientText p (happened es) = some text) :
    shown p s.sent = diagnosticsOf text ∨ shown p s.sent = some [] := by
  have hi := Inv.run h
  have hs := Shown.run h
  obtain ⟨h1, h2⟩ := C43_open_documents_mirrored_partial h hf p
  obtain ⟨id, h3, h4, h5⟩ := h2 text ht
  have hp := ((Vfs.fileId_iff hi.wf p id).1 h3).1
  obtain ⟨d, hd1, hd2⟩ := hs.latest p (h1.2 ⟨text, ht⟩) id text hp (by rw [Vfs.contentsOf_at hi.wf hp]; exact h4)
  unfold latest at hd2
  rw [hq] at hd2
  simp only [entries, List.flatMap_nil, List.reverse_nil, List.lookup_nil, Option.none_or] at hd2
  rcases hs.shown p with h6 | ⟨-, h6⟩
  · left; rw [h6, Vfs.idxOf?_of_get hi.wf.nodup hp, Option.bind_some, hd2, hd1]
  · exact Or.inr h6

/-- C45.  The task event empties the queue, in every state that can be reached: it is enough to handle it once
after the last other event. -/
theorem C45_drained {config : Config} {es : List (ServerEvent × Orders)} {s : Server}
    (h : run diagnosticsOf (.new config) es = some s) (o : Orders) :
    ∃ s', handleEvent diagnosticsOf s (.task, o) = some s' ∧ s'.tasks = [] := ⟨_, task_event (Inv.run h), rfl⟩

/-- Non-vacuity of C45. -/
example : (run diagnosticsOf (.new .default) (sampleHistory ++ [(.task, Orders.plain)])).map
    (fun s => (s.tasks, shown "/a.lua" s.sent)) = some ([], some [badDiag]) := by
  rw [diagnosticsOf_tables badText_diagnostics noText_diagnostics]
  decide +kernel

/-- **C45 fails** in general: the document is open with a bad text, the queue is empty, and the client
shows nothing. -/
theorem C45_reopen_fails : (run diagnosticsOf (.new .default) ([.didOpen (.file "/a.lua") 1 badText, .task,
      .didClose (.file "/a.lua"), .didOpen (.file "/a.lua") 2 badText, .task].map (·, Orders.plain))).map
    (fun s => (s.tasks, shown "/a.lua" s.sent)) = some ([], some []) ∧ diagnosticsOf badText = some [badDiag] := by
  refine ⟨?_, badText_diagnostics⟩
  rw [diagnosticsOf_table badText_diagnostics]
  decide +kernel

/-! ### C46 -/

/-- C46.  Closing a document sends an empty list of diagnostics for it, and nothing else. -/
theorem C46_close_clears {config : Config} {es : List (ServerEvent × Orders)} {s : Server}
    (h : run diagnosticsOf (.new config) es = some s) (p : AbsPath) (o : Orders) :
    ∃ s' v, handleEvent diagnosticsOf s (.didClose (.file p), o) = some s' ∧ p ∉ s'.memDocs.map (·.1) ∧
      s'.sent = s.sent ++ [.publishDiagnostics (.file p) v []] ∧ shown p s'.sent = some [] := by
  refine ⟨_, _, didClose_event (Inv.run h) _, ?_, rfl, ?_⟩
  · show p ∉ (removeDoc s.memDocs p).map (·.1)
    rw [removeDoc_keys]
    simp
  · show shown p (s.sent ++ [_]) = _
    rw [shown_snoc]; simp

/-- C46, partial: if no diagnostics of a document are queued when it is closed, no non-empty list is sent for it
until it is opened again.  (Missing: diagnostics queued when the document is closed.) -/
theorem C46_stays_clear_partial {config : Config} {es later : List (ServerEvent × Orders)} {s s' : Server}
    (h : run diagnosticsOf (.new config) es = some s) (p : AbsPath) (o : Orders)
    (hq : ∀ ds, Task.diagnostics ds ∈ s.tasks → ∀ x ∈ ds, s.vfs.filePath x.1 ≠ some p)
    (hl : ∀ v t, ServerEvent.didOpen (.file p) v t ∉ happened later)
    (h' : run diagnosticsOf s ((.didClose (.file p), o) :: later) = some s') :
    ∃ msgs, s'.sent = s.sent ++ msgs ∧ ∀ v ds, Msg.publishDiagnostics (.file p) v ds ∈ msgs → ds = [] := by
  have hi := Inv.run h
  have he := didClose_event (diag := diagnosticsOf) (o := o) hi (.file p)
  have hsil : Silent (s.didClose (.file p)) p := by
    refine ⟨?_, ?_⟩
    · show p ∉ (removeDoc s.memDocs p).map (·.1)
      rw [removeDoc_keys]
      simp
    · intro x hx
      obtain ⟨t, ht1, ht2⟩ := List.mem_flatMap.1 (show x ∈ entries s.tasks from hx)
      cases t with
      | response => simp at ht2
      | diagnostics ds => exact hq ds ht1 x ht2
  have h2 : run diagnosticsOf (s.didClose (.file p)) later = some s' := by
    unfold run at h' ⊢
    rw [List.foldlM_cons, he] at h'
    exact h'
  obtain ⟨-, ⟨ms, h3, h4⟩, -⟩ := hsil.run (hi.step he) hl h2
  refine ⟨.publishDiagnostics (.file p) (s.memDocs.lookup p) [] :: ms, ?_, ?_⟩
  · rw [h3]
    simp [didClose, send]
  · intro v ds hm
    rcases List.mem_cons.1 hm with e | hm
    · cases e; rfl
    · exact h4 v ds hm

/-- **C46 fails** in general: diagnostics that are queued when the document is closed are published after. -/
theorem C46_stays_clear_fails : (run diagnosticsOf (.new .default) ([.didOpen (.file "/a.lua") 1 badText,
      .didClose (.file "/a.lua"), .task].map (·, Orders.plain))).map (fun s => (s.memDocs, shown "/a.lua" s.sent)) =
    some ([], some [badDiag]) := by
  rw [diagnosticsOf_table badText_diagnostics]
  decide +kernel

/-! ### C54, C60: configuration -/

/-- What a configuration value says about the library. -/
inductive LibrarySetting (json : Json) (old : List String) : List String → Prop where
  /-- `null` and `{}` say nothing -/
  | unchanged (h : json = .null ∨ json = .obj []) : LibrarySetting json old old
  | valid (w : Json) (items : List Json) (ss : List String) (h0 : json ≠ .null ∧ json ≠ .obj [])
      (h1 : json.get "workspace" = some w) (h2 : w.get "library" = some (.arr items))
      (h3 : items = ss.map .str) : LibrarySetting json old ss
  /-- anything else means the default -/
  | invalid (h0 : json ≠ .null ∧ json ≠ .obj [])
      (h : ¬ ∃ (w : Json) (ss : List String), json.get "workspace" = some w ∧ w.get "library" = some (.arr (ss.map Json.str))) :
      LibrarySetting json old []

theorem toStrings_iff (items : List Json) (ss : List String) :
    (Json.arr items).toStrings = some ss ↔ items = ss.map .str := by
  simp only [Json.toStrings]
  rw [mapM_some_iff]
  induction items generalizing ss with
  | nil => cases ss <;> simp
  | cons x xs ih =>
    cases ss with
    | nil => simp
    | cons s ss =>
      simp only [List.map_cons, List.cons.injEq, ih]
      constructor
      · rintro ⟨h1, h2⟩
        cases x <;> simp at h1
        subst h1
        exact ⟨rfl, h2⟩
      · rintro ⟨rfl, h2⟩
        exact ⟨rfl, h2⟩

theorem update_setting (c : Config) (json : Json) : LibrarySetting json c.library (c.update json).library := by
  unfold Config.update
  split
  · exact .unchanged (Or.inl rfl)
  · exact .unchanged (Or.inr rfl)
  · rename_i hn1 hn2
    have h0 : json ≠ .null ∧ json ≠ .obj [] := ⟨hn1, hn2⟩
    by_cases h : ∃ (w : Json) (ss : List String), json.get "workspace" = some w ∧ w.get "library" = some (.arr (ss.map Json.str))
    · obtain ⟨w, ss, h1, h2⟩ := h
      have : (Config.fromJson json).library = ss := by
        simp [Config.fromJson, h1, h2, (toStrings_iff (ss.map .str) ss).2 rfl]
      rw [this]
      exact .valid w _ ss h0 h1 h2 rfl
    · have : (Config.fromJson json).library = [] := by
        unfold Config.fromJson
        cases h1 : json.get "workspace" with
        | none => rfl
        | some w =>
          cases h2 : w.get "library" with
          | none => simp [h2]
          | some l =>
            cases h3 : l.toStrings with
            | none => simp [h2, h3]
            | some ss =>
              exfalso
              obtain ⟨items, rfl, -⟩ := toStrings_mem h3
              exact h ⟨w, ss, h1, by rw [h2, (toStrings_iff items ss).1 h3]⟩
      rw [this]
      exact .invalid h0 h

/-- C54, partial: after every history, a configuration value sent in answer to a request of the server that is
still open is accepted if its library paths are absolute: invalid values mean the default.
(Missing: relative library paths.) -/
theorem C54_configuration_partial {config : Config} {es : List (ServerEvent × Orders)} {s : Server}
    (h : run diagnosticsOf (.new config) es = some s) (id : ReqId) (json : Json) (rest : List Json) (o : Orders)
    (h1 : ∃ k : Nat, k < configurationRequests (happened es) ∧ id = .int k) (h2 : id ∉ responseIds (happened es))
    (h3 : AbsoluteLibrary (some (.arr (json :: rest)))) :
    ∃ s', handleEvent diagnosticsOf s (.response id false (some (.arr (json :: rest))), o) = some s' ∧
      LibrarySetting json s.config.library s'.config.library := by
  have hi := Inv.run h
  rw [response_event hi]
  have hin := ((Outgoing.run h).mem id).2 ⟨h1, h2⟩
  obtain ⟨s', hs'⟩ := complete_total (error := false) hin h3
  refine ⟨s', hs', ?_⟩
  unfold completeRequest at hs'
  rw [if_pos hin] at hs'
  simp only [Bool.false_eq_true, if_false] at hs'
  have hc : s'.config = s.config.update json := by
    unfold updateConfiguration at hs'
    simp only at hs'
    split at hs'
    · unfold loadWorkspace at hs'
      simp only at hs'
      split at hs'
      · simp only [Option.some.injEq] at hs'
        rw [← hs']
      · cases hs'
    · simp only [Option.some.injEq] at hs'
      rw [← hs']
  rw [hc]
  exact update_setting _ _

/-- **C54 fails**: a relative library path ends the server. -/
theorem C54_configuration_fails : run diagnosticsOf (.new .default) ([.didChangeConfiguration,
    .response (.int 0) false (some (.arr [.obj [("workspace", .obj [("library", .arr [.str "lib"])])]]))].map
      (·, Orders.plain)) = none := by rfl

/-- Non-vacuity of C54: an absolute path is accepted, and loaded; then `{"workspace": 1}` means the default. -/
example : (run diagnosticsOf (.new .default) ([.didChangeConfiguration, .didChangeConfiguration,
    .response (.int 0) false (some (.arr [.obj [("workspace", .obj [("library", .arr [.str "/lib"])])]])),
    .response (.int 1) false (some (.arr [.obj [("workspace", .num "1")]]))].map
      (·, Orders.plain))).map (fun s => (s.config, s.loads)) = some (⟨[]⟩, [(1, ["/lib"]), (2, [])]) := by rfl

/-- The configurations given to the file loader, along a history. -/
structure Loads (initial : List String) (s : Server) : Prop where
  versions : s.loads.map (·.1) = List.range' 1 s.loads.length
  version : s.vfsConfigVersion = s.loads.length
  current : s.config.library = (s.loads.getLast?.map (·.2)).getD initial
  absolute : ∀ l ∈ s.loads, ∀ p ∈ l.2, p.toList.head? = some '/'

theorem Loads.of {initial : List String} {s s' : Server} (h : Loads initial s) (h1 : s'.loads = s.loads)
    (h2 : s'.vfsConfigVersion = s.vfsConfigVersion) (h3 : s'.config.library = s.config.library) : Loads initial s' :=
  ⟨by rw [h1]; exact h.versions, by rw [h1, h2]; exact h.version, by rw [h1, h3]; exact h.current,
    by rw [h1]; exact h.absolute⟩

theorem Loads.step {o} {initial : List String} {s s' : Server} {e : ServerEvent} (hi : Inv s) (h : Loads initial s)
    (he : handleEvent diagnosticsOf s (e, o) = some s') : Loads initial s' := by
  cases e with
  | response id error result =>
    rw [response_event hi] at he
    unfold completeRequest at he
    split at he
    · simp only at he
      split at he
      · simp only [Option.some.injEq] at he; subst he; exact h.of rfl rfl rfl
      · split at he
        · rename_i json _
          unfold updateConfiguration at he
          simp only at he
          split at he
          · unfold loadWorkspace at he
            simp only at he
            split at he
            · rename_i habs
              simp only [Option.some.injEq] at he
              subst he
              refine ⟨?_, ?_, ?_, ?_⟩
              · simp only [List.map_append, List.map_cons, List.map_nil, List.length_append, List.length_cons,
                  List.length_nil, h.versions, h.version]
                rw [List.range'_concat]
                simp [Nat.add_comm]
              · simp [h.version]
              · simp
              · intro l hl p hp
                rcases List.mem_append.1 hl with hl | hl
                · exact h.absolute l hl p hp
                · simp only [List.mem_singleton] at hl
                  subst hl
                  exact absolute_iff.1 (List.all_eq_true.1 habs p hp)
            · cases he
          · rename_i heq
            simp only [Option.some.injEq] at he
            subst he
            exact h.of rfl rfl (Classical.byContradiction heq)
        · simp only [Option.some.injEq] at he; subst he; exact h.of rfl rfl rfl
    · cases he
  | request id m ok =>
    rw [request_event hi] at he
    cases he
    rcases onRequest_spec s id m ok with hh | ⟨-, -, -, hh⟩ <;> rw [hh] <;> exact h.of rfl rfl rfl
  | didOpen uri version text =>
    cases uri with
    | other u => rw [idle_event hi rfl] at he; cases he; exact h
    | file q =>
      have ht := (didOpen_spec hi he).1
      exact h.of (by rw [ht.same]) (by rw [ht.same]) (by rw [ht.same])
  | didChange uri version changes =>
    by_cases hp : ∃ p, uri = .file p ∧ p ∈ openDocs s
    · obtain ⟨p, rfl, hp⟩ := hp
      obtain ⟨t, t', -, -, ht, -⟩ := didChange_spec hi hp he
      exact h.of (by rw [ht.same]) (by rw [ht.same]) (by rw [ht.same])
    · rw [didChange_ignored hi (fun p e h => hp ⟨p, e, h⟩)] at he
      cases he
      exact h
  | didClose uri => rw [didClose_event hi] at he; cases he; cases uri <;> exact h.of rfl rfl rfl
  | didSave uri => rw [idle_event hi rfl] at he; cases he; exact h
  | didChangeConfiguration => rw [configuration_event hi] at he; cases he; exact h.of rfl rfl rfl
  | malformedNotification => rw [quiet_none rfl] at he; cases he
  | unknownNotification => rw [idle_event hi rfl] at he; cases he; exact h
  | task => rw [task_event hi] at he; cases he; exact h.of rfl rfl rfl
  | loader first rest =>
    have ht := (loader_spec hi he).1
    exact h.of (by rw [ht.same]) (by rw [ht.same]) (by rw [ht.same])

/-- C60, partial: after every history, the configurations given to the file loader have the versions 1, 2, …,
name only absolute paths, and the last one is the current library, provided there has been one; if there has
been none, the library is still the one the server was started with.  (Missing: that one is loaded.) -/
theorem C60_library_loaded_partial {config : Config} {es : List (ServerEvent × Orders)} {s : Server}
    (h : run diagnosticsOf (.new config) es = some s) :
    s.loads.map (·.1) = List.range' 1 s.loads.length ∧ (∀ l ∈ s.loads, ∀ p ∈ l.2, p.toList.head? = some '/') ∧
    match s.loads.getLast? with
    | some (_, library) => library = s.config.library
    | none => s.config.library = config.library := by
  have hl : Loads config.library s := by
    induction es using history_ind generalizing s with
    | nil => cases h; exact ⟨rfl, rfl, rfl, fun l hl => by cases hl⟩
    | snoc es e ih =>
      obtain ⟨s1, h1, h2⟩ := run_snoc.1 h
      exact (ih h1).step (Inv.run h1) h2
  refine ⟨hl.versions, hl.absolute, ?_⟩
  have := hl.current
  cases hg : s.loads.getLast? with
  | none => rw [hg] at this; simpa using this
  | some l => rw [hg] at this; simpa using this.symm

/-- **C60 fails**: the library the server is started with is not loaded, and setting the same library again does not
load it either. -/
theorem C60_initial_library_fails : (run diagnosticsOf (.new ⟨["/lib"]⟩) ([.didChangeConfiguration,
    .response (.int 0) false (some (.arr [.obj [("workspace", .obj [("library", .arr [.str "/lib"])])]]))].map
      (·, Orders.plain))).map (fun s => (s.config.library, s.loads)) = some (["/lib"], []) := by rfl

end Verif
