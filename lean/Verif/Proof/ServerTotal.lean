import Verif.Proof.ServerRequests

/-
When the main loop panics.
-/
namespace Verif
open Spec

namespace Server

theorem creates_congr {c c' : AbsPath → Option Bytes} {p : AbsPath} (h : c p = c' p) (ws) :
    Creates c ws p ↔ Creates c' ws p := by
  unfold Creates
  constructor <;> rintro ⟨before, b, after, h1, h2⟩ <;> refine ⟨before, b, after, h1, ?_⟩
  · rw [← afterWrites_congr h]; exact h2
  · rw [afterWrites_congr h]; exact h2

/-- A batch of the loader makes the server panic exactly if it gives contents to a closed file that it deletes
again. -/
theorem loader_none_iff {diag o} {s : Server} (ht : ∀ t, ∃ d, diag t = some d) (hi : Inv s) {first : LoaderMsg}
    {rest : List LoaderMsg} (hb : s.vfs.paths.length + (writes (first :: rest)).length ≤ 4294967295) :
    handleEvent diag s (.loader first rest, o) = none ↔
      ∃ p, p ∉ openDocs s ∧ Creates s.vfs.contentsOf (writes (first :: rest)) p ∧
        afterWrites s.vfs.contentsOf (writes (first :: rest)) p = none := by
  constructor
  · intro h
    apply Classical.byContradiction
    intro hno
    obtain ⟨s1, h1, -⟩ := batch_total hi.wf hb
    obtain ⟨g1, g2, g3, g4, g5, g6, g7, g8, g9⟩ := batch_spec hi.mid h1
    have hmd : s1.memDocs = s.memDocs := by rw [g1]
    have hd : Docs s1 := by
      intro q hq
      have hq' : q ∈ openDocs s := by rw [openDocs, hmd] at hq; exact hq
      obtain ⟨t, ht⟩ := hi.docs q hq'
      exact ⟨t, by rw [g4, if_pos hq']; exact ht⟩
    have hbad : ¬ BadChange s1.vfs := by
      rintro ⟨c, hc1, hc2, hc3⟩
      have hlt : c.fileId < s1.vfs.paths.length := by
        rcases g9 c hc1 with hc | hc
        · rw [hi.changes] at hc; cases hc
        · exact hc
      have hp : s1.vfs.paths[c.fileId]? = some s1.vfs.paths[c.fileId] := List.getElem?_eq_getElem hlt
      rcases g7 c.fileId _ hp ⟨c, hc1, rfl, hc2⟩ with ⟨c', hc', -⟩ | ⟨e1, e2⟩
      · rw [hi.changes] at hc'; cases hc'
      · refine hno ⟨_, e1, e2, ?_⟩
        have := g4 s1.vfs.paths[c.fileId]
        rw [if_neg e1, Vfs.contentsOf_at g2.wf hp, hc3] at this
        exact this.symm
    obtain ⟨s', hs'⟩ := finish_total (o := o) ht g2 hd (by rw [g1]; exact hi.published) hbad
    unfold handleEvent at h
    simp only [dispatch] at h
    rw [handleLoader_eq, h1] at h
    simp only at h
    rw [hs'] at h
    cases h
  · rintro ⟨p, h1, h2, h3⟩
    cases h : handleEvent diag s (.loader first rest, o) with
    | none => rfl
    | some s' =>
      obtain ⟨-, -, g3, g4⟩ := loader_spec hi h
      have := g4 p h1 h2
      rw [g3, if_neg h1] at this
      exact absurd h3 this

/-- Writing text to one file and finishing the event. -/
theorem write_total {diag o} {s : Server} (ht : ∀ t, ∃ d, diag t = some d) (hi : Inv s) {p : AbsPath} {t : Text}
    {version : Int} {w : Vfs} {b : Bool} (hw : s.vfs.setFileContents p (some (.utf8 t)) = some (w, b)) :
    (∃ s', finishEvent diag o { s with memDocs := insertDoc s.memDocs p version, vfs := w } = some s') ∧
    (w.changes = [] → ∃ s', maybeUpdateDiagnostics diag o
      { s with memDocs := insertDoc s.memDocs p version, vfs := w } = some s') := by
  obtain ⟨id, hwr⟩ := Vfs.set_wrote hi.wf hw
  have hm : Mid { s with memDocs := insertDoc s.memDocs p version, vfs := w } := hi.mid.set hw rfl rfl
  have hcont := hwr.contentsOf hi.wf
  have hd : Docs { s with memDocs := insertDoc s.memDocs p version, vfs := w } := by
    intro q hq
    rcases (mem_insertDoc s.memDocs p q version).1 hq with rfl | hq'
    · exact ⟨t, by rw [hcont, if_pos rfl]⟩
    · by_cases hqp : q = p
      · exact ⟨t, by rw [hcont, if_pos hqp]⟩
      · obtain ⟨t', ht'⟩ := hi.docs q hq'
        exact ⟨t', by rw [hcont, if_neg hqp]; exact ht'⟩
  refine ⟨finish_total ht hm hd hi.published ?_, ?_⟩
  · rintro ⟨c, hc1, -, hc3⟩
    rw [show ({ s with memDocs := insertDoc s.memDocs p version, vfs := w } : Server).vfs.changes = w.changes from rfl,
      hwr.changes, hi.changes, List.nil_append] at hc1
    split at hc1
    · cases hc1
    · simp only [List.mem_singleton] at hc1
      subst hc1
      simp only [hwr.contents, if_pos] at hc3
      cases hc3
  · intro hn
    exact update_total ht hwr.wf hd fun i => hm.sync i (fun c hc => by
      rw [show ({ s with memDocs := insertDoc s.memDocs p version, vfs := w } : Server).vfs.changes = w.changes from rfl,
        hn] at hc
      cases hc)

theorem didOpen_total {diag o} {s : Server} (ht : ∀ t, ∃ d, diag t = some d) (hi : Inv s)
    (hb : s.vfs.paths.length < 4294967295) (uri : Uri) (version : Int) (t : Text) :
    ∃ s', handleEvent diag s (.didOpen uri version t, o) = some s' := by
  cases uri with
  | other u => exact ⟨s, idle_event hi rfl⟩
  | file p =>
    obtain ⟨w, b, hw⟩ := Vfs.set_some hi.wf p (some (.utf8 t)) (Or.inl hb)
    obtain ⟨id, hwr⟩ := Vfs.set_wrote hi.wf hw
    obtain ⟨h1, h2⟩ := write_total (o := o) (version := version) ht hi hw
    unfold handleEvent
    simp only [dispatch, didOpen, hw]
    cases b with
    | true =>
      simp only [Bool.not_true, Bool.false_eq_true, if_false]
      exact h1
    | false =>
      have hsame : s.vfs.fileContents id = some (.utf8 t) := by
        have hch := hwr.changed
        simpa using hch
      have hwc : w.changes = [] := by
        rw [hwr.changes, hi.changes, hsame]; simp [changeOf]
      obtain ⟨s2, hs2⟩ := h2 hwc
      simp only [Bool.not_false, if_true]
      rw [hs2]
      simp only
      have hs2' : s2 = { s with memDocs := insertDoc s.memDocs p version, vfs := w, tasks := s2.tasks } := by
        unfold maybeUpdateDiagnostics at hs2
        split at hs2
        · cases hs2
        · split at hs2
          · cases hs2
          · simp only [Option.some.injEq] at hs2
            rw [← hs2]
      rw [finish_quiet (by rw [hs2']; exact hwc), publish_nil (by rw [hs2']; exact hi.published)]
      exact ⟨_, rfl⟩

theorem didChange_total {diag o} {s : Server} (ht : ∀ t, ∃ d, diag t = some d) (hi : Inv s)
    (hb : s.vfs.paths.length ≤ 4294967295) (uri : Uri) (version : Int) (cs : List Lsp.Change)
    (hc : ∀ p t, uri = .file p → p ∈ openDocs s → s.vfs.contentsOf p = some (.utf8 t) →
      ∃ t', Lsp.applyDocumentChanges t cs = some t') :
    ∃ s', handleEvent diag s (.didChange uri version cs, o) = some s' := by
  by_cases hp : ∃ p, uri = .file p ∧ p ∈ openDocs s
  · obtain ⟨p, rfl, hp⟩ := hp
    obtain ⟨t, hct⟩ := hi.docs p hp
    obtain ⟨t', ht'⟩ := hc p t rfl hp hct
    obtain ⟨id, h1, h2⟩ := (Vfs.contentsOf_some hi.wf).1 hct
    have hmem : p ∈ s.vfs.paths := List.mem_of_getElem? ((Vfs.fileId_iff hi.wf p id).1 h1).1
    obtain ⟨w, b, hw⟩ := Vfs.set_some hi.wf p (some (.utf8 t')) (Or.inr ⟨hmem, hb⟩)
    obtain ⟨g1, -⟩ := write_total (o := o) (version := version) ht hi hw
    unfold handleEvent
    simp only [dispatch, didChange]
    rw [if_pos (mem_openDocs_contains.2 hp)]
    simp only [h1, Option.join_some, h2, Bytes.toText, ht', hw, Option.map_some]
    exact g1
  · exact ⟨s, didChange_ignored hi (fun p e h => hp ⟨p, e, h⟩)⟩

/-! ### the number of files -/

theorem publish_vfs {o} {s s' : Server} (h : publishChanges o s = some s') : s'.vfs = s.vfs := by
  unfold publishChanges at h
  split at h
  · cases h; rfl
  · rename_i d changes _
    have key : ∀ (l : List Nat) (s0 : Server), l.foldlM (init := s0) (fun s fileId =>
        (s.vfs.filePath fileId).map fun path =>
        s.send (.publishDiagnostics (.file path) (s.memDocs.lookup path) (s.diagnostics.diagnosticsFor fileId))) =
        some s' → s'.vfs = s0.vfs := by
      intro l
      induction l with
      | nil => intro s0 h; cases h; rfl
      | cons i l ih =>
        intro s0 h
        rw [List.foldlM_cons] at h
        cases hp : s0.vfs.filePath i with
        | none => rw [hp] at h; cases h
        | some path =>
          rw [hp] at h
          simp only [Option.map_some, Option.bind_eq_bind, Option.bind_some] at h
          have := ih _ h
          exact this
    have := key _ _ h
    exact this

theorem update_vfs {diag o} {s s' : Server} (h : maybeUpdateDiagnostics diag o s = some s') : s'.vfs = s.vfs := by
  unfold maybeUpdateDiagnostics at h
  split at h
  · cases h
  · split at h
    · cases h
    · simp only [Option.some.injEq] at h
      rw [← h]

theorem finish_paths {diag o} {s s' : Server} (h : finishEvent diag o s = some s') : s'.vfs.paths = s.vfs.paths := by
  unfold finishEvent at h
  cases hp : processChanges s with
  | none => rw [hp] at h; cases h
  | some r =>
    obtain ⟨s1, b⟩ := r
    rw [hp] at h
    simp only at h
    have h1 : s1.vfs.paths = s.vfs.paths := by
      rw [processChanges_eq] at hp
      split at hp
      · simp only [Option.some.injEq, Prod.mk.injEq] at hp
        rw [← hp.1]
      · split at hp
        · cases hp
        · simp only [Option.some.injEq, Prod.mk.injEq] at hp
          rw [← hp.1]
    cases b with
    | false =>
      simp only [Bool.false_eq_true, if_false] at h
      rw [publish_vfs h, h1]
    | true =>
      simp only [if_true] at h
      cases hu : maybeUpdateDiagnostics diag o s1 with
      | none => rw [hu] at h; cases h
      | some s2 =>
        rw [hu] at h
        rw [publish_vfs h, update_vfs hu, h1]

theorem storedFiles_snoc (es : List ServerEvent) (e : ServerEvent) :
    storedFiles (es ++ [e]) = storedFiles es + storedFiles [e] := by
  simp [storedFiles, List.sum_append]

theorem paths_step {diag o} {s s' : Server} {e : ServerEvent} (hi : Inv s) (h : handleEvent diag s (e, o) = some s') :
    s'.vfs.paths.length ≤ s.vfs.paths.length + storedFiles [e] := by
  have hk := step_kind hi h
  cases hk with
  | quiet h1 => rw [h1]; omega
  | task he =>
    subst he
    rw [task_event hi] at h
    cases h
    simp only; omega
  | touch ht hn =>
    cases e with
    | didOpen uri version text =>
      cases uri with
      | other u => rw [idle_event hi rfl] at h; cases h; omega
      | file p =>
        unfold handleEvent at h
        simp only [dispatch, didOpen] at h
        cases hw : s.vfs.setFileContents p (some (.utf8 text)) with
        | none => rw [hw] at h; cases h
        | some r =>
          obtain ⟨w, b⟩ := r
          rw [hw] at h
          simp only at h
          obtain ⟨id, hwr⟩ := Vfs.set_wrote hi.wf hw
          have hl : w.paths.length ≤ s.vfs.paths.length + 1 := by
            rcases hwr.paths with e | e <;> rw [e] <;> simp
          have hs : storedFiles [.didOpen (.file p) version text] = 1 := by simp [storedFiles]
          rw [hs]
          cases b with
          | true =>
            simp only [Bool.not_true, Bool.false_eq_true, if_false] at h
            rw [finish_paths h]; exact hl
          | false =>
            simp only [Bool.not_false, if_true] at h
            cases hu : maybeUpdateDiagnostics diag o { s with memDocs := insertDoc s.memDocs p version, vfs := w } with
            | none => rw [hu] at h; cases h
            | some s2 =>
              rw [hu] at h
              rw [finish_paths h, update_vfs hu]; exact hl
    | didChange uri version changes =>
      by_cases hp : ∃ p, uri = .file p ∧ p ∈ openDocs s
      · obtain ⟨p, rfl, hp⟩ := hp
        obtain ⟨t, hct⟩ := hi.docs p hp
        obtain ⟨id, h1, h2⟩ := (Vfs.contentsOf_some hi.wf).1 hct
        have hmem : p ∈ s.vfs.paths := List.mem_of_getElem? ((Vfs.fileId_iff hi.wf p id).1 h1).1
        unfold handleEvent at h
        simp only [dispatch, didChange] at h
        rw [if_pos (mem_openDocs_contains.2 hp)] at h
        simp only [h1, Option.join_some, h2, Bytes.toText] at h
        cases hc : Lsp.applyDocumentChanges t changes with
        | none => rw [hc] at h; cases h
        | some t' =>
          rw [hc] at h
          simp only at h
          cases hw : s.vfs.setFileContents p (some (.utf8 t')) with
          | none => rw [hw] at h; cases h
          | some r =>
            obtain ⟨w, b⟩ := r
            rw [hw] at h
            simp only [Option.map_some] at h
            rw [finish_paths h]
            obtain ⟨id', hwr⟩ := Vfs.set_wrote hi.wf hw
            rcases hwr.paths with e | e
            · simp only; rw [e]; omega
            · exfalso
              have := hwr.wf.nodup
              rw [e, List.nodup_append] at this
              exact this.2.2 p hmem p (by simp) rfl
      · rw [didChange_ignored hi (fun p e h => hp ⟨p, e, h⟩)] at h
        cases h
        omega
    | loader first rest =>
      have hs : storedFiles [.loader first rest] = (writes (first :: rest)).length := by simp [storedFiles]
      rw [hs]
      unfold handleEvent at h
      simp only [dispatch] at h
      rw [handleLoader_eq] at h
      cases hf : (writes (first :: rest)).foldlM writeFile s with
      | none => rw [hf] at h; cases h
      | some s1 =>
        rw [hf] at h
        simp only at h
        rw [finish_paths h]
        have key : ∀ (ws : List (AbsPath × Option Bytes)) (s : Server), s.vfs.WF → ws.foldlM writeFile s = some s1 →
            s1.vfs.paths.length ≤ s.vfs.paths.length + ws.length := by
          intro ws
          induction ws with
          | nil => intro s _ h; cases h; simp
          | cons f ws ih =>
            intro s hwf h
            rw [List.foldlM_cons] at h
            unfold writeFile at h
            by_cases ho : (s.memDocs.map (·.1)).contains f.1 = true
            · rw [if_pos ho] at h
              have := ih s hwf h
              simp only [List.length_cons]; omega
            · rw [if_neg ho] at h
              cases hw : s.vfs.setFileContents f.1 f.2 with
              | none => rw [hw] at h; cases h
              | some r =>
                obtain ⟨w, b⟩ := r
                rw [hw] at h
                obtain ⟨id, hwr⟩ := Vfs.set_wrote hwf hw
                have := ih _ hwr.wf h
                have hl : w.paths.length ≤ s.vfs.paths.length + 1 := by
                  rcases hwr.paths with e | e <;> rw [e] <;> simp
                simp only at this
                simp only [List.length_cons]; omega
        exact key _ _ hi.wf hf
    | request id m ok =>
      rw [request_event hi] at h
      cases h
      rcases onRequest_spec s id m ok with h | ⟨-, -, -, h⟩ <;> rw [h] <;> simp only <;> omega
    | didClose uri =>
      rw [didClose_event hi] at h
      cases h
      cases uri <;> simp only [didClose, send] <;> omega
    | didSave uri => rw [idle_event hi rfl] at h; cases h; omega
    | didChangeConfiguration => rw [configuration_event hi] at h; cases h; simp only [didChangeConfiguration, send]; omega
    | malformedNotification => rw [quiet_none rfl] at h; cases h
    | unknownNotification => rw [idle_event hi rfl] at h; cases h; omega
    | response id error result =>
      rw [response_event hi] at h
      rw [completeRequest_spec h]; simp only; omega
    | task =>
      rw [task_event hi] at h
      cases h
      simp only; omega

theorem paths_run {diag} {config : Config} {es : List (ServerEvent × Orders)} {s : Server}
    (h : Server.run diag (.new config) es = some s) : s.vfs.paths.length ≤ storedFiles (es.map (·.1)) := by
  induction es using history_ind generalizing s with
  | nil => cases h; simp [Server.new, Vfs.default]
  | snoc es e ih =>
    obtain ⟨s1, h1, h2⟩ := run_snoc.1 h
    have := ih h1
    have := paths_step (Inv.run h1) h2
    rw [List.map_append, List.map_cons, List.map_nil, storedFiles_snoc]
    omega

/-! ### requests of the server -/

theorem configurationRequests_snoc (es : List ServerEvent) (e : ServerEvent) :
    configurationRequests (es ++ [e]) = configurationRequests es + (match e with | .didChangeConfiguration => 1 | _ => 0) := by
  unfold configurationRequests
  rw [List.filter_append, List.length_append]
  cases e <;> rfl

theorem responseIds_snoc (es : List ServerEvent) (e : ServerEvent) :
    responseIds (es ++ [e]) = responseIds es ++ (match e with | .response id _ _ => [id] | _ => []) := by
  unfold responseIds
  rw [List.filterMap_append]
  cases e <;> rfl

structure Outgoing (s : Server) (es : List ServerEvent) : Prop where
  next : s.nextOutgoing = configurationRequests es
  nodup : s.outgoing.Nodup
  past : ∀ id ∈ responseIds es, ∃ k : Nat, k < configurationRequests es ∧ id = .int k
  mem : ∀ id, id ∈ s.outgoing ↔ (∃ k : Nat, k < configurationRequests es ∧ id = .int k) ∧ id ∉ responseIds es

theorem Outgoing.keep {s s' : Server} {es : List ServerEvent} {e : ServerEvent} (h : Outgoing s es)
    (h1 : configurationRequests (es ++ [e]) = configurationRequests es) (h2 : responseIds (es ++ [e]) = responseIds es)
    (h3 : s'.nextOutgoing = s.nextOutgoing) (h4 : s'.outgoing = s.outgoing) : Outgoing s' (es ++ [e]) :=
  ⟨by rw [h3, h1]; exact h.next, by rw [h4]; exact h.nodup, by rw [h1, h2]; exact h.past,
    by rw [h1, h2, h4]; exact h.mem⟩

theorem Outgoing.step {diag o} {s s' : Server} {es : List ServerEvent} {e : ServerEvent} (hi : Inv s)
    (h : Outgoing s es) (he : handleEvent diag s (e, o) = some s') : Outgoing s' (es ++ [e]) := by
  have hc := configurationRequests_snoc es e
  have hr := responseIds_snoc es e
  have hidle : dispatch diag o s e = some s → configurationRequests (es ++ [e]) = configurationRequests es →
      responseIds (es ++ [e]) = responseIds es → Outgoing s' (es ++ [e]) := by
    intro hd h1 h2
    rw [idle_event hi hd] at he
    cases he
    exact h.keep h1 h2 rfl rfl
  have htouch : Touch diag s s' → configurationRequests (es ++ [e]) = configurationRequests es →
      responseIds (es ++ [e]) = responseIds es → Outgoing s' (es ++ [e]) := by
    intro ht h1 h2
    exact h.keep h1 h2 (by rw [ht.same]) (by rw [ht.same])
  cases e with
  | request id m ok =>
    rw [request_event hi] at he
    cases he
    rcases onRequest_spec s id m ok with hh | ⟨-, -, -, hh⟩
    · exact h.keep hc (by simpa using hr) (by rw [hh]) (by rw [hh])
    · exact h.keep hc (by simpa using hr) (by rw [hh]) (by rw [hh])
  | didOpen uri version text =>
    cases uri with
    | other u => exact hidle rfl hc (by simpa using hr)
    | file q => exact htouch (didOpen_spec hi he).1 hc (by simpa using hr)
  | didChange uri version changes =>
    by_cases hp : ∃ p, uri = .file p ∧ p ∈ openDocs s
    · obtain ⟨p, rfl, hp⟩ := hp
      obtain ⟨t, t', -, -, h1, -⟩ := didChange_spec hi hp he
      exact htouch h1 hc (by simpa using hr)
    · rw [didChange_ignored hi (fun p e h => hp ⟨p, e, h⟩)] at he
      cases he
      exact h.keep hc (by simpa using hr) rfl rfl
  | didClose uri =>
    rw [didClose_event hi] at he
    cases he
    cases uri <;> exact h.keep hc (by simpa using hr) rfl rfl
  | didSave uri => exact hidle rfl hc (by simpa using hr)
  | didChangeConfiguration =>
    rw [configuration_event hi] at he
    cases he
    simp only [List.append_nil] at hc hr
    have hnew : ReqId.int s.nextOutgoing ∉ responseIds es := by
      intro hm
      obtain ⟨k, hk, e⟩ := h.past _ hm
      rw [ReqId.int.injEq] at e
      have := h.next
      omega
    have hnout : ReqId.int s.nextOutgoing ∉ s.outgoing := by
      intro hm
      obtain ⟨⟨k, hk, e⟩, -⟩ := (h.mem _).1 hm
      rw [ReqId.int.injEq] at e
      have := h.next
      omega
    refine ⟨?_, ?_, ?_, ?_⟩
    · show s.nextOutgoing + 1 = _
      rw [hc, h.next]
    · show (s.outgoing ++ [ReqId.int s.nextOutgoing]).Nodup
      rw [List.nodup_append]
      refine ⟨h.nodup, by simp, ?_⟩
      intro a ha b hb e
      simp at hb; subst hb; subst e; exact hnout ha
    · rw [hc, hr]
      intro id hid
      obtain ⟨k, hk, e⟩ := h.past id hid
      exact ⟨k, by omega, e⟩
    · intro id
      show id ∈ s.outgoing ++ [ReqId.int s.nextOutgoing] ↔ _
      rw [hc, hr, List.mem_append, h.mem, List.mem_singleton]
      constructor
      · rintro (⟨⟨k, hk, e⟩, hn⟩ | rfl)
        · exact ⟨⟨k, by omega, e⟩, hn⟩
        · exact ⟨⟨s.nextOutgoing, by rw [h.next]; omega, rfl⟩, hnew⟩
      · rintro ⟨⟨k, hk, rfl⟩, hn⟩
        by_cases hk' : k < configurationRequests es
        · exact Or.inl ⟨⟨k, hk', rfl⟩, hn⟩
        · right
          rw [h.next]
          congr 2
          omega
  | malformedNotification => rw [quiet_none rfl] at he; cases he
  | unknownNotification => exact hidle rfl hc (by simpa using hr)
  | response id error result =>
    rw [response_event hi] at he
    have hin : id ∈ s.outgoing := by
      unfold completeRequest at he
      by_cases hid : id ∈ s.outgoing
      · exact hid
      · rw [if_neg hid] at he; cases he
    have hs := completeRequest_spec he
    have h1 : s'.outgoing = s.outgoing.erase id := by rw [hs]
    have h2 : s'.nextOutgoing = s.nextOutgoing := by rw [hs]
    simp only [Nat.add_zero] at hc
    refine ⟨by rw [h2, hc]; exact h.next, by rw [h1]; exact h.nodup.erase _, ?_, ?_⟩
    · rw [hc, hr]
      intro i hm
      rcases List.mem_append.1 hm with hm | hm
      · exact h.past i hm
      · simp only [List.mem_singleton] at hm
        subst hm
        exact ((h.mem _).1 hin).1
    · intro i
      rw [h1, h.nodup.mem_erase_iff, hc, hr, h.mem]
      simp only [List.mem_append, List.mem_singleton]
      constructor
      · rintro ⟨a, b, c⟩
        exact ⟨b, fun hh => hh.elim c a⟩
      · rintro ⟨b, c⟩
        exact ⟨fun hh => c (Or.inr hh), b, fun hh => c (Or.inl hh)⟩
  | task =>
    rw [task_event hi] at he
    cases he
    exact h.keep hc (by simpa using hr) rfl rfl
  | loader first rest => exact htouch (loader_spec hi he).1 hc (by simpa using hr)

theorem Outgoing.run {diag} {config : Config} {es : List (ServerEvent × Orders)} {s : Server}
    (h : Server.run diag (.new config) es = some s) : Outgoing s (es.map (·.1)) := by
  induction es using history_ind generalizing s with
  | nil =>
    cases h
    exact ⟨rfl, by simp [Server.new], by simp [responseIds], by simp [Server.new, configurationRequests]⟩
  | snoc es e ih =>
    obtain ⟨s1, h1, h2⟩ := run_snoc.1 h
    rw [List.map_append]
    exact (ih h1).step (Inv.run h1) h2

/-! ### configuration -/

theorem toStrings_mem {json : Json} {l : List String} (h : json.toStrings = some l) :
    ∃ items, json = .arr items ∧ ∀ s ∈ l, Json.str s ∈ items := by
  cases json with
  | arr items =>
    refine ⟨items, rfl, ?_⟩
    simp only [Json.toStrings] at h
    have h1 := (mapM_some_iff _ _ _).1 h
    intro s hs
    have hmem : some s ∈ l.map some := List.mem_map_of_mem hs
    rw [← h1] at hmem
    obtain ⟨x, hx, he⟩ := List.mem_map.1 hmem
    cases x <;> simp at he
    subst he
    exact hx
  | _ => simp [Json.toStrings] at h

theorem absolute_iff {path : String} : isAbsolute path = true ↔ path.toList.head? = some '/' := by
  unfold isAbsolute
  split
  · rename_i h; simp [h]
  · rename_i h
    cases hp : path.toList with
    | nil => simp
    | cons c cs =>
      refine ⟨nofun, fun e => ?_⟩
      simp only [List.head?_cons, Option.some.injEq] at e
      exact absurd (e ▸ hp) (h cs)

theorem fromJson_absolute {json : Json} {rest : List Json} (h : AbsoluteLibrary (some (.arr (json :: rest)))) :
    (Config.fromJson json).library.all isAbsolute = true := by
  unfold Config.fromJson
  simp only [List.all_eq_true]
  intro s hs
  cases h1 : json.get "workspace" with
  | none => rw [h1] at hs; simp at hs
  | some w =>
    cases h2 : w.get "library" with
    | none => rw [h1] at hs; simp [h2] at hs
    | some l =>
      cases h3 : l.toStrings with
      | none => rw [h1] at hs; simp [h2, h3] at hs
      | some ss =>
        rw [h1] at hs
        simp [h2, h3] at hs
        obtain ⟨items, rfl, h4⟩ := toStrings_mem h3
        exact absolute_iff.2 (h w _ items h1 h2 rfl s (h4 s hs))

theorem complete_total {s : Server} {id : ReqId} {error : Bool} {result : Option Json} (h : id ∈ s.outgoing)
    (hl : AbsoluteLibrary result) : ∃ s', s.completeRequest id error result = some s' := by
  unfold completeRequest
  rw [if_pos h]
  simp only
  cases error with
  | true => exact ⟨_, rfl⟩
  | false =>
    simp only [Bool.false_eq_true, if_false]
    split
    · rename_i json rest
      unfold updateConfiguration
      simp only
      split
      · rename_i hne
        have : (Config.update s.config json) = Config.fromJson json := by
          unfold Config.update at hne ⊢
          split
          · exact absurd rfl hne
          · exact absurd rfl hne
          · rfl
        unfold loadWorkspace
        simp only
        rw [if_pos (by rw [this]; exact fromJson_absolute hl)]
        exact ⟨_, rfl⟩
      · exact ⟨_, rfl⟩
    · exact ⟨_, rfl⟩

/-! ### totality -/

theorem follows_of_admissible {es : List ServerEvent} (h : AllAdmissible es) : Follows es := by
  intro past p v cs rest t h1 h2
  exact h past _ rest h1 t h2

theorem event_total {diag o} (ht : ∀ t, ∃ d, diag t = some d) {s : Server} {es : List ServerEvent} {e : ServerEvent}
    (hi : Inv s) (hm : ∀ p, Mirror s es p) (ho : Outgoing s es) (ha : Admissible es e)
    (hb : s.vfs.paths.length + storedFiles [e] ≤ 4294967295) : ∃ s', handleEvent diag s (e, o) = some s' := by
  cases e with
  | request id m ok => exact ⟨_, request_event hi id m ok⟩
  | didOpen uri version text =>
    have : storedFiles [.didOpen uri version text] = 1 := by simp [storedFiles]
    exact didOpen_total ht hi (by omega) uri version text
  | didChange uri version changes =>
    refine didChange_total ht hi (by omega) uri version changes ?_
    rintro p t rfl hp hc
    have h1 := (hm p).isOpen.1 hp
    have h2 := (hm p).contents
    rw [hc] at h2
    have h3 := ((hm p).text t).2 (by rw [← h1, h2])
    obtain ⟨new, -, h4⟩ := Lsp.applyDocumentChanges_conforming t changes (ha t h3)
    exact ⟨new, h4⟩
  | didClose uri => exact ⟨_, didClose_event hi uri⟩
  | didSave uri => exact ⟨_, idle_event hi rfl⟩
  | didChangeConfiguration => exact ⟨_, configuration_event hi⟩
  | malformedNotification => exact ha.elim
  | unknownNotification => exact ⟨_, idle_event hi rfl⟩
  | response id error result =>
    rw [response_event hi]
    obtain ⟨h1, h2, h3⟩ := ha
    exact complete_total ((ho.mem id).2 ⟨h1, h2⟩) h3
  | task => exact ⟨_, task_event hi⟩
  | loader first rest =>
    have hs : storedFiles [.loader first rest] = (writes (first :: rest)).length := by simp [storedFiles]
    rw [hs] at hb
    cases h : handleEvent diag s (.loader first rest, o) with
    | some s' => exact ⟨s', rfl⟩
    | none =>
      obtain ⟨p, h1, h2, h3⟩ := (loader_none_iff ht hi hb).1 h
      have hf : (fileAfter p es).1 = false := by
        cases hb : (fileAfter p es).1 with
        | false => rfl
        | true => exact absurd ((hm p).isOpen.2 hb) h1
      refine absurd ?_ (ha p hf ((creates_congr (hm p).contents _).1 h2))
      rw [← afterWrites_congr (c := s.vfs.contentsOf) (hm p).contents]
      exact h3

theorem run_total {diag} (ht : ∀ t, ∃ d, diag t = some d) (config : Config) (es : List (ServerEvent × Orders))
    (ha : AllAdmissible (es.map (·.1))) (hb : storedFiles (es.map (·.1)) ≤ 4294967295) :
    ∃ s, Server.run diag (.new config) es = some s := by
  induction es using history_ind with
  | nil => exact ⟨_, rfl⟩
  | snoc es e ih =>
    rw [List.map_append, List.map_cons, List.map_nil, storedFiles_snoc] at hb
    have ha' : AllAdmissible (es.map (·.1)) := by
      intro past e' rest h
      exact ha past e' (rest ++ [e.1]) (by rw [List.map_append, h]; simp)
    obtain ⟨s1, h1⟩ := ih ha' (by omega)
    have hp := paths_run h1
    obtain ⟨s', hs'⟩ := event_total (o := e.2) ht (Inv.run h1)
      (fun p => Mirror.run h1 (follows_of_admissible ha') p) (Outgoing.run h1) (e := e.1)
      (ha (es.map (·.1)) e.1 [] (by simp)) (by omega)
    exact ⟨s', run_snoc.2 ⟨s1, h1, hs'⟩⟩

end Server
end Verif
