import Verif.Spec.Fatal
import Verif.Props.ServerPositions
import Verif.Props.Server

/-
C89: documents as the server reads them.  C90: exactly which events end the server.  C91: the libraries loaded.
-/
namespace Verif
open Spec Server

theorem serverFile_snoc (p : AbsPath) (es : List ServerEvent) (e : ServerEvent) :
    serverFile p (es ++ [e]) = (match e with
    | .didOpen (.file q) _ text => if q = p then (true, some (.utf8 text)) else serverFile p es
    | .didChange (.file q) _ changes =>
      match serverFile p es with
      | (true, some (.utf8 text)) => if q = p then (true, (ServerSpec.served text changes).map .utf8) else serverFile p es
      | _ => serverFile p es
    | .didClose (.file q) => if q = p then (false, (serverFile p es).2) else serverFile p es
    | .loader first rest =>
      if (serverFile p es).1 then serverFile p es
      else (false, afterWrites (fun _ => (serverFile p es).2) (writes (first :: rest)) p)
    | _ => serverFile p es) := by
  unfold serverFile
  rw [List.foldl_append]
  rfl

structure Image (s : Server) (es : List ServerEvent) (p : AbsPath) : Prop where
  isOpen : p ∈ openDocs s ↔ (serverFile p es).1 = true
  contents : s.vfs.contentsOf p = (serverFile p es).2

theorem Image.keep {s s' : Server} {es : List ServerEvent} {p : AbsPath} (h : Image s es p) {e : ServerEvent}
    (hf : serverFile p (es ++ [e]) = serverFile p es)
    (ho : p ∈ openDocs s' ↔ p ∈ openDocs s) (hv : s'.vfs.contentsOf p = s.vfs.contentsOf p) : Image s' (es ++ [e]) p :=
  ⟨by rw [ho, hf]; exact h.isOpen, by rw [hv, hf]; exact h.contents⟩

theorem Image.open {s : Server} {es : List ServerEvent} {p : AbsPath} (h : Image s es p) (hi : Inv s)
    (ho : p ∈ openDocs s) : ∃ t, s.vfs.contentsOf p = some (.utf8 t) ∧ serverFile p es = (true, some (.utf8 t)) := by
  obtain ⟨t, ht⟩ := hi.docs p ho
  refine ⟨t, ht, ?_⟩
  have h1 := h.isOpen.1 ho
  have h2 := h.contents
  rw [ht] at h2
  rw [← h1, h2]

theorem Image.step {diag o} {s s' : Server} {es : List ServerEvent} {e : ServerEvent} {p : AbsPath} (hi : Inv s)
    (h : handleEvent diag s (e, o) = some s') (hm : Image s es p) : Image s' (es ++ [e]) p := by
  have hidle : dispatch diag o s e = some s → serverFile p (es ++ [e]) = serverFile p es → Image s' (es ++ [e]) p := by
    intro hd h1
    rw [idle_event hi hd] at h
    cases h
    exact hm.keep h1 Iff.rfl rfl
  cases e with
  | request id m ok =>
    rw [request_event hi] at h
    cases h
    refine hm.keep (serverFile_snoc _ _ _) ?_ ?_
    · rcases onRequest_spec s id m ok with h | ⟨-, -, -, h⟩ <;> rw [h] <;> rfl
    · rcases onRequest_spec s id m ok with h | ⟨-, -, -, h⟩ <;> rw [h]
  | didOpen uri version text =>
    cases uri with
    | other u => exact hidle rfl (serverFile_snoc _ _ _)
    | file q =>
      obtain ⟨-, h2, h3, -⟩ := didOpen_spec hi h
      have ho : p ∈ openDocs s' ↔ p = q ∨ p ∈ openDocs s := by
        rw [openDocs, h2]; exact mem_insertDoc _ _ _ _
      by_cases hq : q = p
      · subst hq
        refine ⟨?_, ?_⟩
        · rw [ho, serverFile_snoc]; simp
        · rw [h3, serverFile_snoc]; simp
      · refine hm.keep (by rw [serverFile_snoc]; simp [hq]) ?_ ?_
        · rw [ho]
          exact ⟨fun h => h.resolve_left (fun e => hq e.symm), Or.inr⟩
        · rw [h3, if_neg (fun e => hq e.symm)]
  | didChange uri version changes =>
    cases uri with
    | other u => exact hidle rfl (serverFile_snoc _ _ _)
    | file q =>
      by_cases ho : q ∈ openDocs s
      · obtain ⟨t, t', h1, h2, -, h3, h4⟩ := didChange_spec hi ho h
        have hod : p ∈ openDocs s' ↔ p ∈ openDocs s := by
          rw [openDocs, h3, mem_insertDoc]
          constructor
          · rintro (rfl | h)
            · exact ho
            · exact h
          · exact Or.inr
        rw [Lsp.C88_changes] at h2
        by_cases hq : q = p
        · subst hq
          obtain ⟨t2, h5, h6⟩ := hm.open hi ho
          rw [h1] at h5; cases h5
          refine ⟨?_, ?_⟩
          · rw [hod, serverFile_snoc]; simp only [h6, if_true]; exact ⟨fun _ => trivial, fun _ => ho⟩
          · rw [h4, serverFile_snoc]; simp [h6, h2]
        · refine hm.keep ?_ hod ?_
          · rw [serverFile_snoc]
            simp only [if_neg hq]
            split <;> rfl
          · rw [h4, if_neg (fun e => hq e.symm)]
      · rw [didChange_ignored hi (fun p e h => ho (by cases e; exact h))] at h
        cases h
        refine hm.keep ?_ Iff.rfl rfl
        rw [serverFile_snoc]
        simp only
        split
        · rename_i text heq
          rw [if_neg]
          rintro rfl
          exact ho (hm.isOpen.2 (by rw [heq]))
        · rfl
  | didClose uri =>
    rw [didClose_event hi] at h
    cases h
    cases uri with
    | other u => exact hm.keep (serverFile_snoc _ _ _) Iff.rfl rfl
    | file q =>
      have hod : p ∈ openDocs (s.didClose (.file q)) ↔ p ∈ openDocs s ∧ p ≠ q := by
        show p ∈ (removeDoc s.memDocs q).map (·.1) ↔ _
        rw [removeDoc_keys]
        simp [openDocs]
      by_cases hq : q = p
      · subst hq
        refine ⟨?_, ?_⟩
        · rw [hod, serverFile_snoc]; simp
        · rw [serverFile_snoc]; simp only [if_true]; exact hm.contents
      · refine hm.keep (by rw [serverFile_snoc]; simp [hq]) ?_ rfl
        rw [hod]
        exact ⟨fun h => h.1, fun h => ⟨h, fun e => hq e.symm⟩⟩
  | didSave uri => exact hidle rfl (serverFile_snoc _ _ _)
  | didChangeConfiguration =>
    rw [configuration_event hi] at h
    cases h
    exact hm.keep (serverFile_snoc _ _ _) Iff.rfl rfl
  | malformedNotification => rw [quiet_none rfl] at h; cases h
  | unknownNotification => exact hidle rfl (serverFile_snoc _ _ _)
  | response id error result =>
    rw [response_event hi] at h
    have := completeRequest_spec h
    exact hm.keep (serverFile_snoc _ _ _) (by rw [this]; rfl) (by rw [this])
  | task =>
    rw [task_event hi] at h
    cases h
    exact hm.keep (serverFile_snoc _ _ _) Iff.rfl rfl
  | loader first rest =>
    obtain ⟨-, h2, h3, -⟩ := loader_spec hi h
    have hod : p ∈ openDocs s' ↔ p ∈ openDocs s := by rw [openDocs, h2]; rfl
    cases hb : (serverFile p es).1 with
    | true =>
      refine hm.keep (by rw [serverFile_snoc]; simp [hb]) hod ?_
      rw [h3, if_pos (hm.isOpen.2 hb)]
    | false =>
      have ho : p ∉ openDocs s := fun h => by rw [hm.isOpen, hb] at h; cases h
      refine ⟨?_, ?_⟩
      · rw [hod, serverFile_snoc]; simp [ho, hb]
      · rw [h3, if_neg ho, serverFile_snoc]
        simp only [hb, Bool.false_eq_true, if_false]
        exact afterWrites_congr hm.contents _

theorem Image.run {diag} {config : Config} {es : List (ServerEvent × Orders)} {s : Server}
    (h : Server.run diag (.new config) es = some s) (p : AbsPath) :
    Image s (es.map (·.1)) p := by
  induction es using history_ind generalizing s with
  | nil =>
    cases h
    exact ⟨by simp [openDocs, Server.new, serverFile], rfl⟩
  | snoc es e ih =>
    obtain ⟨s1, h1, h2⟩ := run_snoc.1 h
    rw [List.map_append]
    exact (ih h1).step (Inv.run h1) h2

/-- **C89**: after every history the server survives, a document is open exactly if it has been opened and not closed,
and the contents of every file, and the text analysed for it, are those of `serverFile`. -/
theorem C89_documents {config : Config} {es : List (ServerEvent × Orders)} {s : Server}
    (h : run diagnosticsOf (.new config) es = some s) (p : AbsPath) :
    (p ∈ s.memDocs.map (·.1) ↔ (serverFile p (happened es)).1 = true) ∧
    (∀ b, (∃ id, s.vfs.fileId p = some (some id) ∧ s.vfs.fileContents id = some b) ↔
      (serverFile p (happened es)).2 = some b) ∧
    ((serverFile p (happened es)).1 = true → ∃ id text, serverFile p (happened es) = (true, some (.utf8 text)) ∧
      s.vfs.fileId p = some (some id) ∧ s.fileText id = some text) := by
  have hi := Inv.run h
  have hm := Image.run h p
  refine ⟨hm.isOpen, fun b => ?_, fun ho => ?_⟩
  · rw [← hm.contents, Vfs.contentsOf_some hi.wf]
  · obtain ⟨t, h1, h2⟩ := hm.open hi (hm.isOpen.2 ho)
    obtain ⟨id, h3, h4⟩ := (Vfs.contentsOf_some hi.wf).1 h1
    refine ⟨id, t, h2, h3, ?_⟩
    have := C39_db_follows_vfs h id
    rw [h4] at this
    exact this

/-! ### the library -/

private theorem allStrings_eq (items : List Json) : (Json.arr items).toStrings = allStrings items := by
  induction items with
  | nil => rfl
  | cons x xs ih =>
    simp only [Json.toStrings, List.mapM_cons] at ih ⊢
    cases x <;> simp [allStrings, ih]
    cases allStrings xs <;> rfl

theorem update_library (c : Config) (json : Json) : (c.update json).library = librarySetting json c.library := by
  have key : ∀ j : Json, (Config.fromJson j).library = (match (j.get "workspace").bind (·.get "library") with
      | some (.arr items) => (allStrings items).getD []
      | _ => []) := by
    intro j
    unfold Config.fromJson
    cases (j.get "workspace").bind (·.get "library") with
    | none => rfl
    | some l =>
      cases l with
      | arr items => simp only [Option.bind_some, allStrings_eq]
      | _ => rfl
  cases json with
  | null => rfl
  | obj entries =>
    cases entries with
    | nil => rfl
    | cons x xs => exact key _
  | bool b => exact key _
  | num n => exact key _
  | str w => exact key _
  | arr items => exact key _

theorem libraries_snoc (initial : List String) (es : List ServerEvent) (e : ServerEvent) :
    libraries initial (es ++ [e]) = (match libraries initial es, e with
    | cur :: old, .response _ false (some (.arr (json :: _))) =>
      if librarySetting json cur = cur then cur :: old else librarySetting json cur :: cur :: old
    | libs, _ => libs) := by
  unfold libraries
  rw [List.foldl_append]
  rfl

private theorem libraries_ne (initial : List String) (es : List ServerEvent) :
    ∃ old, libraries initial es = library initial es :: old := by
  suffices ∃ cur old, libraries initial es = cur :: old by
    obtain ⟨cur, old, h⟩ := this
    exact ⟨old, by rw [library, h]; rfl⟩
  induction es using history_ind with
  | nil => exact ⟨initial, [], rfl⟩
  | snoc es e ih =>
    obtain ⟨cur, old, h⟩ := ih
    rw [libraries_snoc, h]
    split
    · split <;> exact ⟨_, _, rfl⟩
    · exact ⟨_, _, rfl⟩

theorem absolute_iff (path : String) : isAbsolute path = true ↔ path.toList.head? = some '/' := by
  unfold isAbsolute
  split
  · rename_i h; simp [h]
  · rename_i h
    cases hp : path.toList with
    | nil => simp
    | cons c cs =>
      simp only [List.head?_cons, Option.some.injEq, Bool.false_eq_true, false_iff]
      rintro rfl
      exact h cs hp

private structure Libs (initial : List String) (s : Server) (es : List ServerEvent) : Prop where
  loads : (s.loads.map (·.2)).reverse ++ [initial] = libraries initial es
  config : s.config.library = library initial es

private theorem Libs.keep {initial : List String} {s s' : Server} {es : List ServerEvent} {e : ServerEvent}
    (h : Libs initial s es) (he : libraries initial (es ++ [e]) = libraries initial es) (h1 : s'.loads = s.loads)
    (h2 : s'.config = s.config) : Libs initial s' (es ++ [e]) :=
  ⟨by rw [h1, he]; exact h.loads, by rw [h2, library, he]; exact h.config⟩

private theorem libraries_other (initial : List String) (es : List ServerEvent) (e : ServerEvent)
    (h : ∀ id json rest, e ≠ .response id false (some (.arr (json :: rest)))) :
    libraries initial (es ++ [e]) = libraries initial es := by
  rw [libraries_snoc]
  split
  · exact absurd rfl (h _ _ _)
  · rfl

private theorem Libs.step {o} {initial : List String} {s s' : Server} {es : List ServerEvent} {e : ServerEvent} (hi : Inv s)
    (h : Libs initial s es) (he : handleEvent diagnosticsOf s (e, o) = some s') : Libs initial s' (es ++ [e]) := by
  cases e with
  | response id error result =>
    rw [response_event hi] at he
    unfold completeRequest at he
    split at he
    · simp only at he
      split at he
      · rename_i herr
        simp only [Option.some.injEq] at he; subst he
        subst herr
        exact h.keep (libraries_other _ _ _ (by simp)) rfl rfl
      · rename_i herr
        have herr : error = false := by simpa using herr
        subst herr
        split at he
        · rename_i json rest
          obtain ⟨old, hold⟩ := libraries_ne initial es
          have hlib := update_library s.config json
          rw [h.config] at hlib
          unfold updateConfiguration at he
          simp only at he
          split at he
          · rename_i hne
            rw [h.config, hlib] at hne
            unfold loadWorkspace at he
            simp only at he
            split at he
            · simp only [Option.some.injEq] at he
              subst he
              have hl : libraries initial (es ++ [.response id false (some (.arr (json :: rest)))]) =
                  librarySetting json (library initial es) :: libraries initial es := by
                rw [libraries_snoc, hold]
                simp only [if_neg hne]
              refine ⟨?_, ?_⟩
              · rw [hl, ← h.loads]
                simp [hlib]
              · rw [library, hl]; exact hlib
            · cases he
          · rename_i heq
            simp only [Option.some.injEq] at he
            subst he
            have heq' : librarySetting json (library initial es) = library initial es := by
              rw [← hlib, ← h.config]; exact Classical.byContradiction heq
            have hl : libraries initial (es ++ [.response id false (some (.arr (json :: rest)))]) = libraries initial es := by
              rw [libraries_snoc, hold]
              simp only [if_pos heq']
            exact ⟨by rw [hl]; exact h.loads, by rw [library, hl]; show (s.config.update json).library = _; rw [hlib, heq']; rfl⟩
        · rename_i hres
          simp only [Option.some.injEq] at he; subst he
          refine h.keep (libraries_other _ _ _ ?_) rfl rfl
          intro i json rest heq
          simp only [ServerEvent.response.injEq] at heq
          exact hres json rest heq.2.2
    · cases he
  | request id m ok =>
    rw [request_event hi] at he
    cases he
    rcases onRequest_spec s id m ok with hh | ⟨-, -, -, hh⟩ <;> rw [hh] <;>
      exact h.keep (libraries_other _ _ _ (by simp)) rfl rfl
  | didOpen uri version text =>
    cases uri with
    | other u => rw [idle_event hi rfl] at he; cases he; exact h.keep (libraries_other _ _ _ (by simp)) rfl rfl
    | file q =>
      have ht := (didOpen_spec hi he).1
      exact h.keep (libraries_other _ _ _ (by simp)) (by rw [ht.same]) (by rw [ht.same])
  | didChange uri version changes =>
    by_cases hp : ∃ p, uri = .file p ∧ p ∈ openDocs s
    · obtain ⟨p, rfl, hp⟩ := hp
      obtain ⟨t, t', -, -, ht, -⟩ := didChange_spec hi hp he
      exact h.keep (libraries_other _ _ _ (by simp)) (by rw [ht.same]) (by rw [ht.same])
    · rw [didChange_ignored hi (fun p e h => hp ⟨p, e, h⟩)] at he
      cases he
      exact h.keep (libraries_other _ _ _ (by simp)) rfl rfl
  | didClose uri =>
    rw [didClose_event hi] at he; cases he; cases uri <;> exact h.keep (libraries_other _ _ _ (by simp)) rfl rfl
  | didSave uri => rw [idle_event hi rfl] at he; cases he; exact h.keep (libraries_other _ _ _ (by simp)) rfl rfl
  | didChangeConfiguration =>
    rw [configuration_event hi] at he; cases he; exact h.keep (libraries_other _ _ _ (by simp)) rfl rfl
  | malformedNotification => rw [quiet_none rfl] at he; cases he
  | unknownNotification => rw [idle_event hi rfl] at he; cases he; exact h.keep (libraries_other _ _ _ (by simp)) rfl rfl
  | task => rw [task_event hi] at he; cases he; exact h.keep (libraries_other _ _ _ (by simp)) rfl rfl
  | loader first rest =>
    have ht := (loader_spec hi he).1
    exact h.keep (libraries_other _ _ _ (by simp)) (by rw [ht.same]) (by rw [ht.same])

private theorem Libs.run {config : Config} {es : List (ServerEvent × Orders)} {s : Server}
    (h : Server.run diagnosticsOf (.new config) es = some s) : Libs config.library s (es.map (·.1)) := by
  induction es using history_ind generalizing s with
  | nil => cases h; exact ⟨rfl, rfl⟩
  | snoc es e ih =>
    obtain ⟨s1, h1, h2⟩ := run_snoc.1 h
    rw [List.map_append]
    exact (ih h1).step (Inv.run h1) h2

/-- **C91**: after every history the server survives, its library is the last one set, and the libraries given to the
file loader are exactly the successive different ones, numbered from 1; the one the server was started with is not
among them. -/
theorem C91_libraries {config : Config} {es : List (ServerEvent × Orders)} {s : Server}
    (h : run diagnosticsOf (.new config) es = some s) :
    s.config.library = library config.library (happened es) ∧
    (s.loads.map (·.2)).reverse ++ [config.library] = libraries config.library (happened es) ∧
    s.loads.map (·.1) = List.range' 1 s.loads.length :=
  ⟨(Libs.run h).config, (Libs.run h).loads, (C60_library_loaded_partial h).1⟩

/-! ### which events end the server -/

private theorem complete_none {s : Server} {es : List ServerEvent} {initial : List String} {id : ReqId} {error : Bool}
    {result : Option Json} (hl : Libs initial s es) (ho : Outgoing s es) :
    s.completeRequest id error result = none ↔ Fatal initial es (.response id error result) := by
  have hmem : id ∈ s.outgoing ↔ Awaited es id := ho.mem id
  unfold completeRequest
  by_cases hid : id ∈ s.outgoing
  · rw [if_pos hid]
    simp only [Fatal, hmem.1 hid, not_true, false_or]
    cases error with
    | true => simp
    | false =>
      simp only [Bool.false_eq_true, if_false, true_and]
      split
      · rename_i json rest
        have hlib := update_library s.config json
        rw [hl.config] at hlib
        unfold updateConfiguration
        simp only [hlib, hl.config]
        constructor
        · intro h
          split at h
          · rename_i hne
            unfold loadWorkspace at h
            simp only [hlib] at h
            split at h
            · cases h
            · rename_i hall
              refine ⟨json, rest, rfl, hne, ?_⟩
              apply Classical.byContradiction
              intro hno
              refine hall (List.all_eq_true.2 fun p hp => ?_)
              rw [absolute_iff]
              exact Classical.byContradiction fun hne => hno ⟨p, hp, hne⟩
          · cases h
        · rintro ⟨j, r, he, hne, p, hp, hhead⟩
          simp only [Option.some.injEq, Json.arr.injEq, List.cons.injEq] at he
          obtain ⟨rfl, rfl⟩ := he
          rw [if_pos hne]
          unfold loadWorkspace
          simp only [hlib]
          rw [if_neg]
          intro hall
          exact hhead ((absolute_iff p).1 (List.all_eq_true.1 hall p hp))
      · rename_i hres
        simp only [reduceCtorEq, false_iff]
        rintro ⟨j, r, he, -⟩
        exact hres j r he
  · rw [if_neg hid]
    simp only [Fatal, mt hmem.2 hid, not_false_eq_true, true_or]

private theorem event_fatal {o} {s : Server} {es : List ServerEvent} {e : ServerEvent} {initial : List String}
    (hi : Inv s) (hm : ∀ p, Image s es p) (ho : Outgoing s es) (hl : Libs initial s es)
    (hb : s.vfs.paths.length + storedFiles [e] ≤ 4294967295) :
    handleEvent diagnosticsOf s (e, o) = none ↔ Fatal initial es e := by
  have hsome : ∀ {s'}, handleEvent diagnosticsOf s (e, o) = some s' → ¬ Fatal initial es e →
      (handleEvent diagnosticsOf s (e, o) = none ↔ Fatal initial es e) := by
    intro s' h1 h2
    rw [h1]; simp [h2]
  cases e with
  | request id m ok => exact hsome (request_event hi id m ok) (by simp [Fatal])
  | didOpen uri version text =>
    have : storedFiles [.didOpen uri version text] = 1 := by simp [storedFiles]
    obtain ⟨s', hs'⟩ := didOpen_total (o := o) diagnosticsOf_total hi (by omega) uri version text
    exact hsome hs' (by simp [Fatal])
  | didChange uri version changes =>
    cases uri with
    | other u => exact hsome (idle_event hi rfl) (by simp [Fatal])
    | file p =>
      have hch : ∀ t, Lsp.applyDocumentChanges t changes = ServerSpec.served t changes :=
        fun t => Lsp.C88_changes t changes
      by_cases hp : p ∈ openDocs s
      · obtain ⟨t, h1, h2⟩ := (hm p).open hi hp
        constructor
        · intro h
          refine ⟨t, h2, ?_⟩
          cases hc : ServerSpec.served t changes with
          | none => rfl
          | some t' =>
            obtain ⟨s', hs'⟩ := didChange_total (o := o) diagnosticsOf_total hi (by omega) (.file p) version changes (by
              rintro q t2 hq - hc2
              cases hq
              rw [h1] at hc2
              cases hc2
              exact ⟨t', by rw [hch, hc]⟩)
            rw [hs'] at h
            cases h
        · rintro ⟨t2, h3, h4⟩
          rw [h2] at h3
          cases h3
          cases h : handleEvent diagnosticsOf s (.didChange (.file p) version changes, o) with
          | none => rfl
          | some s' =>
            obtain ⟨t3, t', h5, h6, -⟩ := didChange_spec hi hp h
            rw [h1] at h5
            cases h5
            rw [hch, h4] at h6
            cases h6
      · refine hsome (didChange_ignored hi (fun q e h => hp (by cases e; exact h))) ?_
        rintro ⟨t, h1, -⟩
        exact hp ((hm p).isOpen.2 (by rw [h1]))
  | didClose uri => exact hsome (didClose_event hi uri) (by simp [Fatal])
  | didSave uri => exact hsome (idle_event hi rfl) (by simp [Fatal])
  | didChangeConfiguration => exact hsome (configuration_event hi) (by simp [Fatal])
  | malformedNotification =>
    exact ⟨fun _ => trivial, fun _ => quiet_none rfl⟩
  | unknownNotification => exact hsome (idle_event hi rfl) (by simp [Fatal])
  | response id error result =>
    rw [response_event hi]
    exact complete_none hl ho
  | task => exact hsome (task_event hi) (by simp [Fatal])
  | loader first rest =>
    have hs : storedFiles [.loader first rest] = (writes (first :: rest)).length := by simp [storedFiles]
    rw [hs] at hb
    rw [loader_none_iff diagnosticsOf_total hi hb]
    simp only [Fatal]
    constructor
    · rintro ⟨p, h1, h2, h3⟩
      refine ⟨p, ?_, (creates_congr (hm p).contents _).1 h2, ?_⟩
      · cases hb : (serverFile p es).1 with
        | false => rfl
        | true => exact absurd ((hm p).isOpen.2 hb) h1
      · rw [← afterWrites_congr (c := s.vfs.contentsOf) (hm p).contents]
        exact h3
    · rintro ⟨p, h1, h2, h3⟩
      refine ⟨p, fun h => ?_, (creates_congr (hm p).contents _).2 h2, ?_⟩
      · rw [(hm p).isOpen, h1] at h; cases h
      · rw [afterWrites_congr (c := s.vfs.contentsOf) (c' := fun q => (serverFile q es).2) (hm p).contents]
        exact h3

/-- **C90**: a history ends the server exactly if one of its events is fatal. -/
theorem C90_dies (config : Config) (es : List (ServerEvent × Orders))
    (hb : storedFiles (happened es) ≤ 4294967295) :
    run diagnosticsOf (.new config) es = none ↔
      ∃ past e rest, happened es = past ++ e :: rest ∧ Fatal config.library past e := by
  induction es using history_ind with
  | nil =>
    constructor
    · intro h; cases h
    · rintro ⟨past, e, rest, h, -⟩
      simp [happened] at h
  | snoc es e ih =>
    have hh : happened (es ++ [e]) = happened es ++ [e.1] := by simp [happened]
    rw [hh] at hb ⊢
    rw [storedFiles_snoc] at hb
    have ih' := ih (by omega)
    cases hr : run diagnosticsOf (.new config) es with
    | none =>
      have hn : run diagnosticsOf (.new config) (es ++ [e]) = none := by
        cases h : run diagnosticsOf (.new config) (es ++ [e]) with
        | none => rfl
        | some s =>
          obtain ⟨s1, h1, -⟩ := run_snoc.1 h
          rw [hr] at h1; cases h1
      obtain ⟨past, e', rest, h1, h2⟩ := ih'.1 hr
      exact ⟨fun _ => ⟨past, e', rest ++ [e.1], by rw [h1]; simp, h2⟩, fun _ => hn⟩
    | some s =>
      have hp : s.vfs.paths.length ≤ storedFiles (happened es) := paths_run hr
      have key := event_fatal (o := e.2) (e := e.1) (Inv.run hr) (fun p => Image.run hr p)
        (Outgoing.run hr) (Libs.run hr) (by omega)
      have hrun : run diagnosticsOf (.new config) (es ++ [e]) = none ↔ handleEvent diagnosticsOf s e = none := by
        cases h : run diagnosticsOf (.new config) (es ++ [e]) with
        | none =>
          simp only [true_iff]
          cases h2 : handleEvent diagnosticsOf s e with
          | none => rfl
          | some s' => rw [run_snoc.2 ⟨s, hr, h2⟩] at h; cases h
        | some s' =>
          obtain ⟨s1, h1, h2⟩ := run_snoc.1 h
          rw [hr] at h1; cases h1
          rw [h2]
      rw [hrun]
      rw [show handleEvent diagnosticsOf s e = none ↔ _ from key]
      constructor
      · intro h
        exact ⟨happened es, e.1, [], rfl, h⟩
      · rintro ⟨past, e', rest, h1, h2⟩
        rcases List.eq_nil_or_concat rest with rfl | ⟨rest, x, rfl⟩
        · have := List.append_inj' h1 rfl
          simp only [List.cons.injEq, and_true] at this
          rw [← this.1, ← this.2] at h2
          exact h2
        · exfalso
          have h3 : happened es ++ [e.1] = (past ++ e' :: rest) ++ [x] := by rw [h1]; simp
          have := List.append_inj' h3 rfl
          have h4 := ih'.2 ⟨past, e', rest, this.1, h2⟩
          rw [hr] at h4
          cases h4

/-! ### examples -/

/-- A history with lone carriage returns and a change past the end of a line, which no client that follows the protocol
makes, is still read the way `serverFile` says; and so is one with a range that ends on an earlier line than it starts,
read with lines counted before the change before it. -/
example : serverFile "/a.lua" [.didOpen (.file "/a.lua") 1 "a\rb\nc".toList,
      .didChange (.file "/a.lua") 2 [⟨some (⟨0, 1⟩, ⟨0, 4⟩), "X".toList⟩]] = (true, some (.utf8 "aXc".toList)) ∧
    serverFile "/a.lua" [.didOpen (.file "/a.lua") 1 "a\nb\nc".toList,
      .didChange (.file "/a.lua") 2 [⟨some (⟨1, 0⟩, ⟨1, 0⟩), "xx\n".toList⟩, ⟨some (⟨2, 0⟩, ⟨0, 4⟩), "Y".toList⟩]] =
      (true, some (.utf8 "a\nxxY\nb\nc".toList)) := by
  decide

/-- The four kinds of fatal events. -/
example : Fatal [] [.didOpen (.file "/a.lua") 1 "a".toList]
      (.didChange (.file "/a.lua") 2 [⟨some (⟨0, 0⟩, ⟨0, 2⟩), []⟩]) ∧
    ¬ Fatal [] [.didOpen (.file "/a.lua") 1 "a".toList]
      (.didChange (.file "/a.lua") 2 [⟨some (⟨0, 0⟩, ⟨0, 1⟩), []⟩]) ∧
    Fatal [] [] (.response (.int 0) true none) ∧
    Fatal [] [.didChangeConfiguration]
      (.response (.int 0) false (some (.arr [.obj [("workspace", .obj [("library", .arr [.str "lib"])])]]))) ∧
    ¬ Fatal ["lib"] [.didChangeConfiguration]
      (.response (.int 0) false (some (.arr [.obj [("workspace", .obj [("library", .arr [.str "lib"])])]]))) ∧
    Fatal [] [] (.loader (.loaded [("/b.lua", some (.utf8 []))]) [.loaded [("/b.lua", none)]]) := by
  refine ⟨⟨"a".toList, by decide, by decide⟩, ?_, ?_, ?_, ?_, "/b.lua", rfl, ⟨[], .utf8 [], [("/b.lua", none)], rfl, by decide⟩,
    by decide⟩
  · rintro ⟨t, h1, h2⟩
    have : t = "a".toList := by
      have h3 : serverFile "/a.lua" [.didOpen (.file "/a.lua") 1 "a".toList] = (true, some (.utf8 "a".toList)) := by decide
      rw [h3] at h1
      simpa using h1.symm
    subst this
    revert h2; decide
  · left; rintro ⟨⟨k, hk, -⟩, -⟩; simp [configurationRequests] at hk
  · right; exact ⟨rfl, _, _, rfl, by decide, "lib", by decide, by decide⟩
  · rintro (h | ⟨-, j, r, h1, h2, -⟩)
    · exact h ⟨⟨0, by decide, rfl⟩, by decide⟩
    · simp only [Option.some.injEq, Json.arr.injEq, List.cons.injEq] at h1
      obtain ⟨rfl, -⟩ := h1
      revert h2; decide

/-- The libraries of a session: one is set again, one is new. -/
example : libraries ["/l"] [.didChangeConfiguration, .didChangeConfiguration,
      .response (.int 0) false (some (.arr [.obj [("workspace", .obj [("library", .arr [.str "/l"])])]])),
      .response (.int 1) false (some (.arr [.obj [("workspace", .num "1")]]))] = [[], ["/l"]] := by decide

end Verif
