import Verif.Proof.ServerStep

/-
The events that do not write files, and the invariant along every history.
-/
namespace Verif
open Spec

namespace Server

/-- An event that leaves files and diagnostics alone: nothing happens after the dispatch. -/
theorem quiet {diag o} {s s1 : Server} {e : ServerEvent} (hi : Inv s) (h : dispatch diag o s e = some s1)
    (hv : s1.vfs = s.vfs) (hd : s1.diagnostics = s.diagnostics) : handleEvent diag s (e, o) = some s1 := by
  unfold handleEvent
  simp only [h]
  rw [finish_quiet (by rw [hv]; exact hi.changes), publish_nil (by rw [hd]; exact hi.published)]

theorem quiet_none {diag o} {s : Server} {e : ServerEvent} (h : dispatch diag o s e = none) :
    handleEvent diag s (e, o) = none := by
  unfold handleEvent
  simp only [h]

/-! ### requests -/

theorem erase_snoc_self {l : List ReqId} {id : ReqId} (h : id ∉ l) : (l ++ [id]).erase id = l := by
  rw [List.erase_append_right _ h]; simp

/-- Registering a request and responding at once. -/
theorem register_respond (s : Server) (id : ReqId) (oc : Outcome) :
    (s.registerRequest id).respond id oc =
      { s with incoming := s.incoming.erase id, sent := s.sent ++ [.response id oc] } := by
  unfold registerRequest respond send
  by_cases h : id ∈ s.incoming
  · simp only [if_pos h]
  · simp only [if_neg h]
    rw [if_pos (by simp), erase_snoc_self h, List.erase_of_not_mem h]

/-- The outcome of a request answered at once, or queued. -/
def outcomeOf (shutdown : Bool) (m : Method) (ok : Bool) : Outcome :=
  if shutdown then .invalidRequest else match m, ok with
    | .unknown, _ => .methodNotFound
    | _, false => .invalidParams
    | _, true => .ok

theorem onRequest_spec (s : Server) (id : ReqId) (m : Method) (ok : Bool) :
    (s.onRequest id m ok = { s with
        incoming := s.incoming.erase id
        sent := s.sent ++ [.response id (outcomeOf s.shutdownRequested m ok)]
        shutdownRequested := s.shutdownRequested || (m == .shutdown && ok) }) ∨
    (s.shutdownRequested = false ∧ m = .completion ∧ ok = true ∧ s.onRequest id m ok = { s with
        incoming := if id ∈ s.incoming then s.incoming else s.incoming ++ [id]
        tasks := s.tasks ++ [.response id .ok] }) := by
  have hs : (s.registerRequest id).shutdownRequested = s.shutdownRequested := rfl
  cases hsd : s.shutdownRequested with
  | true =>
    left
    unfold onRequest
    simp only [hs, hsd, if_true, register_respond, Bool.true_or, outcomeOf]
  | false =>
    cases m with
    | shutdown =>
      left
      cases ok with
      | true =>
        unfold onRequest
        simp only [hs, hsd, Bool.false_eq_true, if_false, if_true]
        have : ({ s.registerRequest id with shutdownRequested := true } : Server).respond id .ok =
            { (s.registerRequest id).respond id .ok with shutdownRequested := true } := by
          unfold respond send; split <;> rfl
        rw [this, register_respond]
        rfl
      | false =>
        unfold onRequest
        simp only [hs, hsd, Bool.false_eq_true, if_false, register_respond]
        rcases s with ⟨_, _, _, _, _, _, _, _, _, _, _, _, _⟩
        simp only at hsd
        subst hsd
        rfl
    | completion =>
      cases ok with
      | true =>
        right
        refine ⟨rfl, rfl, rfl, ?_⟩
        unfold onRequest
        simp only [hs, hsd, Bool.false_eq_true, if_false, if_true]
        rfl
      | false =>
        left
        unfold onRequest
        simp only [hs, hsd, Bool.false_eq_true, if_false, register_respond]
        rcases s with ⟨_, _, _, _, _, _, _, _, _, _, _, _, _⟩
        simp only at hsd
        subst hsd
        rfl
    | unknown =>
      left
      unfold onRequest
      simp only [hs, hsd, Bool.false_eq_true, if_false, register_respond]
      rcases s with ⟨_, _, _, _, _, _, _, _, _, _, _, _, _⟩
      simp only at hsd
      subst hsd
      rfl

theorem request_event {diag o} {s : Server} (hi : Inv s) (id : ReqId) (m : Method) (ok : Bool) :
    handleEvent diag s (.request id m ok, o) = some (s.onRequest id m ok) := by
  refine quiet hi rfl ?_ ?_
  · rcases onRequest_spec s id m ok with h | ⟨-, -, -, h⟩ <;> rw [h]
  · rcases onRequest_spec s id m ok with h | ⟨-, -, -, h⟩ <;> rw [h]

/-! ### other quiet events -/

theorem didClose_event {diag o} {s : Server} (hi : Inv s) (uri : Uri) :
    handleEvent diag s (.didClose uri, o) = some (s.didClose uri) := by
  refine quiet hi rfl ?_ ?_ <;> cases uri <;> rfl

theorem configuration_event {diag o} {s : Server} (hi : Inv s) :
    handleEvent diag s (.didChangeConfiguration, o) = some s.didChangeConfiguration :=
  quiet hi rfl rfl rfl

theorem idle_event {diag o} {s : Server} (hi : Inv s) {e : ServerEvent} (he : dispatch diag o s e = some s) :
    handleEvent diag s (e, o) = some s := quiet hi he rfl rfl

theorem completeRequest_spec {s s1 : Server} {id : ReqId} {error : Bool} {result : Option Json}
    (h : s.completeRequest id error result = some s1) :
    s1 = { s with outgoing := s.outgoing.erase id, config := s1.config
                  vfsConfigVersion := s1.vfsConfigVersion, loads := s1.loads } := by
  unfold completeRequest at h
  split at h
  · simp only at h
    split at h
    · simp only [Option.some.injEq] at h; subst h; rfl
    · split at h
      · unfold updateConfiguration at h
        simp only at h
        split at h
        · unfold loadWorkspace at h
          simp only at h
          split at h
          · simp only [Option.some.injEq] at h; subst h; rfl
          · cases h
        · simp only [Option.some.injEq] at h; subst h; rfl
      · simp only [Option.some.injEq] at h; subst h; rfl
  · cases h

theorem response_event {diag o} {s : Server} (hi : Inv s) {id : ReqId} {error : Bool} {result : Option Json} :
    handleEvent diag s (.response id error result, o) = s.completeRequest id error result := by
  cases h : s.completeRequest id error result with
  | none => exact quiet_none h
  | some s1 =>
    have := completeRequest_spec h
    exact quiet hi h (by rw [this]) (by rw [this])

/-! ### tasks -/

/-- The responses in a task queue. -/
def responses (tasks : List Task) : List (ReqId × Outcome) :=
  tasks.flatMap fun
    | .diagnostics _ => []
    | .response id oc => [(id, oc)]

/-- The ids in flight and the messages after some responses. -/
def answerAll (rs : List (ReqId × Outcome)) (st : List ReqId × List Msg) : List ReqId × List Msg :=
  rs.foldl (fun st r => if r.1 ∈ st.1 then (st.1.erase r.1, st.2 ++ [.response r.1 r.2]) else st) st

/-- The collection after some updates. -/
def setAll (ds : List (Nat × List Diag)) (c : DiagnosticCollection) : DiagnosticCollection :=
  ds.foldl (fun c d => c.setNativeDiagnostics d.1 d.2) c

theorem handleTasks_fold (tasks : List Task) (s : Server) : tasks.foldl handleTask s =
    { s with
      incoming := (answerAll (responses tasks) (s.incoming, s.sent)).1
      sent := (answerAll (responses tasks) (s.incoming, s.sent)).2
      diagnostics := setAll (entries tasks) s.diagnostics } := by
  induction tasks generalizing s with
  | nil => rfl
  | cons t ts ih =>
    rw [List.foldl_cons, ih]
    cases t with
    | diagnostics ds =>
      simp only [handleTask]
      have h1 : responses (.diagnostics ds :: ts) = responses ts := by simp [responses]
      have h2 : entries (.diagnostics ds :: ts) = ds ++ entries ts := by simp [entries]
      rw [h1, h2]
      unfold setAll
      rw [List.foldl_append]
    | response id oc =>
      simp only [handleTask]
      have h1 : responses (.response id oc :: ts) = (id, oc) :: responses ts := by simp [responses]
      have h2 : entries (.response id oc :: ts) = entries ts := by simp [entries]
      rw [h1, h2]
      unfold respond
      by_cases h : id ∈ s.incoming
      · rw [if_pos h]
        simp only [answerAll, List.foldl_cons, h, if_true, send]
      · rw [if_neg h]
        simp only [answerAll, List.foldl_cons, h, if_false]

theorem setAll_lookup (ds : List (Nat × List Diag)) (c : DiagnosticCollection) (k : Nat) :
    (setAll ds c).native.lookup k = (ds.reverse.lookup k).or (c.native.lookup k) := by
  induction ds generalizing c with
  | nil => simp [setAll]
  | cons d ds ih =>
    have : setAll (d :: ds) c = setAll ds (c.setNativeDiagnostics d.1 d.2) := rfl
    rw [this, ih, DiagnosticCollection.set_lookup, List.reverse_cons, List.lookup_append]
    cases hl : List.lookup k ds.reverse with
    | some x => simp
    | none =>
      simp only [Option.none_or]
      by_cases hk : d.1 = k
      · subst hk; simp [List.lookup]
      · rw [if_neg hk]
        simp only [List.lookup, beq_eq_false_iff_ne.2 (fun e : k = d.1 => hk e.symm), Option.none_or]

theorem setAll_mem (ds : List (Nat × List Diag)) (c : DiagnosticCollection) (k : Nat) :
    (k ∈ (setAll ds c).changes → k ∈ c.changes ∨ k ∈ ds.map (·.1)) ∧
    (k ∉ (setAll ds c).changes → (setAll ds c).native.lookup k = c.native.lookup k) ∧
    (k ∈ c.changes → k ∈ (setAll ds c).changes) := by
  induction ds generalizing c with
  | nil => exact ⟨Or.inl, fun _ => rfl, id⟩
  | cons d ds ih =>
    have : setAll (d :: ds) c = setAll ds (c.setNativeDiagnostics d.1 d.2) := rfl
    rw [this]
    obtain ⟨h1, h2, h3⟩ := ih (c.setNativeDiagnostics d.1 d.2)
    have h3' : k ∈ (c.setNativeDiagnostics d.1 d.2).changes → k ∈ (setAll ds (c.setNativeDiagnostics d.1 d.2)).changes := h3
    have hm := DiagnosticCollection.set_changes_mem c d.1 d.2 k
    refine ⟨fun h => ?_, fun h => ?_, fun h => h3' (hm.2 (Or.inl h))⟩
    · rcases h1 h with h | h
      · rcases hm.1 h with h | ⟨h, -⟩
        · exact Or.inl h
        · exact Or.inr (by simp [h])
      · exact Or.inr (by simp only [List.map_cons, List.mem_cons]; exact Or.inr h)
    · rw [h2 h, DiagnosticCollection.set_lookup]
      by_cases hk : d.1 = k
      · rw [if_pos hk]
        apply Classical.byContradiction
        intro hne
        refine h (h3' (hm.2 (Or.inr ⟨hk.symm, ?_⟩)))
        rw [hk]; exact fun e => hne e.symm
      · rw [if_neg hk]

theorem setAll_nodup (ds : List (Nat × List Diag)) (c : DiagnosticCollection) (h : c.changes.Nodup) :
    (setAll ds c).changes.Nodup := by
  induction ds generalizing c with
  | nil => exact h
  | cons d ds ih => exact ih _ (DiagnosticCollection.set_changes_nodup _ _ _ h)

theorem mem_keys_lookup {l : List (Nat × List Diag)} {k : Nat} : k ∈ l.map (·.1) ↔ l.lookup k ≠ none := by
  induction l with
  | nil => simp
  | cons x l ih =>
    obtain ⟨a, b⟩ := x
    simp only [List.map_cons, List.mem_cons, ih, List.lookup]
    by_cases h : k = a
    · subst h; simp
    · simp [h, beq_eq_false_iff_ne.2 h]

/-- The task event. -/
theorem task_event {diag o} {s : Server} (hi : Inv s) : handleEvent diag s (.task, o) = some { s with
    tasks := []
    incoming := (answerAll (responses s.tasks) (s.incoming, s.sent)).1
    diagnostics := { setAll (entries s.tasks) s.diagnostics with changes := [] }
    sent := (answerAll (responses s.tasks) (s.incoming, s.sent)).2 ++
      (o.files (setAll (entries s.tasks) s.diagnostics).changes).map
        (publication { s with diagnostics := setAll (entries s.tasks) s.diagnostics }) } := by
  unfold handleEvent
  simp only [dispatch, handleTasks, handleTasks_fold]
  rw [finish_quiet (by exact hi.changes)]
  rcases publish_spec (o := o) (s := { s with
      incoming := (answerAll (responses s.tasks) (s.incoming, s.sent)).1
      tasks := []
      sent := (answerAll (responses s.tasks) (s.incoming, s.sent)).2
      diagnostics := setAll (entries s.tasks) s.diagnostics }) (by
    intro id hid
    rcases (setAll_mem _ _ _).1 hid with h | h
    · rw [hi.published] at h; cases h
    · obtain ⟨x, hx, rfl⟩ := List.mem_map.1 h
      exact hi.queued x hx) with h | ⟨h1, h2⟩
  · exact h
  · rw [h2]
    simp only at h1
    have hp : o.files [] = [] := by
      have := (o.files_perm []); simpa using this
    rw [h1, hp]
    have : ({ setAll (entries s.tasks) s.diagnostics with changes := [] } : DiagnosticCollection) =
        setAll (entries s.tasks) s.diagnostics := by rw [← h1]
    simp [this]

/-! ### the invariant along every history -/

/-- One event, classified: it writes files, or completes tasks, or does neither. -/
inductive StepKind (diag : Text → Option (List Diag)) (s : Server) (e : ServerEvent) (s' : Server) : Prop where
  | touch (h : Touch diag s s') (hn : (openDocs s).Nodup → (openDocs s').Nodup)
  | quiet (vfs : s'.vfs = s.vfs) (diagnostics : s'.diagnostics = s.diagnostics) (fileText : s'.fileText = s.fileText)
      (queued : entries s'.tasks = entries s.tasks) (docs : (openDocs s').Sublist (openDocs s))
  | task (h : e = .task)

theorem removeDoc_keys (docs : List (AbsPath × Int)) (p : AbsPath) :
    (removeDoc docs p).map (·.1) = (docs.map (·.1)).filter (fun q => q ≠ p) := by
  unfold removeDoc
  rw [List.filter_map]; rfl

theorem step_kind {diag o} {s s' : Server} {e : ServerEvent} (hi : Inv s) (h : handleEvent diag s (e, o) = some s') :
    StepKind diag s e s' := by
  have hidle : dispatch diag o s e = some s → StepKind diag s e s' := by
    intro hd
    rw [idle_event hi hd] at h
    cases h
    exact .quiet rfl rfl rfl rfl (List.Sublist.refl _)
  cases e with
  | request id m ok =>
    rw [request_event hi] at h
    cases h
    rcases onRequest_spec s id m ok with h | ⟨-, -, -, h⟩
    · rw [h]; exact .quiet rfl rfl rfl rfl (List.Sublist.refl _)
    · rw [h]; exact .quiet rfl rfl rfl (by simp [entries]) (List.Sublist.refl _)
  | didOpen uri version text =>
    cases uri with
    | other u => exact hidle rfl
    | file p =>
      obtain ⟨h1, h2, -⟩ := didOpen_spec hi h
      exact .touch h1 (fun hn => by rw [openDocs, h2]; exact insertDoc_nodup _ _ _ hn)
  | didChange uri version changes =>
    by_cases hp : ∃ p, uri = .file p ∧ p ∈ openDocs s
    · obtain ⟨p, rfl, hp⟩ := hp
      obtain ⟨t, t', -, -, h1, h2, -⟩ := didChange_spec hi hp h
      exact .touch h1 (fun hn => by rw [openDocs, h2]; exact insertDoc_nodup _ _ _ hn)
    · rw [didChange_ignored hi (fun p e h => hp ⟨p, e, h⟩)] at h
      cases h
      exact .quiet rfl rfl rfl rfl (List.Sublist.refl _)
  | didClose uri =>
    rw [didClose_event hi] at h
    cases h
    cases uri with
    | other u => exact .quiet rfl rfl rfl rfl (List.Sublist.refl _)
    | file p =>
      refine .quiet rfl rfl rfl rfl ?_
      show ((removeDoc s.memDocs p).map (·.1)).Sublist _
      rw [removeDoc_keys]
      exact List.filter_sublist
  | didSave uri => exact hidle rfl
  | didChangeConfiguration =>
    rw [configuration_event hi] at h
    cases h
    exact .quiet rfl rfl rfl rfl (List.Sublist.refl _)
  | malformedNotification => rw [quiet_none rfl] at h; cases h
  | unknownNotification => exact hidle rfl
  | response id error result =>
    rw [response_event hi] at h
    have := completeRequest_spec h
    refine .quiet ?_ ?_ ?_ ?_ ?_ <;> rw [this]
    exact List.Sublist.refl _
  | task => exact .task rfl
  | loader first rest =>
    obtain ⟨h1, h2, -⟩ := loader_spec hi h
    exact .touch h1 (fun hn => by rw [openDocs, h2]; exact hn)

theorem Inv.step {diag o} {s s' : Server} {e : ServerEvent} (hi : Inv s)
    (h : handleEvent diag s (e, o) = some s') : Inv s' := by
  cases step_kind hi h with
  | touch ht hn => exact ht.inv hi (hn hi.nodup)
  | quiet h1 h2 h3 h4 h5 =>
    refine ⟨by rw [h1]; exact hi.wf, by rw [h1]; exact hi.changes, ?_, by rw [h2]; exact hi.published, ?_,
      hi.nodup.sublist h5, ?_, ?_⟩
    · intro id
      have := hi.sync id
      unfold SyncAt at this ⊢
      rw [h1, h3]; exact this
    · intro p hp
      rw [h1]; exact hi.docs p (h5.subset hp)
    · rw [h1, h2]; exact hi.native
    · rw [h1, h4]; exact hi.queued
  | task he =>
    subst he
    rw [task_event hi] at h
    cases h
    refine ⟨hi.wf, hi.changes, hi.sync, rfl, hi.docs, hi.nodup, ?_, fun x hx => by cases hx⟩
    intro x hx
    have hl : (setAll (entries s.tasks) s.diagnostics).native.lookup x.1 ≠ none :=
      mem_keys_lookup.1 (List.mem_map_of_mem hx)
    rw [setAll_lookup] at hl
    cases h1 : (entries s.tasks).reverse.lookup x.1 with
    | some d =>
      have : x.1 ∈ (entries s.tasks).reverse.map (·.1) := mem_keys_lookup.2 (by rw [h1]; simp)
      obtain ⟨y, hy, hyx⟩ := List.mem_map.1 this
      rw [← hyx]
      exact hi.queued y (List.mem_reverse.1 hy)
    | none =>
      rw [h1, Option.none_or] at hl
      obtain ⟨y, hy, hyx⟩ := List.mem_map.1 (mem_keys_lookup.2 hl)
      rw [← hyx]
      exact hi.native y hy

theorem run_snoc {diag} {s s' : Server} {es : List (ServerEvent × Orders)} {e : ServerEvent × Orders} :
    run diag s (es ++ [e]) = some s' ↔ ∃ s1, run diag s es = some s1 ∧ handleEvent diag s1 e = some s' := by
  unfold run
  rw [List.foldlM_append]
  cases h : List.foldlM (handleEvent diag) s es with
  | none => simp
  | some s1 => simp

theorem history_ind {α : Type} {P : List α → Prop} (nil : P []) (snoc : ∀ l x, P l → P (l ++ [x])) : ∀ l, P l := by
  intro l
  have : P l.reverse.reverse := by
    induction l.reverse with
    | nil => exact nil
    | cons x xs ih => rw [List.reverse_cons]; exact snoc _ _ ih
  simpa using this

/-- The invariant holds after every history. -/
theorem Inv.run {diag} {config : Config} {es : List (ServerEvent × Orders)} {s : Server}
    (h : Server.run diag (.new config) es = some s) : Inv s := by
  induction es using history_ind generalizing s with
  | nil => cases h; exact Inv.new config
  | snoc es e ih =>
    obtain ⟨s1, h1, h2⟩ := run_snoc.1 h
    exact (ih h1).step h2

end Server
end Verif
