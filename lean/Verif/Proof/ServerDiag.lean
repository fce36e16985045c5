import Verif.Proof.ServerTotal

/-
What the client shows along a history.
-/
namespace Verif
open Spec

namespace Server

theorem shown_snoc (p : AbsPath) (a : List Msg) (m : Msg) : shown p (a ++ [m]) = (match m with
    | .publishDiagnostics (.file q) _ ds => if q = p then some ds else shown p a
    | _ => shown p a) := by
  unfold shown; rw [List.foldl_append]; rfl

/-- Messages that publish nothing for a file. -/
theorem shown_append (p : AbsPath) (a : List Msg) : ∀ ms : List Msg,
    (∀ v d, Msg.publishDiagnostics (.file p) v d ∉ ms) → shown p (a ++ ms) = shown p a := by
  intro ms
  induction ms using history_ind with
  | nil => simp
  | snoc ms m ih =>
    intro h
    rw [← List.append_assoc, shown_snoc, ← ih (fun v d hm => h v d (by simp [hm]))]
    cases m with
    | response => rfl
    | configurationRequest => rfl
    | publishDiagnostics uri v d =>
      cases uri with
      | other => rfl
      | file q =>
        simp only
        rw [if_neg]
        rintro rfl
        exact h v d (by simp)

theorem answerAll_append (rs : List (ReqId × Outcome)) (inc : List ReqId) (sent : List Msg) :
    ∃ ms, (answerAll rs (inc, sent)).2 = sent ++ ms ∧ ∀ u v d, Msg.publishDiagnostics u v d ∉ ms := by
  induction rs generalizing inc sent with
  | nil => exact ⟨[], by simp [answerAll], by simp⟩
  | cons r rs ih =>
    by_cases h : r.1 ∈ inc
    · have he : answerAll (r :: rs) (inc, sent) = answerAll rs (inc.erase r.1, sent ++ [.response r.1 r.2]) := by
        simp only [answerAll, List.foldl_cons, h, if_true]
      rw [he]
      obtain ⟨ms, h1, h2⟩ := ih (inc.erase r.1) (sent ++ [.response r.1 r.2])
      exact ⟨.response r.1 r.2 :: ms, by rw [h1]; simp, by simp [h2]⟩
    · have he : answerAll (r :: rs) (inc, sent) = answerAll rs (inc, sent) := by
        simp only [answerAll, List.foldl_cons, h, if_false]
      rw [he]
      exact ih inc sent

/-- The effect of publishing some files. -/
theorem shown_publications {s : Server} (hn : s.vfs.paths.Nodup) (p : AbsPath) (sent : List Msg) : ∀ (l : List Nat),
    (∀ id ∈ l, id < s.vfs.paths.length) →
    (∀ id, s.vfs.paths[id]? = some p → id ∈ l →
      shown p (sent ++ l.map (publication s)) = some (s.diagnostics.diagnosticsFor id)) ∧
    ((∀ id ∈ l, s.vfs.paths[id]? ≠ some p) → shown p (sent ++ l.map (publication s)) = shown p sent) := by
  intro l
  induction l using history_ind with
  | nil => intro _; exact ⟨fun id _ h => (by cases h), fun _ => by simp⟩
  | snoc l i ih =>
    intro hl
    obtain ⟨h1, h2⟩ := ih fun id hid => hl id (by simp [hid])
    have hi := hl i (by simp)
    have hpi : s.vfs.paths[i]? = some s.vfs.paths[i] := List.getElem?_eq_getElem hi
    have hpub : publication s i = .publishDiagnostics (.file s.vfs.paths[i]) (s.memDocs.lookup s.vfs.paths[i])
        (s.diagnostics.diagnosticsFor i) := by
      simp [publication, Vfs.filePath, hpi]
    rw [List.map_append, ← List.append_assoc, List.map_cons, List.map_nil, shown_snoc, hpub]
    simp only
    constructor
    · intro id hp hmem
      by_cases he : s.vfs.paths[i] = p
      · rw [if_pos he]
        have : id = i := by
          refine (List.getElem?_inj (List.getElem?_eq_some_iff.1 hp).1 hn).1 ?_
          rw [hp, hpi, he]
        rw [this]
      · rw [if_neg he]
        refine h1 id hp ?_
        rcases List.mem_append.1 hmem with h | h
        · exact h
        · simp at h; subst h
          rw [hpi] at hp
          exact absurd (Option.some.inj hp) he
    · intro hne
      rw [if_neg (fun e => hne i (by simp) (by rw [hpi, e]))]
      exact h2 fun id hid => hne id (by simp [hid])

/-- The diagnostics last computed for a file, whether already handed to the collection or not. -/
def latest (s : Server) (id : Nat) : Option (List Diag) :=
  ((entries s.tasks).reverse.lookup id).or (s.diagnostics.native.lookup id)

structure Shown (diag : Text → Option (List Diag)) (s : Server) (es : List ServerEvent) : Prop where
  latest : ∀ p ∈ openDocs s, ∀ (id : Nat) t, s.vfs.paths[id]? = some p → s.vfs.contentsOf p = some (.utf8 t) →
    ∃ d, diag t = some d ∧ latest s id = some d
  shown : ∀ p, Spec.shown p s.sent = (s.vfs.paths.idxOf? p).bind (s.diagnostics.native.lookup ·) ∨
    (ServerEvent.didClose (.file p) ∈ es ∧ Spec.shown p s.sent = some [])

theorem lookup_mem {l : List (Nat × List Diag)} {k : Nat} {d : List Diag} (h : l.lookup k = some d) : (k, d) ∈ l := by
  induction l with
  | nil => cases h
  | cons x l ih =>
    obtain ⟨a, b⟩ := x
    simp only [List.lookup] at h
    by_cases hk : k = a
    · subst hk; simp at h; subst h; simp
    · rw [beq_eq_false_iff_ne.2 hk] at h
      simp [ih h]

theorem entries_snoc (tasks : List Task) (ds : List (Nat × List Diag)) :
    entries (tasks ++ [.diagnostics ds]) = entries tasks ++ ds := by
  rw [entries_append]; simp [entries]

/-- The part of `Shown` about what is displayed, for events that send no diagnostics. -/
theorem shown_keep {s s' : Server} {es : List ServerEvent} {e : ServerEvent} {p : AbsPath} (hi : Inv s)
    (h : Spec.shown p s.sent = (s.vfs.paths.idxOf? p).bind (s.diagnostics.native.lookup ·) ∨
      (ServerEvent.didClose (.file p) ∈ es ∧ Spec.shown p s.sent = some []))
    (hs : Spec.shown p s'.sent = Spec.shown p s.sent) (hd : s'.diagnostics = s.diagnostics)
    (hp : s.vfs.paths <+: s'.vfs.paths) (hw : s'.vfs.paths.Nodup) :
    Spec.shown p s'.sent = (s'.vfs.paths.idxOf? p).bind (s'.diagnostics.native.lookup ·) ∨
      (ServerEvent.didClose (.file p) ∈ es ++ [e] ∧ Spec.shown p s'.sent = some []) := by
  rw [hs, hd]
  rcases h with h | ⟨h1, h2⟩
  · left
    rw [h]
    cases hx : s.vfs.paths.idxOf? p with
    | some i =>
      have h1 := Vfs.idxOf?_some hx
      obtain ⟨t, ht⟩ := hp
      have h2 : s'.vfs.paths[i]? = some p := by
        rw [← ht, List.getElem?_append_left (List.getElem?_eq_some_iff.1 h1).1]; exact h1
      rw [Vfs.idxOf?_of_get hw h2]
    | none =>
      cases hy : s'.vfs.paths.idxOf? p with
      | none => rfl
      | some j =>
        have h1 := Vfs.idxOf?_some hy
        simp only [Option.bind_some, Option.bind_none]
        cases hl : s.diagnostics.native.lookup j with
        | none => rfl
        | some d =>
          exfalso
          have hlt := hi.native _ (lookup_mem hl)
          obtain ⟨t, ht⟩ := hp
          rw [← ht, List.getElem?_append_left hlt] at h1
          rw [Vfs.idxOf?_of_get hi.wf.nodup h1] at hx
          cases hx
  · exact Or.inr ⟨by simp [h1], h2⟩

theorem Shown.step {diag o} {s s' : Server} {es : List ServerEvent} {e : ServerEvent} (hi : Inv s) (h : Shown diag s es)
    (he : handleEvent diag s (e, o) = some s') : Shown diag s' (es ++ [e]) := by
  have hi' := hi.step he
  have hk := step_kind hi he
  refine ⟨?_, ?_⟩
  · cases hk with
    | touch ht hn =>
      intro p hp id t h1 h2
      rcases ht.tasks with ⟨h3, h4⟩ | ⟨ds, h3, h4⟩
      · obtain ⟨h5, h6⟩ := h4 p hp
        rw [h6] at h2
        have hl : Server.latest s' id = Server.latest s id := by
          unfold Server.latest; rw [h3, ht.same]
        obtain ⟨t0, ht0⟩ := hi.docs p h5
        obtain ⟨id0, g1, g2⟩ := (Vfs.contentsOf_some hi.wf).1 ht0
        have g3 := ((Vfs.fileId_iff hi.wf p id0).1 g1).1
        have : id0 = id := by
          have hlt := (List.getElem?_eq_some_iff.1 g3).1
          obtain ⟨tl, htl⟩ := ht.paths
          have g4 : s'.vfs.paths[id0]? = some p := by
            rw [← htl, List.getElem?_append_left hlt]; exact g3
          exact (List.getElem?_inj (List.getElem?_eq_some_iff.1 g4).1 hi'.wf.nodup).1 (by rw [g4, h1])
        rw [hl]
        exact h.latest p h5 id t (this ▸ g3) h2
      · obtain ⟨x, hx1, hx2⟩ := h4.complete p hp
        have hxid : x.1 = id :=
          (List.getElem?_inj (List.getElem?_eq_some_iff.1 hx2).1 hi'.wf.nodup).1 (by rw [hx2, h1])
        cases hl : ds.reverse.lookup id with
        | none =>
          exfalso
          exact mem_keys_lookup.1 (show id ∈ ds.reverse.map (·.1) from
            List.mem_map.2 ⟨x, List.mem_reverse.2 hx1, hxid⟩) hl
        | some d =>
          have hm := List.mem_reverse.1 (lookup_mem hl)
          obtain ⟨q, hq1, t', g1, g2, g3⟩ := h4.sound _ hm
          simp only at g1 g3
          rw [h1] at g1
          cases g1
          rw [h2] at g2
          cases g2
          refine ⟨d, g3, ?_⟩
          unfold Server.latest
          rw [h3, entries_snoc, List.reverse_append, List.lookup_append, hl]
          rfl
    | quiet h1 h2 h3 h4 h5 =>
      intro p hp id t g1 g2
      rw [h1] at g1 g2
      have : Server.latest s' id = Server.latest s id := by unfold Server.latest; rw [h4, h2]
      rw [this]
      exact h.latest p (h5.subset hp) id t g1 g2
    | task heq =>
      subst heq
      rw [task_event hi] at he
      cases he
      intro p hp id t g1 g2
      obtain ⟨d, hd1, hd2⟩ := h.latest p hp id t g1 g2
      refine ⟨d, hd1, ?_⟩
      unfold Server.latest at hd2 ⊢
      simp only [entries, List.flatMap_nil, List.reverse_nil, List.lookup_nil, Option.none_or]
      rw [setAll_lookup]
      exact hd2
  · intro p
    have htouch : Touch diag s s' → Spec.shown p s'.sent = (s'.vfs.paths.idxOf? p).bind (s'.diagnostics.native.lookup ·) ∨
        (ServerEvent.didClose (.file p) ∈ es ++ [e] ∧ Spec.shown p s'.sent = some []) := by
      intro ht
      refine shown_keep hi (h.shown p) ?_ ?_ ht.paths hi'.wf.nodup
      · rw [ht.same]
      · rw [ht.same]
    cases e with
    | request id m ok =>
      rw [request_event hi] at he
      cases he
      rcases onRequest_spec s id m ok with hh | ⟨-, -, -, hh⟩
      · refine shown_keep hi (h.shown p) ?_ ?_ ?_ hi'.wf.nodup
        · rw [hh]; exact shown_append _ _ _ (by simp)
        · rw [hh]
        · rw [hh]; exact List.prefix_refl _
      · refine shown_keep hi (h.shown p) ?_ ?_ ?_ hi'.wf.nodup
        · rw [hh]
        · rw [hh]
        · rw [hh]; exact List.prefix_refl _
    | didOpen uri version text =>
      cases uri with
      | other u =>
        rw [idle_event hi rfl] at he
        cases he
        exact shown_keep hi (h.shown p) rfl rfl (List.prefix_refl _) hi.wf.nodup
      | file q => exact htouch (didOpen_spec hi he).1
    | didChange uri version changes =>
      by_cases hp : ∃ p, uri = .file p ∧ p ∈ openDocs s
      · obtain ⟨p, rfl, hp⟩ := hp
        obtain ⟨t, t', -, -, h1, -⟩ := didChange_spec hi hp he
        exact htouch h1
      · rw [didChange_ignored hi (fun p e h => hp ⟨p, e, h⟩)] at he
        cases he
        exact shown_keep hi (h.shown p) rfl rfl (List.prefix_refl _) hi.wf.nodup
    | didClose uri =>
      rw [didClose_event hi] at he
      cases he
      cases uri with
      | other u =>
        refine shown_keep hi (h.shown p) ?_ rfl (List.prefix_refl _) hi.wf.nodup
        exact shown_append _ _ _ (by simp)
      | file q =>
        by_cases hq : q = p
        · subst hq
          right
          refine ⟨by simp, ?_⟩
          show Spec.shown q (s.sent ++ [_]) = _
          rw [shown_snoc]; simp
        · refine shown_keep hi (h.shown p) ?_ rfl (List.prefix_refl _) hi.wf.nodup
          exact shown_append _ _ _ (by
            intro v d hm
            simp at hm
            exact hq hm.1.symm)
    | didSave uri =>
      rw [idle_event hi rfl] at he
      cases he
      exact shown_keep hi (h.shown p) rfl rfl (List.prefix_refl _) hi.wf.nodup
    | didChangeConfiguration =>
      rw [configuration_event hi] at he
      cases he
      refine shown_keep hi (h.shown p) ?_ rfl (List.prefix_refl _) hi.wf.nodup
      exact shown_append _ _ _ (by simp)
    | malformedNotification => rw [quiet_none rfl] at he; cases he
    | unknownNotification =>
      rw [idle_event hi rfl] at he
      cases he
      exact shown_keep hi (h.shown p) rfl rfl (List.prefix_refl _) hi.wf.nodup
    | response id error result =>
      rw [response_event hi] at he
      have hs := completeRequest_spec he
      refine shown_keep hi (h.shown p) ?_ ?_ ?_ hi'.wf.nodup
      · rw [hs]
      · rw [hs]
      · rw [hs]; exact List.prefix_refl _
    | loader first rest => exact htouch (loader_spec hi he).1
    | task =>
      rw [task_event hi] at he
      cases he
      obtain ⟨ms, hms, hms'⟩ := answerAll_append (responses s.tasks) s.incoming s.sent
      have hbound : ∀ id ∈ o.files (setAll (entries s.tasks) s.diagnostics).changes, id < s.vfs.paths.length := by
        intro id hid
        rcases (setAll_mem _ _ _).1 ((o.files_perm _).mem_iff.1 hid) with hh | hh
        · rw [hi.published] at hh; cases hh
        · obtain ⟨x, hx, rfl⟩ := List.mem_map.1 hh
          exact hi.queued x hx
      obtain ⟨h1, h2⟩ := shown_publications (s := { s with diagnostics := setAll (entries s.tasks) s.diagnostics })
        hi.wf.nodup p ((answerAll (responses s.tasks) (s.incoming, s.sent)).2) _ hbound
      have h3 : Spec.shown p (answerAll (responses s.tasks) (s.incoming, s.sent)).2 = Spec.shown p s.sent := by
        rw [hms]; exact shown_append _ _ _ (hms' _)
      simp only at h1 h2 ⊢
      by_cases hc : ∃ id ∈ o.files (setAll (entries s.tasks) s.diagnostics).changes, s.vfs.paths[id]? = some p
      · obtain ⟨id, hid, hp⟩ := hc
        left
        rw [h1 id hp hid, Vfs.idxOf?_of_get hi.wf.nodup hp]
        simp only [Option.bind_some, DiagnosticCollection.diagnosticsFor]
        cases hl : (setAll (entries s.tasks) s.diagnostics).native.lookup id with
        | some d => rfl
        | none =>
          exfalso
          rcases (setAll_mem _ _ _).1 ((o.files_perm _).mem_iff.1 hid) with hh | hh
          · rw [hi.published] at hh; cases hh
          · rw [setAll_lookup] at hl
            have : id ∈ (entries s.tasks).reverse.map (·.1) := by
              rw [List.map_reverse]; exact List.mem_reverse.2 hh
            have := mem_keys_lookup.1 this
            cases hx : (entries s.tasks).reverse.lookup id with
            | none => exact this hx
            | some d => rw [hx] at hl; cases hl
      · have hne : ∀ id ∈ o.files (setAll (entries s.tasks) s.diagnostics).changes, s.vfs.paths[id]? ≠ some p :=
          fun id hid hp => hc ⟨id, hid, hp⟩
        rw [h2 hne, h3]
        rcases h.shown p with hh | ⟨g1, g2⟩
        · left
          rw [hh]
          cases hx : s.vfs.paths.idxOf? p with
          | none => rfl
          | some i =>
            simp only [Option.bind_some]
            rw [(setAll_mem _ _ _).2.1]
            intro hm
            exact hne i ((o.files_perm _).mem_iff.2 hm) (Vfs.idxOf?_some hx)
        · exact Or.inr ⟨by simp [g1], g2⟩

theorem Shown.run {diag} {config : Config} {es : List (ServerEvent × Orders)} {s : Server}
    (h : Server.run diag (.new config) es = some s) : Shown diag s (es.map (·.1)) := by
  induction es using history_ind generalizing s with
  | nil =>
    cases h
    exact ⟨by simp [openDocs, Server.new], fun p => Or.inl rfl⟩
  | snoc es e ih =>
    obtain ⟨s1, h1, h2⟩ := run_snoc.1 h
    rw [List.map_append]
    exact (ih h1).step (Inv.run h1) h2

/-- Nothing is displayed for a file, and nothing is queued. -/
structure Silent (s : Server) (p : AbsPath) : Prop where
  closed : p ∉ openDocs s
  queued : ∀ x ∈ entries s.tasks, s.vfs.paths[x.1]? ≠ some p

/-- The messages sent during an event publish nothing for the file, or an empty list. -/
def Clears (p : AbsPath) (s s' : Server) : Prop :=
  ∃ ms, s'.sent = s.sent ++ ms ∧ ∀ v d, Msg.publishDiagnostics (.file p) v d ∈ ms → d = []

theorem Silent.step {diag o} {s s' : Server} {e : ServerEvent} {p : AbsPath} (hi : Inv s) (h : Silent s p)
    (hne : ∀ v t, e ≠ .didOpen (.file p) v t)
    (he : handleEvent diag s (e, o) = some s') : Silent s' p ∧ Clears p s s' := by
  have hi' := hi.step he
  have htouch : Touch diag s s' → p ∉ openDocs s' → Silent s' p ∧ Clears p s s' := by
    intro ht hp
    refine ⟨⟨hp, ?_⟩, [], by rw [ht.same]; simp, by simp⟩
    have hold : ∀ x ∈ entries s.tasks, s'.vfs.paths[x.1]? ≠ some p := by
      intro x hx
      obtain ⟨tl, htl⟩ := ht.paths
      rw [← htl, List.getElem?_append_left (hi.queued x hx)]
      exact h.queued x hx
    rcases ht.tasks with ⟨h3, -⟩ | ⟨ds, h3, h4⟩
    · rw [h3]; exact hold
    · rw [h3, entries_snoc]
      intro x hx
      rcases List.mem_append.1 hx with hx | hx
      · exact hold x hx
      · obtain ⟨q, hq, t, g1, -⟩ := h4.sound x hx
        rw [g1]
        intro e
        cases e
        exact hp hq
  have hidle : dispatch diag o s e = some s → Silent s' p ∧ Clears p s s' := by
    intro hd
    rw [idle_event hi hd] at he
    cases he
    exact ⟨h, [], by simp, by simp⟩
  cases e with
  | request id m ok =>
    rw [request_event hi] at he
    cases he
    rcases onRequest_spec s id m ok with hh | ⟨-, -, -, hh⟩
    · rw [hh]
      exact ⟨⟨h.closed, h.queued⟩, _, rfl, by simp⟩
    · rw [hh]
      exact ⟨⟨h.closed, by simp only [entries_append]; simpa [entries] using h.queued⟩, [], by simp, by simp⟩
  | didOpen uri version text =>
    cases uri with
    | other u => exact hidle rfl
    | file q =>
      obtain ⟨h1, h2, -⟩ := didOpen_spec hi he
      refine htouch h1 ?_
      rw [openDocs, h2, mem_insertDoc]
      rintro (rfl | hh)
      · exact hne version text rfl
      · exact h.closed hh
  | didChange uri version changes =>
    by_cases hp : ∃ p, uri = .file p ∧ p ∈ openDocs s
    · obtain ⟨q, rfl, hq⟩ := hp
      obtain ⟨t, t', -, -, h1, h2, -⟩ := didChange_spec hi hq he
      refine htouch h1 ?_
      rw [openDocs, h2, mem_insertDoc]
      rintro (rfl | hh)
      · exact h.closed hq
      · exact h.closed hh
    · rw [didChange_ignored hi (fun p e h => hp ⟨p, e, h⟩)] at he
      cases he
      exact ⟨h, [], by simp, by simp⟩
  | didClose uri =>
    rw [didClose_event hi] at he
    cases he
    cases uri with
    | other u => exact ⟨⟨h.closed, h.queued⟩, _, rfl, by simp⟩
    | file q =>
      refine ⟨⟨?_, h.queued⟩, _, rfl, ?_⟩
      · show p ∉ (removeDoc s.memDocs q).map (·.1)
        rw [removeDoc_keys]
        intro hm
        exact h.closed ((List.mem_filter.1 hm).1)
      · intro v d hm
        simp at hm
        exact hm.2.2
  | didSave uri => exact hidle rfl
  | didChangeConfiguration =>
    rw [configuration_event hi] at he
    cases he
    exact ⟨⟨h.closed, h.queued⟩, _, rfl, by simp⟩
  | malformedNotification => rw [quiet_none rfl] at he; cases he
  | unknownNotification => exact hidle rfl
  | response id error result =>
    rw [response_event hi] at he
    have hs := completeRequest_spec he
    rw [hs]
    exact ⟨⟨h.closed, h.queued⟩, [], by simp, by simp⟩
  | loader first rest =>
    obtain ⟨h1, h2, -⟩ := loader_spec hi he
    exact htouch h1 (by rw [openDocs, h2]; exact h.closed)
  | task =>
    rw [task_event hi] at he
    cases he
    obtain ⟨ms, hms, hms'⟩ := answerAll_append (responses s.tasks) s.incoming s.sent
    refine ⟨⟨h.closed, by simp [entries]⟩, _, by simp only [hms]; rw [List.append_assoc], ?_⟩
    intro v d hm
    rcases List.mem_append.1 hm with hm | hm
    · exact absurd hm (hms' _ _ _)
    · exfalso
      obtain ⟨id, hid, hpub⟩ := List.mem_map.1 hm
      rcases (setAll_mem _ _ _).1 ((o.files_perm _).mem_iff.1 hid) with hh | hh
      · rw [hi.published] at hh; cases hh
      · obtain ⟨x, hx, rfl⟩ := List.mem_map.1 hh
        have hlt := hi.queued x hx
        have hp := List.getElem?_eq_getElem hlt
        refine h.queued x hx ?_
        simp [publication, Vfs.filePath, hp] at hpub
        rw [hp, hpub.1]

theorem Silent.run {diag} {s s' : Server} {es : List (ServerEvent × Orders)} {p : AbsPath} (hi : Inv s) (h : Silent s p)
    (hne : ∀ v t, ServerEvent.didOpen (.file p) v t ∉ es.map (·.1))
    (he : Server.run diag s es = some s') : Silent s' p ∧ Clears p s s' ∧ Inv s' := by
  induction es using history_ind generalizing s' with
  | nil => cases he; exact ⟨h, ⟨[], by simp, by simp⟩, hi⟩
  | snoc es e ih =>
    obtain ⟨s1, h1, h2⟩ := run_snoc.1 he
    obtain ⟨g1, ⟨ms, g2, g3⟩, g4⟩ := ih (fun v t hm => hne v t (by simp only [List.map_append]; exact List.mem_append_left _ hm)) h1
    obtain ⟨k1, ⟨ms', k2, k3⟩⟩ := g1.step g4 (e := e.1) (o := e.2) (by
      intro v t ht
      exact hne v t (by rw [← ht]; simp)) h2
    refine ⟨k1, ⟨ms ++ ms', by rw [k2, g2, List.append_assoc], ?_⟩, g4.step (e := e.1) (o := e.2) h2⟩
    intro v d hm
    rcases List.mem_append.1 hm with hm | hm
    · exact g3 v d hm
    · exact k3 v d hm

end Server
end Verif
