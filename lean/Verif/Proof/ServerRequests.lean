import Verif.Proof.ServerRun

/-
Requests and responses along a history.
-/
namespace Verif
open Spec

namespace Server

theorem requests_snoc (es : List ServerEvent) (e : ServerEvent) :
    requests (es ++ [e]) = requests es ++ (match e with | .request id _ _ => [id] | _ => []) := by
  unfold requests
  rw [List.filterMap_append]
  cases e <;> rfl

theorem answers_append (id : ReqId) (a b : List Msg) : answers id (a ++ b) = answers id a + answers id b := by
  unfold answers; rw [List.filter_append, List.length_append]

/-- A request of the history, and an outcome prescribed for it. -/
def Justified (es : List ServerEvent) (id : ReqId) (oc : Outcome) : Prop :=
  ∃ past m ok rest, es = past ++ .request id m ok :: rest ∧ Prescribed past m ok oc

theorem Justified.snoc {es : List ServerEvent} {id oc} (h : Justified es id oc) (e : ServerEvent) :
    Justified (es ++ [e]) id oc := by
  obtain ⟨past, m, ok, rest, h1, h2⟩ := h
  exact ⟨past, m, ok, rest ++ [e], by rw [h1]; simp, h2⟩

/-- The bookkeeping of requests. -/
structure Reqs (s : Server) (es : List ServerEvent) : Prop where
  shutdown : s.shutdownRequested = true ↔ ShutdownIn es
  sub : ∀ id ∈ s.incoming, id ∈ requests es
  nodup : s.incoming.Nodup
  queued : ∀ id ∈ s.incoming, ∃ oc, (id, oc) ∈ responses s.tasks
  justTask : ∀ r ∈ responses s.tasks, Justified es r.1 r.2
  justSent : ∀ id oc, Msg.response id oc ∈ s.sent → Justified es id oc
  count : (requests es).Nodup → ∀ id, answers id s.sent + (if id ∈ s.incoming then 1 else 0) =
    if id ∈ requests es then 1 else 0

theorem Reqs.new (config : Config) : Reqs (new config) [] where
  shutdown := by simp [Server.new, ShutdownIn]
  sub := by simp [Server.new]
  nodup := by simp [Server.new]
  queued := by simp [Server.new]
  justTask := by simp [Server.new, responses]
  justSent := by simp [Server.new]
  count := by simp [Server.new, answers, requests]

/-- An event that is not a request and sends no response. -/
theorem Reqs.keep {s s' : Server} {es : List ServerEvent} {e : ServerEvent} (h : Reqs s es)
    (he : ∀ id m ok, e ≠ .request id m ok) (h1 : s'.shutdownRequested = s.shutdownRequested)
    (h2 : s'.incoming = s.incoming) (h3 : responses s'.tasks = responses s.tasks)
    (h4 : ∃ ms, s'.sent = s.sent ++ ms ∧ ∀ id oc, Msg.response id oc ∉ ms) : Reqs s' (es ++ [e]) := by
  have hr : requests (es ++ [e]) = requests es := by
    rw [requests_snoc]
    cases e <;> first | exact List.append_nil _ | exact absurd rfl (he _ _ _)
  have hs : ShutdownIn (es ++ [e]) ↔ ShutdownIn es := by
    constructor
    · rintro ⟨id, h⟩
      rcases List.mem_append.1 h with h | h
      · exact ⟨id, h⟩
      · simp at h; exact absurd h.symm (he _ _ _)
    · rintro ⟨id, h⟩; exact ⟨id, by simp [h]⟩
  obtain ⟨ms, h5, h6⟩ := h4
  refine ⟨by rw [h1, hs]; exact h.shutdown, by rw [h2, hr]; exact h.sub, by rw [h2]; exact h.nodup,
    by rw [h2, h3]; exact h.queued, fun r hr => (h.justTask r (h3 ▸ hr)).snoc e, ?_, ?_⟩
  · intro id oc hm
    rw [h5, List.mem_append] at hm
    rcases hm with hm | hm
    · exact (h.justSent id oc hm).snoc e
    · exact absurd hm (h6 id oc)
  · rw [hr, h2, h5]
    intro hn id
    have hz : answers id ms = 0 := by
      unfold answers
      rw [List.length_eq_zero_iff, List.filter_eq_nil_iff]
      intro m hm
      cases m with
      | response i oc => exact absurd hm (h6 i oc)
      | publishDiagnostics => simp
      | configurationRequest => simp
    rw [answers_append, hz, Nat.add_zero]
    exact h.count hn id

theorem answerAll_spec : ∀ (rs : List (ReqId × Outcome)) (inc : List ReqId) (sent : List Msg), inc.Nodup →
    (answerAll rs (inc, sent)).1.Nodup ∧
    (∀ id, id ∈ (answerAll rs (inc, sent)).1 ↔ id ∈ inc ∧ ∀ oc, (id, oc) ∉ rs) ∧
    (∀ id oc, Msg.response id oc ∈ (answerAll rs (inc, sent)).2 → Msg.response id oc ∈ sent ∨ (id, oc) ∈ rs) ∧
    (∀ m, (∀ id oc, m ≠ Msg.response id oc) → (m ∈ (answerAll rs (inc, sent)).2 ↔ m ∈ sent)) ∧
    (∀ id, answers id (answerAll rs (inc, sent)).2 + (if id ∈ (answerAll rs (inc, sent)).1 then 1 else 0) =
      answers id sent + if id ∈ inc then 1 else 0) := by
  intro rs
  induction rs with
  | nil =>
    intro inc sent hn
    exact ⟨hn, fun id => by simp [answerAll], fun id oc h => Or.inl h, fun m _ => Iff.rfl, fun id => rfl⟩
  | cons r rs ih =>
    intro inc sent hn
    by_cases h : r.1 ∈ inc
    · have he : answerAll (r :: rs) (inc, sent) = answerAll rs (inc.erase r.1, sent ++ [.response r.1 r.2]) := by
        simp only [answerAll, List.foldl_cons, h, if_true]
      rw [he]
      obtain ⟨h1, h2, h3, h4, h5⟩ := ih (inc.erase r.1) (sent ++ [.response r.1 r.2]) (hn.erase _)
      refine ⟨h1, ?_, ?_, ?_, ?_⟩
      · intro id
        rw [h2, hn.mem_erase_iff]
        constructor
        · rintro ⟨⟨a, b⟩, c⟩
          refine ⟨b, fun oc hm => ?_⟩
          rcases List.mem_cons.1 hm with e | hm
          · exact a (by rw [← e])
          · exact c oc hm
        · rintro ⟨a, b⟩
          exact ⟨⟨fun e => b r.2 (by simp [e]), a⟩, fun oc hm => b oc (by simp [hm])⟩
      · intro id oc hm
        rcases h3 id oc hm with h | h
        · rcases List.mem_append.1 h with h | h
          · exact Or.inl h
          · simp at h; exact Or.inr (by simp [h])
        · exact Or.inr (by simp [h])
      · intro m hm
        rw [h4 m hm, List.mem_append]
        constructor
        · rintro (h | h)
          · exact h
          · simp at h; exact absurd h (hm _ _)
        · exact Or.inl
      · intro id
        rw [h5, answers_append]
        by_cases hid : id = r.1
        · subst hid
          rw [if_neg (fun hh => by rw [hn.mem_erase_iff] at hh; exact hh.1 rfl), if_pos h]
          simp [answers]
        · have : answers id [.response r.1 r.2] = 0 := by
            simp only [answers, List.length_eq_zero_iff, List.filter_eq_nil_iff, List.mem_singleton, forall_eq, decide_eq_true_eq]
            exact fun e => hid e.symm
          rw [this, Nat.add_zero]
          congr 1
          have hiff : id ∈ inc.erase r.1 ↔ id ∈ inc := by rw [hn.mem_erase_iff]; simp [hid]
          simp only [hiff]
    · have he : answerAll (r :: rs) (inc, sent) = answerAll rs (inc, sent) := by
        simp only [answerAll, List.foldl_cons, h, if_false]
      rw [he]
      obtain ⟨h1, h2, h3, h4, h5⟩ := ih inc sent hn
      refine ⟨h1, ?_, fun id oc hm => (h3 id oc hm).imp_right (fun h => by simp [h]), h4, h5⟩
      intro id
      rw [h2]
      constructor
      · rintro ⟨a, b⟩
        refine ⟨a, fun oc hm => ?_⟩
        rcases List.mem_cons.1 hm with e | hm
        · exact h (by rw [← e]; exact a)
        · exact b oc hm
      · rintro ⟨a, b⟩
        exact ⟨a, fun oc hm => b oc (by simp [hm])⟩

theorem responses_append (a b : List Task) : responses (a ++ b) = responses a ++ responses b := by
  simp [responses]

theorem prescribed_outcome {s : Server} {es : List ServerEvent} (h : s.shutdownRequested = true ↔ ShutdownIn es)
    (m : Method) (ok : Bool) : Prescribed es m ok (outcomeOf s.shutdownRequested m ok) := by
  cases hs : s.shutdownRequested with
  | true => exact Or.inl ⟨h.1 hs, rfl⟩
  | false =>
    refine Or.inr ⟨fun hh => (by rw [h.2 hh] at hs; cases hs), ?_⟩
    cases m <;> cases ok <;> rfl

theorem Reqs.step {diag o} {s s' : Server} {es : List ServerEvent} {e : ServerEvent} (hi : Inv s) (h : Reqs s es)
    (he : handleEvent diag s (e, o) = some s') : Reqs s' (es ++ [e]) := by
  have htouch : Touch diag s s' → (∀ id m ok, e ≠ .request id m ok) → Reqs s' (es ++ [e]) := by
    intro ht hne
    refine h.keep hne (by rw [ht.same]) (by rw [ht.same]) ?_ ⟨[], by rw [ht.same]; simp, by simp⟩
    rcases ht.tasks with ⟨e, -⟩ | ⟨ds, e, -⟩
    · rw [e]
    · rw [e, responses_append]; simp [responses]
  have hidle : dispatch diag o s e = some s → (∀ id m ok, e ≠ .request id m ok) → Reqs s' (es ++ [e]) := by
    intro hd hne
    rw [idle_event hi hd] at he
    cases he
    exact h.keep hne rfl rfl rfl ⟨[], by simp, by simp⟩
  cases e with
  | request id m ok =>
    rw [request_event hi] at he
    cases he
    have hshut : (s.shutdownRequested || (m == .shutdown && ok)) = true ↔ ShutdownIn (es ++ [.request id m ok]) := by
      rw [Bool.or_eq_true, h.shutdown]
      constructor
      · rintro (⟨i, hh⟩ | hh)
        · exact ⟨i, by simp [hh]⟩
        · simp at hh
          obtain ⟨rfl, rfl⟩ := hh
          exact ⟨id, by simp⟩
      · rintro ⟨i, hh⟩
        rcases List.mem_append.1 hh with hh | hh
        · exact Or.inl ⟨i, hh⟩
        · simp at hh
          obtain ⟨-, rfl, rfl⟩ := hh
          exact Or.inr rfl
    have hreq : requests (es ++ [.request id m ok]) = requests es ++ [id] := requests_snoc _ _
    have hnot : (requests (es ++ [.request id m ok])).Nodup → id ∉ requests es ∧ (requests es).Nodup := by
      intro hn
      rw [hreq, List.nodup_append] at hn
      exact ⟨fun hm => hn.2.2 id hm id (by simp) rfl, hn.1⟩
    rcases onRequest_spec s id m ok with hh | ⟨h1, rfl, rfl, hh⟩
    · rw [hh]
      refine ⟨hshut, ?_, h.nodup.erase _, ?_, fun r hr => (h.justTask r hr).snoc _, ?_, ?_⟩
      · intro i hi'
        rw [hreq]
        exact List.mem_append_left _ (h.sub i (List.mem_of_mem_erase hi'))
      · intro i hi'
        exact h.queued i (List.mem_of_mem_erase hi')
      · intro i oc hm
        rcases List.mem_append.1 hm with hm | hm
        · exact (h.justSent i oc hm).snoc _
        · simp only [List.mem_singleton, Msg.response.injEq] at hm
          obtain ⟨rfl, rfl⟩ := hm
          exact ⟨es, m, ok, [], rfl, prescribed_outcome h.shutdown m ok⟩
      · intro hn i
        obtain ⟨hn1, hn2⟩ := hnot hn
        have hc := h.count hn2 i
        rw [answers_append, hreq]
        simp only [List.mem_append, List.mem_singleton]
        rw [List.erase_of_not_mem (fun hm => hn1 (h.sub id hm))]
        by_cases hi' : i = id
        · subst hi'
          have hni : i ∉ s.incoming := fun hm => hn1 (h.sub i hm)
          rw [if_neg hni, if_neg hn1] at hc
          rw [if_neg hni, if_pos (Or.inr rfl)]
          have : answers i [Msg.response i (outcomeOf s.shutdownRequested m ok)] = 1 := by simp [answers]
          omega
        · have : answers i [Msg.response id (outcomeOf s.shutdownRequested m ok)] = 0 := by
            simp only [answers, List.length_eq_zero_iff, List.filter_eq_nil_iff, List.mem_singleton, forall_eq, decide_eq_true_eq]
            exact fun e => hi' e.symm
          rw [this, Nat.add_zero, hc]
          simp [hi']
    · rw [hh]
      refine ⟨?_, ?_, ?_, ?_, ?_, fun i oc hm => (h.justSent i oc hm).snoc _, ?_⟩
      · rw [← hshut]; simp
      · intro i hi'
        rw [hreq]
        simp only at hi'
        split at hi'
        · exact List.mem_append_left _ (h.sub i hi')
        · rcases List.mem_append.1 hi' with hm | hm
          · exact List.mem_append_left _ (h.sub i hm)
          · exact List.mem_append_right _ hm
      · show (if id ∈ s.incoming then s.incoming else s.incoming ++ [id]).Nodup
        split
        · exact h.nodup
        · rename_i hni
          rw [List.nodup_append]
          refine ⟨h.nodup, by simp, ?_⟩
          intro a ha b hb e
          simp at hb; subst hb; subst e; exact hni ha
      · intro i hi'
        simp only at hi' ⊢
        rw [responses_append]
        have : i ∈ s.incoming ∨ i = id := by
          split at hi'
          · exact Or.inl hi'
          · rcases List.mem_append.1 hi' with hm | hm
            · exact Or.inl hm
            · exact Or.inr (by simpa using hm)
        rcases this with hm | rfl
        · obtain ⟨oc, ho⟩ := h.queued i hm
          exact ⟨oc, List.mem_append_left _ ho⟩
        · exact ⟨.ok, List.mem_append_right _ (by simp [responses])⟩
      · intro r hr
        simp only [responses_append] at hr
        rcases List.mem_append.1 hr with hm | hm
        · exact (h.justTask r hm).snoc _
        · simp [responses] at hm
          subst hm
          refine ⟨es, .completion, true, [], rfl, ?_⟩
          have := prescribed_outcome h.shutdown .completion true
          rw [h1] at this
          exact this
      · intro hn i
        obtain ⟨hn1, hn2⟩ := hnot hn
        have hc := h.count hn2 i
        have hni : id ∉ s.incoming := fun hm => hn1 (h.sub id hm)
        rw [hreq]
        simp only [if_neg hni, List.mem_append, List.mem_singleton]
        by_cases hi' : i = id
        · subst hi'
          rw [if_neg hni, if_neg hn1] at hc
          rw [if_pos (Or.inr rfl), if_pos (Or.inr rfl)]
          omega
        · simp only [hi', or_false]; exact hc
  | didOpen uri version text =>
    cases uri with
    | other u => exact hidle rfl (by simp)
    | file q => exact htouch (didOpen_spec hi he).1 (by simp)
  | didChange uri version changes =>
    by_cases hp : ∃ p, uri = .file p ∧ p ∈ openDocs s
    · obtain ⟨p, rfl, hp⟩ := hp
      obtain ⟨t, t', -, -, h1, -⟩ := didChange_spec hi hp he
      exact htouch h1 (by simp)
    · rw [didChange_ignored hi (fun p e h => hp ⟨p, e, h⟩)] at he
      cases he
      exact h.keep (by simp) rfl rfl rfl ⟨[], by simp, by simp⟩
  | didClose uri =>
    rw [didClose_event hi] at he
    cases he
    refine h.keep (by simp) ?_ ?_ ?_ ?_
    · cases uri <;> rfl
    · cases uri <;> rfl
    · cases uri <;> rfl
    · cases uri <;> exact ⟨_, rfl, by simp⟩
  | didSave uri => exact hidle rfl (by simp)
  | didChangeConfiguration =>
    rw [configuration_event hi] at he
    cases he
    exact h.keep (by simp) rfl rfl rfl ⟨_, rfl, by simp⟩
  | malformedNotification => rw [quiet_none rfl] at he; cases he
  | unknownNotification => exact hidle rfl (by simp)
  | response id error result =>
    rw [response_event hi] at he
    have := completeRequest_spec he
    exact h.keep (by simp) (by rw [this]) (by rw [this]) (by rw [this]) ⟨[], by rw [this]; simp, by simp⟩
  | task =>
    rw [task_event hi] at he
    cases he
    obtain ⟨h1, h2, h3, h4, h5⟩ := answerAll_spec (responses s.tasks) s.incoming s.sent h.nodup
    have hr : requests (es ++ [.task]) = requests es := by rw [requests_snoc]; simp
    have hz : ∀ l : List Nat, ∀ s : Server, ∀ id, answers id (l.map (publication s)) = 0 := by
      intro l s id
      unfold answers
      rw [List.length_eq_zero_iff, List.filter_eq_nil_iff]
      intro m hm
      obtain ⟨k, -, rfl⟩ := List.mem_map.1 hm
      simp [publication]
    have hempty : ∀ id, id ∉ (answerAll (responses s.tasks) (s.incoming, s.sent)).1 := by
      intro id hm
      obtain ⟨a, b⟩ := (h2 id).1 hm
      obtain ⟨oc, c⟩ := h.queued id a
      exact b oc c
    refine ⟨?_, fun id hm => absurd hm (hempty id), h1, fun id hm => absurd hm (hempty id), by simp [responses], ?_, ?_⟩
    · rw [h.shutdown]
      constructor
      · rintro ⟨i, hh⟩; exact ⟨i, by simp [hh]⟩
      · rintro ⟨i, hh⟩
        rcases List.mem_append.1 hh with hh | hh
        · exact ⟨i, hh⟩
        · simp at hh
    · intro id oc hm
      rcases List.mem_append.1 hm with hm | hm
      · rcases h3 id oc hm with hm | hm
        · exact (h.justSent id oc hm).snoc _
        · exact (h.justTask _ hm).snoc _
      · obtain ⟨k, -, hk⟩ := List.mem_map.1 hm
        simp [publication] at hk
    · rw [hr]
      intro hn id
      simp only
      rw [answers_append, hz, Nat.add_zero, h5]
      exact h.count hn id
  | loader first rest => exact htouch (loader_spec hi he).1 (by simp)

theorem Reqs.run {diag} {config : Config} {es : List (ServerEvent × Orders)} {s : Server}
    (h : Server.run diag (.new config) es = some s) : Reqs s (es.map (·.1)) := by
  induction es using history_ind generalizing s with
  | nil => cases h; exact Reqs.new config
  | snoc es e ih =>
    obtain ⟨s1, h1, h2⟩ := run_snoc.1 h
    rw [List.map_append]
    exact (ih h1).step (Inv.run h1) h2

end Server
end Verif
