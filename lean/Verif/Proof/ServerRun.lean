import Verif.Proof.ServerEvents

/-
Open documents and files along a history.
-/
namespace Verif
open Spec

namespace Server

theorem clientText_snoc (p : AbsPath) (es : List ServerEvent) (e : ServerEvent) :
    clientText p (es ++ [e]) = (match e with
    | .didOpen (.file q) _ text => if q = p then some text else clientText p es
    | .didChange (.file q) _ changes =>
      if q = p then (clientText p es).bind fun text => changes.foldlM (applyChange LspSpec.offset) text
      else clientText p es
    | .didClose (.file q) => if q = p then none else clientText p es
    | _ => clientText p es) := by
  unfold clientText
  rw [List.foldl_append]
  rfl

theorem fileAfter_snoc (p : AbsPath) (es : List ServerEvent) (e : ServerEvent) :
    fileAfter p (es ++ [e]) = (match e with
    | .didOpen (.file q) _ text => if q = p then (true, some (.utf8 text)) else fileAfter p es
    | .didChange (.file q) _ changes =>
      if q = p ∧ (fileAfter p es).1 = true then
        (true, match (fileAfter p es).2 with
          | some (.utf8 text) => (changes.foldlM (applyChange LspSpec.offset) text).map .utf8
          | other => other)
      else fileAfter p es
    | .didClose (.file q) => if q = p then (false, (fileAfter p es).2) else fileAfter p es
    | .loader first rest =>
      if (fileAfter p es).1 then fileAfter p es
      else (false, afterWrites (fun _ => (fileAfter p es).2) (writes (first :: rest)) p)
    | _ => fileAfter p es) := by
  unfold fileAfter
  rw [List.foldl_append]
  rfl

theorem Follows.prefix {es : List ServerEvent} {e : ServerEvent} (h : Follows (es ++ [e])) : Follows es := by
  intro past p v cs rest t h1 h2
  exact h past p v cs (rest ++ [e]) t (by rw [h1]; simp) h2

/-- The server's view of a file agrees with the history. -/
structure Mirror (s : Server) (es : List ServerEvent) (p : AbsPath) : Prop where
  isOpen : p ∈ openDocs s ↔ (fileAfter p es).1 = true
  contents : s.vfs.contentsOf p = (fileAfter p es).2
  text : ∀ t, clientText p es = some t ↔ (fileAfter p es) = (true, some (.utf8 t))

theorem afterWrites_congr {c c' : AbsPath → Option Bytes} {p : AbsPath} (h : c p = c' p) (ws) :
    afterWrites c ws p = afterWrites c' ws p := by
  unfold afterWrites; rw [h]

theorem mem_openDocs_contains {s : Server} {p : AbsPath} :
    ((s.memDocs.map (·.1)).contains p) = true ↔ p ∈ openDocs s := by simp [openDocs]

theorem Mirror.keep {s s' : Server} {es : List ServerEvent} {p : AbsPath} (h : Mirror s es p) {e : ServerEvent}
    (hf : fileAfter p (es ++ [e]) = fileAfter p es) (hc : clientText p (es ++ [e]) = clientText p es)
    (ho : p ∈ openDocs s' ↔ p ∈ openDocs s) (hv : s'.vfs.contentsOf p = s.vfs.contentsOf p) : Mirror s' (es ++ [e]) p :=
  ⟨by rw [ho, hf]; exact h.isOpen, by rw [hv, hf]; exact h.contents, by rw [hf, hc]; exact h.text⟩

theorem Mirror.step {diag o} {s s' : Server} {es : List ServerEvent} {e : ServerEvent} {p : AbsPath} (hi : Inv s)
    (hf : Follows (es ++ [e])) (h : handleEvent diag s (e, o) = some s') (hm : Mirror s es p) : Mirror s' (es ++ [e]) p := by
  have hidle : dispatch diag o s e = some s → fileAfter p (es ++ [e]) = fileAfter p es →
      clientText p (es ++ [e]) = clientText p es → Mirror s' (es ++ [e]) p := by
    intro hd h1 h2
    rw [idle_event hi hd] at h
    cases h
    exact hm.keep h1 h2 Iff.rfl rfl
  cases e with
  | request id m ok =>
    rw [request_event hi] at h
    cases h
    refine hm.keep (fileAfter_snoc _ _ _) (clientText_snoc _ _ _) ?_ ?_
    · rcases onRequest_spec s id m ok with h | ⟨-, -, -, h⟩ <;> rw [h] <;> rfl
    · rcases onRequest_spec s id m ok with h | ⟨-, -, -, h⟩ <;> rw [h]
  | didOpen uri version text =>
    cases uri with
    | other u => exact hidle rfl (fileAfter_snoc _ _ _) (clientText_snoc _ _ _)
    | file q =>
      obtain ⟨-, h2, h3, -⟩ := didOpen_spec hi h
      have ho : p ∈ openDocs s' ↔ p = q ∨ p ∈ openDocs s := by
        rw [openDocs, h2]; exact mem_insertDoc _ _ _ _
      by_cases hq : q = p
      · subst hq
        refine ⟨?_, ?_, ?_⟩
        · rw [ho, fileAfter_snoc]; simp
        · rw [h3, fileAfter_snoc]; simp
        · intro t; rw [fileAfter_snoc, clientText_snoc]; simp
      · refine hm.keep (by rw [fileAfter_snoc]; simp [hq]) (by rw [clientText_snoc]; simp [hq]) ?_ ?_
        · rw [ho]
          exact ⟨fun h => h.resolve_left (fun e => hq e.symm), Or.inr⟩
        · rw [h3, if_neg (fun e => hq e.symm)]
  | didChange uri version changes =>
    cases uri with
    | other u => exact hidle rfl (fileAfter_snoc _ _ _) (clientText_snoc _ _ _)
    | file q =>
      by_cases ho : q ∈ openDocs s
      · obtain ⟨t, t', h1, h2, -, h3, h4⟩ := didChange_spec hi ho h
        have hod : p ∈ openDocs s' ↔ p ∈ openDocs s := by
          rw [openDocs, h3, mem_insertDoc]
          constructor
          · rintro (rfl | h)
            · exact ho
            · exact h
          · exact Or.inr
        by_cases hq : q = p
        · subst hq
          have h5 := hm.isOpen.1 ho
          have h6 : (fileAfter q es).2 = some (.utf8 t) := by rw [← hm.contents]; exact h1
          have h7 : fileAfter q es = (true, some (.utf8 t)) := by rw [← h5, ← h6]
          have h8 := (hm.text t).2 h7
          obtain ⟨new, h9, h10⟩ := Lsp.applyDocumentChanges_conforming t changes (hf es q version changes [] t rfl h8)
          rw [h2] at h10
          cases h10
          refine ⟨?_, ?_, ?_⟩
          · rw [hod, fileAfter_snoc]; simp [ho, h5]
          · rw [h4, fileAfter_snoc]; simp [h7, h9]
          · intro t2
            rw [fileAfter_snoc, clientText_snoc]
            simp [h8, h7, h9]
        · refine hm.keep (by rw [fileAfter_snoc]; simp [hq]) (by rw [clientText_snoc]; simp [hq]) hod ?_
          rw [h4, if_neg (fun e => hq e.symm)]
      · rw [didChange_ignored hi (fun p e h => ho (by cases e; exact h))] at h
        cases h
        by_cases hq : q = p
        · subst hq
          have h5 : (fileAfter q es).1 = false := by
            cases hb : (fileAfter q es).1 with
            | false => rfl
            | true => exact absurd (hm.isOpen.2 hb) ho
          have h8 : clientText q es = none := by
            cases hc : clientText q es with
            | none => rfl
            | some t => rw [(hm.text t).1 hc] at h5; cases h5
          exact hm.keep (by rw [fileAfter_snoc]; simp [h5]) (by rw [clientText_snoc]; simp [h8]) Iff.rfl rfl
        · exact hm.keep (by rw [fileAfter_snoc]; simp [hq]) (by rw [clientText_snoc]; simp [hq]) Iff.rfl rfl
  | didClose uri =>
    rw [didClose_event hi] at h
    cases h
    cases uri with
    | other u => exact hm.keep (fileAfter_snoc _ _ _) (clientText_snoc _ _ _) Iff.rfl rfl
    | file q =>
      have hod : p ∈ openDocs (s.didClose (.file q)) ↔ p ∈ openDocs s ∧ p ≠ q := by
        show p ∈ (removeDoc s.memDocs q).map (·.1) ↔ _
        rw [removeDoc_keys]
        simp [openDocs]
      by_cases hq : q = p
      · subst hq
        refine ⟨?_, ?_, ?_⟩
        · rw [hod, fileAfter_snoc]; simp
        · rw [fileAfter_snoc]; simp only [if_true]; exact hm.contents
        · intro t; rw [fileAfter_snoc, clientText_snoc]; simp
      · refine hm.keep (by rw [fileAfter_snoc]; simp [hq]) (by rw [clientText_snoc]; simp [hq]) ?_ rfl
        rw [hod]
        exact ⟨fun h => h.1, fun h => ⟨h, fun e => hq e.symm⟩⟩
  | didSave uri => exact hidle rfl (fileAfter_snoc _ _ _) (clientText_snoc _ _ _)
  | didChangeConfiguration =>
    rw [configuration_event hi] at h
    cases h
    exact hm.keep (fileAfter_snoc _ _ _) (clientText_snoc _ _ _) Iff.rfl rfl
  | malformedNotification => rw [quiet_none rfl] at h; cases h
  | unknownNotification => exact hidle rfl (fileAfter_snoc _ _ _) (clientText_snoc _ _ _)
  | response id error result =>
    rw [response_event hi] at h
    have := completeRequest_spec h
    exact hm.keep (fileAfter_snoc _ _ _) (clientText_snoc _ _ _) (by rw [this]; rfl) (by rw [this])
  | task =>
    rw [task_event hi] at h
    cases h
    exact hm.keep (fileAfter_snoc _ _ _) (clientText_snoc _ _ _) Iff.rfl rfl
  | loader first rest =>
    obtain ⟨-, h2, h3, -⟩ := loader_spec hi h
    have hod : p ∈ openDocs s' ↔ p ∈ openDocs s := by rw [openDocs, h2]; rfl
    cases hb : (fileAfter p es).1 with
    | true =>
      refine hm.keep (by rw [fileAfter_snoc]; simp [hb]) (clientText_snoc _ _ _) hod ?_
      rw [h3, if_pos (hm.isOpen.2 hb)]
    | false =>
      have ho : p ∉ openDocs s := fun h => by rw [hm.isOpen, hb] at h; cases h
      refine ⟨?_, ?_, ?_⟩
      · rw [hod, fileAfter_snoc]; simp [ho, hb]
      · rw [h3, if_neg ho, fileAfter_snoc]
        simp only [hb, Bool.false_eq_true, if_false]
        exact afterWrites_congr hm.contents _
      · intro t
        rw [fileAfter_snoc]
        simp only [hb, Bool.false_eq_true, if_false, Prod.mk.injEq, false_and, iff_false]
        rw [clientText_snoc]
        simp only
        intro hc
        have := (hm.text t).1 hc
        rw [this] at hb
        cases hb

theorem Mirror.run {diag} {config : Config} {es : List (ServerEvent × Orders)} {s : Server}
    (h : Server.run diag (.new config) es = some s) (hf : Follows (es.map (·.1))) (p : AbsPath) :
    Mirror s (es.map (·.1)) p := by
  induction es using history_ind generalizing s with
  | nil =>
    cases h
    refine ⟨?_, rfl, ?_⟩
    · simp [openDocs, Server.new, fileAfter]
    · intro t; simp [clientText, fileAfter]
  | snoc es e ih =>
    obtain ⟨s1, h1, h2⟩ := run_snoc.1 h
    rw [List.map_append] at hf ⊢
    exact (ih h1 (Follows.prefix hf)).step (Inv.run h1) hf h2

end Server
end Verif
