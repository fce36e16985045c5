import Verif.Spec.ClientView
import Verif.Props.Fatal

/-
C94: what the client shows, exactly.
-/
namespace Verif
open Spec Server

/-- The values of a list that differ from the one before, starting with `k`. -/
private def changesFrom (k : Option (List Diag)) : List (List Diag) → List (List Diag)
  | [] => []
  | d :: ds => if k = some d then changesFrom k ds else d :: changesFrom (some d) ds

private theorem changesFrom_append (k : Option (List Diag)) (a b : List (List Diag)) :
    changesFrom k (a ++ b) = changesFrom k a ++ changesFrom (a.getLast?.or k) b := by
  induction a generalizing k with
  | nil => rfl
  | cons d a ih =>
    have hl : ((d :: a).getLast?.or k) = a.getLast?.or (some d) := by
      cases a with
      | nil => rfl
      | cons x a => rw [List.getLast?_cons_cons, List.getLast?_cons]; rfl
    rw [hl, List.cons_append, changesFrom, changesFrom]
    split
    · rename_i hk
      rw [ih, hk]
    · rw [ih]; rfl

private theorem changesFrom_last (k : Option (List Diag)) (a : List (List Diag)) :
    (changesFrom k a).getLast?.or k = a.getLast?.or k := by
  induction a generalizing k with
  | nil => rfl
  | cons d a ih =>
    have hl : ((d :: a).getLast?.or k) = a.getLast?.or (some d) := by
      cases a with
      | nil => rfl
      | cons x a => rw [List.getLast?_cons_cons, List.getLast?_cons]; rfl
    rw [hl, changesFrom]
    split
    · rename_i hk
      rw [ih, hk]
    · rw [← ih]
      cases hc : changesFrom (some d) a with
      | nil => rfl
      | cons x l => rw [List.getLast?_cons_cons, List.getLast?_cons]; rfl

private theorem changesFrom_const (k : Option (List Diag)) (d : List Diag) (m : List (List Diag)) (h : ∀ x ∈ m, x = d) :
    changesFrom k m = if k = some d ∨ m = [] then [] else [d] := by
  induction m generalizing k with
  | nil => simp [changesFrom]
  | cons x m ih =>
    obtain rfl := h x (by simp)
    have ih := fun k => ih k fun y hy => h y (by simp [hy])
    rw [changesFrom]
    by_cases hk : k = some x
    · rw [if_pos hk, ih, if_pos (Or.inl hk), if_pos (Or.inl hk)]
    · rw [if_neg hk, ih, if_pos (Or.inl rfl), if_neg (by simp [hk])]

/-- What the queue has for a file. -/
private def queue (paths : List AbsPath) (p : AbsPath) (es : List (Nat × List Diag)) : List (List Diag) :=
  es.filterMap fun x => if paths[x.1]? = some p then some x.2 else none

private theorem queue_append (paths : List AbsPath) (p : AbsPath) (a b : List (Nat × List Diag)) :
    queue paths p (a ++ b) = queue paths p a ++ queue paths p b := List.filterMap_append

private theorem queue_paths {a b : List AbsPath} (h : a <+: b) (p : AbsPath) (es : List (Nat × List Diag))
    (hb : ∀ x ∈ es, x.1 < a.length) : queue b p es = queue a p es := by
  obtain ⟨t, rfl⟩ := h
  induction es with
  | nil => rfl
  | cons x es ih =>
    have h1 := hb x (by simp)
    simp only [queue, List.filterMap_cons, List.getElem?_append_left h1] at *
    rw [ih fun y hy => hb y (by simp [hy])]

/-- What the collection has for a file. -/
private def knownOf (paths : List AbsPath) (p : AbsPath) (native : List (Nat × List Diag)) : Option (List Diag) :=
  (paths.idxOf? p).bind (native.lookup ·)

private theorem known_paths {a b : List AbsPath} (h : a <+: b) (hn : b.Nodup) (p : AbsPath) (native : List (Nat × List Diag))
    (hb : ∀ x ∈ native, x.1 < a.length) : knownOf b p native = knownOf a p native := by
  obtain ⟨t, rfl⟩ := h
  unfold knownOf
  cases hx : a.idxOf? p with
  | some i =>
    have h1 := Vfs.idxOf?_some hx
    have h2 : (a ++ t)[i]? = some p := by
      rw [List.getElem?_append_left (List.getElem?_eq_some_iff.1 h1).1]; exact h1
    rw [Vfs.idxOf?_of_get hn h2]
  | none =>
    cases hy : (a ++ t).idxOf? p with
    | none => rfl
    | some j =>
      have h1 := Vfs.idxOf?_some hy
      simp only [Option.bind_some, Option.bind_none]
      cases hl : native.lookup j with
      | none => rfl
      | some d =>
        exfalso
        have hlt := hb _ (lookup_mem hl)
        rw [List.getElem?_append_left hlt] at h1
        rw [Vfs.idxOf?_of_get (List.nodup_append.1 hn).1 h1] at hx
        cases hx

/-- The entries of one file in the queue. -/
private def of (k : Nat) (es : List (Nat × List Diag)) : List (List Diag) :=
  es.filterMap fun x => if x.1 = k then some x.2 else none

private theorem queue_of {paths : List AbsPath} (hn : paths.Nodup) {p : AbsPath} {k : Nat} (hp : paths[k]? = some p)
    (es : List (Nat × List Diag)) : queue paths p es = of k es := by
  unfold queue of
  congr 1
  funext x
  by_cases h : x.1 = k
  · rw [if_pos h, if_pos (by rw [h]; exact hp)]
  · rw [if_neg h, if_neg]
    intro h'
    exact h ((List.getElem?_inj (List.getElem?_eq_some_iff.1 h').1 hn).1 (by rw [h', hp]))

private theorem of_last (k : Nat) (es : List (Nat × List Diag)) : (of k es).getLast? = es.reverse.lookup k := by
  induction es with
  | nil => rfl
  | cons x es ih =>
    rw [List.reverse_cons, List.lookup_append, ← ih]
    unfold of
    by_cases h : x.1 = k
    · rw [List.filterMap_cons, if_pos h]
      simp only [List.getLast?_cons, List.lookup, h, beq_self_eq_true]
      cases (List.filterMap (fun x => if x.1 = k then some x.2 else none) es).getLast? <;> rfl
    · rw [List.filterMap_cons, if_neg h]
      simp only [List.lookup, beq_eq_false_iff_ne.2 (fun e : k = x.1 => h e.symm), Option.or_none]

private theorem setAll_changes (ds : List (Nat × List Diag)) (c : DiagnosticCollection) (k : Nat) :
    k ∈ (setAll ds c).changes ↔ k ∈ c.changes ∨ changesFrom (c.native.lookup k) (of k ds) ≠ [] := by
  induction ds generalizing c with
  | nil => simp [setAll, of, changesFrom]
  | cons d ds ih =>
    have : setAll (d :: ds) c = setAll ds (c.setNativeDiagnostics d.1 d.2) := rfl
    rw [this, ih, DiagnosticCollection.set_changes_mem, DiagnosticCollection.set_lookup]
    unfold of
    by_cases hk : d.1 = k
    · rw [List.filterMap_cons, if_pos hk, if_pos hk]
      simp only
      rw [changesFrom]
      by_cases h : c.native.lookup k = some d.2
      · subst hk
        simp [h]
      · subst hk
        simp [h]
    · rw [List.filterMap_cons, if_neg hk, if_neg hk]
      have : k ≠ d.1 := fun e => hk e.symm
      simp [this]

private structure Viewing (s : Server) (v : View) (p : AbsPath) : Prop where
  shown : Spec.shown p s.sent = v.shown
  known : knownOf s.vfs.paths p s.diagnostics.native = v.known
  waiting : changesFrom v.known (queue s.vfs.paths p (entries s.tasks)) = v.waiting

private theorem Viewing.latest {s : Server} {v : View} {p : AbsPath} (h : Viewing s v p) (hi : Inv s) {id : Nat}
    (hp : s.vfs.paths[id]? = some p) : Server.latest s id = v.latest := by
  unfold Server.latest View.latest
  rw [← h.waiting, changesFrom_last, queue_of hi.wf.nodup hp, of_last, ← h.known]
  unfold knownOf
  rw [Vfs.idxOf?_of_get hi.wf.nodup hp]
  rfl

/-- The diagnostics of an open document are the last ones computed. -/
private theorem Viewing.current {s : Server} {v : View} {p : AbsPath} {es : List ServerEvent} (h : Viewing s v p) (hi : Inv s)
    (hs : Shown diagnosticsOf s es) {t : Text} (ho : p ∈ openDocs s) (ht : s.vfs.contentsOf p = some (.utf8 t)) :
    ∃ d, diagnosticsOf t = some d ∧ v.latest = some d := by
  obtain ⟨id, g1, -⟩ := (Vfs.contentsOf_some hi.wf).1 ht
  have g3 := ((Vfs.fileId_iff hi.wf p id).1 g1).1
  obtain ⟨d, h1, h2⟩ := hs.latest p ho id t g3 ht
  exact ⟨d, h1, by rw [← h.latest hi g3]; exact h2⟩

private theorem compute_same {v : View} {d : List Diag} (h : v.latest = some d) : v.compute d = v := by
  unfold View.compute; rw [if_pos h]

private theorem viewFrom_snoc (p : AbsPath) (past : List ServerEvent) (v : View) (es : List ServerEvent) (e : ServerEvent) :
    viewFrom p past v (es ++ [e]) =
      viewStep p (viewFrom p past v es) e (openText p (past ++ es ++ [e])) := by
  induction es generalizing past v with
  | nil => simp [viewFrom]
  | cons x es ih =>
    rw [List.cons_append, viewFrom, ih, viewFrom]
    simp

private theorem view_snoc (p : AbsPath) (es : List ServerEvent) (e : ServerEvent) :
    view p (es ++ [e]) = viewStep p (view p es) e (openText p (es ++ [e])) := by
  unfold view
  rw [viewFrom_snoc]; simp

/-- The state after the part of an event that publishes or closes; then the diagnostics of open documents. -/
private theorem Viewing.compute {s : Server} {v : View} {p : AbsPath} {es : List ServerEvent} (h : Viewing s v p) (hi : Inv s)
    (hs : Shown diagnosticsOf s es) (hm : Image s es p) :
    Viewing s (match (openText p es).bind diagnosticsOf with
      | some ds => v.compute ds
      | none => v) p := by
  by_cases ho : p ∈ openDocs s
  · obtain ⟨t, h1, h2⟩ := hm.open hi ho
    obtain ⟨d, h3, h4⟩ := h.current hi hs ho h1
    have : openText p es = some t := by unfold openText; rw [h2]
    rw [this, Option.bind_some, h3]
    simp only
    rw [compute_same h4]
    exact h
  · have h1 : (serverFile p es).1 = false := by
      cases hb : (serverFile p es).1 with
      | false => rfl
      | true => exact absurd (hm.isOpen.2 hb) ho
    have : openText p es = none := by
      unfold openText
      generalize serverFile p es = f at h1
      obtain ⟨b, c⟩ := f
      simp only at h1
      subst h1
      rfl
    rw [this]
    exact h

private theorem Viewing.keep {s s' : Server} {v : View} {p : AbsPath} (h : Viewing s v p) (hv : s'.vfs.paths = s.vfs.paths)
    (hd : s'.diagnostics = s.diagnostics) (ht : entries s'.tasks = entries s.tasks)
    (hs : Spec.shown p s'.sent = Spec.shown p s.sent) : Viewing s' v p :=
  ⟨by rw [hs]; exact h.shown, by rw [hd, hv]; exact h.known, by rw [ht, hv]; exact h.waiting⟩

/-- An event that may write files. -/
private theorem Viewing.touch {s s' : Server} {v : View} {p : AbsPath} {es : List ServerEvent} (h : Viewing s v p) (hi : Inv s)
    (hi' : Inv s') (ht : Touch diagnosticsOf s s') (hm : Image s' es p) (hs : Shown diagnosticsOf s' es) :
    Viewing s' (match (openText p es).bind diagnosticsOf with
      | some ds => v.compute ds
      | none => v) p := by
  have hsent : s'.sent = s.sent := by rw [ht.same]
  have hdiag : s'.diagnostics = s.diagnostics := by rw [ht.same]
  have hkn : knownOf s'.vfs.paths p s'.diagnostics.native = v.known := by
    rw [hdiag, known_paths ht.paths hi'.wf.nodup p _ hi.native]; exact h.known
  have hq := queue_paths ht.paths p _ hi.queued
  rcases ht.tasks with ⟨h3, -⟩ | ⟨ds, h3, h4⟩
  · exact Viewing.compute ⟨by rw [hsent]; exact h.shown, hkn, by rw [h3, hq]; exact h.waiting⟩ hi' hs hm
  · have hsplit : changesFrom v.known (queue s'.vfs.paths p (entries s'.tasks)) =
        v.waiting ++ changesFrom v.latest (queue s'.vfs.paths p ds) := by
      rw [h3, entries_snoc, queue_append, hq, changesFrom_append, h.waiting, ← changesFrom_last, h.waiting]
      rfl
    by_cases ho : p ∈ openDocs s'
    · obtain ⟨t, h1, h2⟩ := hm.open hi' ho
      obtain ⟨x, hx1, hx2⟩ := h4.complete p ho
      have hall : ∀ y ∈ queue s'.vfs.paths p ds, diagnosticsOf t = some y := by
        intro y hy
        obtain ⟨z, hz1, hz2⟩ := List.mem_filterMap.1 hy
        obtain ⟨q, -, t', g1, g2, g3⟩ := h4.sound z hz1
        by_cases hz : s'.vfs.paths[z.1]? = some p
        · rw [if_pos hz] at hz2
          cases hz2
          rw [g1] at hz
          cases hz
          rw [h1] at g2
          cases g2
          exact g3
        · rw [if_neg hz] at hz2; cases hz2
      have hxm : x.2 ∈ queue s'.vfs.paths p ds := List.mem_filterMap.2 ⟨x, hx1, by rw [if_pos hx2]⟩
      have hd := hall _ hxm
      have hot : openText p es = some t := by unfold openText; rw [h2]
      rw [hot, Option.bind_some, hd]
      simp only
      have hc := changesFrom_const v.latest x.2 (queue s'.vfs.paths p ds) (fun y hy => by
        have := hall y hy
        rw [hd] at this
        exact (Option.some.inj this).symm)
      have hne : queue s'.vfs.paths p ds ≠ [] := List.ne_nil_of_mem hxm
      have hkc : (v.compute x.2).known = v.known := by
        unfold View.compute; split <;> rfl
      refine ⟨?_, by rw [hkc]; exact hkn, ?_⟩
      · rw [hsent, h.shown]
        unfold View.compute; split <;> rfl
      · rw [hkc, hsplit, hc]
        unfold View.compute
        by_cases hl : v.latest = some x.2
        · rw [if_pos (Or.inl hl), if_pos hl]; simp
        · rw [if_neg (by simp [hl, hne]), if_neg hl]
    · have hq0 : queue s'.vfs.paths p ds = [] := by
        apply List.eq_nil_iff_forall_not_mem.2
        intro y hy
        obtain ⟨z, hz1, hz2⟩ := List.mem_filterMap.1 hy
        obtain ⟨q, hq, t', g1, -⟩ := h4.sound z hz1
        by_cases hz : s'.vfs.paths[z.1]? = some p
        · rw [g1] at hz
          cases hz
          exact ho hq
        · rw [if_neg hz] at hz2; cases hz2
      refine Viewing.compute ⟨by rw [hsent]; exact h.shown, hkn, ?_⟩ hi' hs hm
      rw [hsplit, hq0]
      simp [changesFrom]

private theorem Viewing.step {o} {s s' : Server} {v : View} {es : List ServerEvent} {e : ServerEvent} {p : AbsPath} (hi : Inv s)
    (hv : Viewing s v p) (he : handleEvent diagnosticsOf s (e, o) = some s')
    (hm' : Image s' (es ++ [e]) p) (hs' : Shown diagnosticsOf s' (es ++ [e])) :
    Viewing s' (viewStep p v e (openText p (es ++ [e]))) p := by
  have hi' := hi.step he
  have hidle : dispatch diagnosticsOf o s e = some s → (∀ t : Option Text, viewStep p v e t =
      match t.bind diagnosticsOf with
      | some ds => v.compute ds
      | none => v) → Viewing s' (viewStep p v e (openText p (es ++ [e]))) p := by
    intro hd h1
    rw [idle_event hi hd] at he
    cases he
    rw [h1]
    exact hv.compute hi' hs' hm'
  cases e with
  | request id m ok =>
    rw [request_event hi] at he
    cases he
    refine Viewing.compute ?_ hi' hs' hm'
    rcases onRequest_spec s id m ok with hh | ⟨-, -, -, hh⟩
    · exact hv.keep (by rw [hh]) (by rw [hh]) (by rw [hh]) (by rw [hh]; exact shown_append _ _ _ (by simp))
    · exact hv.keep (by rw [hh]) (by rw [hh]) (by rw [hh]; simp [entries]) (by rw [hh])
  | didOpen uri version text =>
    cases uri with
    | other u => exact hidle rfl (fun _ => rfl)
    | file q => exact hv.touch hi hi' (didOpen_spec hi he).1 hm' hs'
  | didChange uri version changes =>
    by_cases hp : ∃ p, uri = .file p ∧ p ∈ openDocs s
    · obtain ⟨q, rfl, hq⟩ := hp
      obtain ⟨t, t', -, -, h1, -⟩ := didChange_spec hi hq he
      exact hv.touch hi hi' h1 hm' hs'
    · rw [didChange_ignored hi (fun p e h => hp ⟨p, e, h⟩)] at he
      cases he
      exact hv.compute hi' hs' hm'
  | didClose uri =>
    rw [didClose_event hi] at he
    cases he
    cases uri with
    | other u =>
      refine Viewing.compute (hv.keep rfl rfl rfl ?_) hi' hs' hm'
      exact shown_append _ _ _ (by simp)
    | file q =>
      refine Viewing.compute (v := if q = p then v.close else v) ?_ hi' hs' hm'
      by_cases hq : q = p
      · subst hq
        rw [if_pos rfl]
        refine ⟨?_, hv.known, hv.waiting⟩
        show Spec.shown q (s.sent ++ [_]) = _
        rw [shown_snoc]; simp [View.close]
      · rw [if_neg hq]
        refine hv.keep rfl rfl rfl ?_
        exact shown_append _ _ _ (by
          intro v d hm
          simp at hm
          exact hq hm.1.symm)
  | didSave uri => exact hidle rfl (fun _ => rfl)
  | didChangeConfiguration =>
    rw [configuration_event hi] at he
    cases he
    refine Viewing.compute (hv.keep rfl rfl rfl ?_) hi' hs' hm'
    exact shown_append _ _ _ (by simp)
  | malformedNotification => rw [quiet_none rfl] at he; cases he
  | unknownNotification => exact hidle rfl (fun _ => rfl)
  | response id error result =>
    rw [response_event hi] at he
    have hs := completeRequest_spec he
    refine Viewing.compute (hv.keep ?_ ?_ ?_ ?_) hi' hs' hm' <;> rw [hs]
  | loader first rest => exact hv.touch hi hi' (loader_spec hi he).1 hm' hs'
  | task =>
    rw [task_event hi] at he
    cases he
    refine Viewing.compute (v := v.publish) ?_ hi' hs' hm'
    obtain ⟨ms, hms, hms'⟩ := answerAll_append (responses s.tasks) s.incoming s.sent
    have hbound : ∀ id ∈ o.files (setAll (entries s.tasks) s.diagnostics).changes, id < s.vfs.paths.length := by
      intro id hid
      rcases (setAll_mem _ _ _).1 ((o.files_perm _).mem_iff.1 hid) with hh | hh
      · rw [hi.published] at hh; cases hh
      · obtain ⟨x, hx, rfl⟩ := List.mem_map.1 hh
        exact hi.queued x hx
    obtain ⟨h1, h2⟩ := shown_publications (s := { s with diagnostics := setAll (entries s.tasks) s.diagnostics })
      hi.wf.nodup p ((answerAll (responses s.tasks) (s.incoming, s.sent)).2) _ hbound
    have h3 : Spec.shown p (answerAll (responses s.tasks) (s.incoming, s.sent)).2 = Spec.shown p s.sent := by
      rw [hms]; exact shown_append _ _ _ (hms' _)
    simp only at h1 h2
    cases hx : s.vfs.paths.idxOf? p with
    | none =>
      have hno : ∀ i : Nat, s.vfs.paths[i]? ≠ some p := by
        intro i hp
        rw [Vfs.idxOf?_of_get hi.wf.nodup hp] at hx
        cases hx
      have hw : v.waiting = [] := by
        rw [← hv.waiting]
        have : queue s.vfs.paths p (entries s.tasks) = [] := by
          apply List.eq_nil_iff_forall_not_mem.2
          intro y hy
          obtain ⟨z, -, hz2⟩ := List.mem_filterMap.1 hy
          rw [if_neg (hno _)] at hz2
          cases hz2
        rw [this]; rfl
      have hpub : v.publish = v := by unfold View.publish; rw [hw]; rfl
      rw [hpub]
      refine ⟨?_, ?_, ?_⟩
      · show Spec.shown p (_ ++ _) = _
        rw [h2 (fun id _ => hno id), h3]; exact hv.shown
      · rw [← hv.known]; unfold knownOf; simp only [hx]; rfl
      · rw [hw]; rfl
    | some k =>
      have hk := Vfs.idxOf?_some hx
      have hq := queue_of hi.wf.nodup hk (entries s.tasks)
      have hkn : s.diagnostics.native.lookup k = v.known := by
        rw [← hv.known]; unfold knownOf; rw [hx]; rfl
      have hch : k ∈ (setAll (entries s.tasks) s.diagnostics).changes ↔ v.waiting ≠ [] := by
        rw [setAll_changes, hi.published, hkn, ← hq, hv.waiting]; simp
      have hlk : (setAll (entries s.tasks) s.diagnostics).native.lookup k = v.latest := by
        rw [setAll_lookup, ← hv.latest hi hk]; rfl
      have hkn' : knownOf s.vfs.paths p (setAll (entries s.tasks) s.diagnostics).native = v.latest := by
        unfold knownOf; rw [hx]; exact hlk
      cases hw : v.waiting.getLast? with
      | none =>
        have hw0 : v.waiting = [] := List.getLast?_eq_none_iff.1 hw
        have hpub : v.publish = v := by unfold View.publish; rw [hw]
        have hlat : v.latest = v.known := by unfold View.latest; rw [hw]; rfl
        rw [hpub]
        refine ⟨?_, ?_, ?_⟩
        · show Spec.shown p (_ ++ _) = _
          rw [h2, h3]
          · exact hv.shown
          · intro id hid hp
            have : id = k := (List.getElem?_inj (List.getElem?_eq_some_iff.1 hp).1 hi.wf.nodup).1 (by rw [hp, hk])
            subst this
            exact hch.1 ((o.files_perm _).mem_iff.1 hid) hw0
        · rw [← hlat]; exact hkn'
        · rw [hw0]; rfl
      | some ds =>
        have hw0 : v.waiting ≠ [] := by intro h; rw [h] at hw; cases hw
        have hpub : v.publish = ⟨some ds, some ds, []⟩ := by unfold View.publish; rw [hw]
        have hlat : v.latest = some ds := by unfold View.latest; rw [hw]; rfl
        rw [hpub]
        refine ⟨?_, ?_, ?_⟩
        · show Spec.shown p (_ ++ _) = _
          rw [h1 k hk ((o.files_perm _).mem_iff.2 (hch.2 hw0))]
          unfold DiagnosticCollection.diagnosticsFor
          rw [hlk, hlat]
          rfl
        · rw [← hlat]; exact hkn'
        · rfl

private theorem Viewing.run {config : Config} {es : List (ServerEvent × Orders)} {s : Server}
    (h : run diagnosticsOf (.new config) es = some s)  (p : AbsPath) :
    Viewing s (view p (happened es)) p := by
  unfold happened at *
  induction es using history_ind generalizing s with
  | nil =>
    cases h
    exact ⟨rfl, rfl, rfl⟩
  | snoc es e ih =>
    obtain ⟨s1, h1, h2⟩ := run_snoc.1 h
    have hm := Image.run h p
    have hs := Shown.run h
    have hv := ih h1
    simp only [List.map_append, List.map_cons, List.map_nil] at hm hs ⊢
    rw [view_snoc]
    exact Viewing.step (Inv.run h1) hv h2 hm hs

/-- **C94**: after every history the server survives, and whatever the order in which it iterates over its hash maps,
what the client shows for each document is what following that document alone through the history gives. -/
theorem C94_client_view {config : Config} {es : List (ServerEvent × Orders)} {s : Server}
    (h : run diagnosticsOf (.new config) es = some s)  (p : AbsPath) :
    shown p s.sent = (view p (happened es)).shown := (Viewing.run h p).shown

private theorem happened_append (a b : List (ServerEvent × Orders)) : happened (a ++ b) = happened a ++ happened b :=
  List.map_append

/-- **C94**, open documents: when the tasks queued have been handled, the client shows the diagnostics of the text of
an open document exactly if diagnostics of it were waiting, or the client already showed them. -/
theorem C94_settled {config : Config} {es : List (ServerEvent × Orders)} {o : Orders} {s : Server} {p : AbsPath} {text : Text}
    {ds : List Diag} (h : run diagnosticsOf (.new config) (es ++ [(.task, o)]) = some s)
    (ho : openText p (happened es) = some text) (hd : diagnosticsOf text = some ds) :
    shown p s.sent = some ds ↔ (view p (happened es)).waiting ≠ [] ∨ (view p (happened es)).shown = some ds := by
  obtain ⟨s1, h1, -⟩ := run_snoc.1 h
  have hi := Inv.run h1
  have hm := Image.run h1 p
  have hs := Shown.run h1
  have hv := Viewing.run h1 p
  have hfile : serverFile p (happened es) = (true, some (.utf8 text)) := by
    unfold openText at ho
    split at ho
    · rename_i heq; cases ho; exact heq
    · cases ho
  have hopen : p ∈ openDocs s1 := hm.isOpen.2 (by
    show (serverFile p (happened es)).1 = true
    rw [hfile])
  obtain ⟨d, hd', hl⟩ := hv.current hi hs hopen (t := text) (by
    rw [hm.contents]
    show (serverFile p (happened es)).2 = _
    rw [hfile])
  rw [hd] at hd'
  cases hd'
  have hot : openText p (happened es ++ [.task]) = some text := by
    unfold openText
    rw [serverFile_snoc, hfile]
  rw [C94_client_view h p, happened_append]
  show (view p (happened es ++ [.task])).shown = _ ↔ _
  rw [view_snoc, hot]
  unfold viewStep
  simp only [Option.bind_some, hd]
  have hps : ∀ v : View, (v.compute ds).shown = v.shown := by intro v; unfold View.compute; split <;> rfl
  rw [hps]
  unfold View.latest at hl
  unfold View.publish
  cases hw : (view p (happened es)).waiting.getLast? with
  | none =>
    rw [List.getLast?_eq_none_iff.1 hw]
    simp
  | some d' =>
    rw [hw] at hl
    cases hl
    simp only [true_iff]
    left
    intro h0
    rw [h0] at hw
    cases hw

private theorem closed_snoc {p : AbsPath} {es : List ServerEvent} {e : ServerEvent} (h : (serverFile p es).1 = false)
    (hne : ∀ v t, e ≠ .didOpen (.file p) v t) : (serverFile p (es ++ [e])).1 = false := by
  rw [serverFile_snoc]
  split
  · rename_i q v t
    rw [if_neg]
    · exact h
    · rintro rfl; exact hne v t rfl
  · split
    · rename_i heq; rw [heq] at h; cases h
    · exact h
  · split
    · rfl
    · exact h
  · rw [h]; rfl
  · exact h

private theorem closed_openText {p : AbsPath} {es : List ServerEvent} (h : (serverFile p es).1 = false) :
    openText p es = none := by
  unfold openText
  generalize serverFile p es = f at h
  obtain ⟨b, c⟩ := f
  simp only at h
  subst h
  rfl

/-- **C94**, closed documents: from its closing until it is opened again the client shows nothing for a document
until the next tasks are handled, and from then on the diagnostics that were waiting when it was closed. -/
theorem C94_closed {config : Config} {es later : List (ServerEvent × Orders)} {o : Orders} {s : Server} {p : AbsPath}
    (h : run diagnosticsOf (.new config) (es ++ (.didClose (.file p), o) :: later) = some s)
    (hopen : ∀ v t, ServerEvent.didOpen (.file p) v t ∉ happened later)
    (hclose : ServerEvent.didClose (.file p) ∉ happened later) :
    (ServerEvent.task ∉ happened later → shown p s.sent = some []) ∧
    (ServerEvent.task ∈ happened later → shown p s.sent = some ((view p (happened es)).waiting.getLast?.getD [])) := by
  rw [C94_client_view h p]
  have he : happened (es ++ (.didClose (.file p), o) :: later) = happened es ++ [.didClose (.file p)] ++ happened later := by
    simp [happened]
  rw [he]
  have key : ∀ l : List ServerEvent, (∀ v t, ServerEvent.didOpen (.file p) v t ∉ l) → ServerEvent.didClose (.file p) ∉ l →
      (serverFile p (happened es ++ [.didClose (.file p)] ++ l)).1 = false ∧
      (ServerEvent.task ∉ l → view p (happened es ++ [.didClose (.file p)] ++ l) = (view p (happened es)).close) ∧
      (ServerEvent.task ∈ l → ∃ k, view p (happened es ++ [.didClose (.file p)] ++ l) =
        ⟨some ((view p (happened es)).waiting.getLast?.getD []), k, []⟩) := by
    intro l
    induction l using history_ind with
    | nil =>
      intro _ _
      have h1 : (serverFile p (happened es ++ [.didClose (.file p)])).1 = false := by
        rw [serverFile_snoc]; simp
      refine ⟨by simpa using h1, fun _ => ?_, fun h => by cases h⟩
      rw [List.append_nil, view_snoc, closed_openText h1]
      simp [viewStep]
    | snoc l e ih =>
      intro hl hl'
      obtain ⟨h1, h2, h2'⟩ := ih (fun v t hm => hl v t (by simp [hm])) (fun hm => hl' (by simp [hm]))
      have h3 := closed_snoc h1 (e := e) (fun v t he => hl v t (by simp [he]))
      rw [List.append_assoc] at h3
      have h4 : openText p (happened es ++ [.didClose (.file p)] ++ l ++ [e]) = none := by
        apply closed_openText
        rw [List.append_assoc]; exact h3
      refine ⟨h3, ?_⟩
      rw [← List.append_assoc, view_snoc, h4]
      have hother : e ≠ .task → ∀ v, viewStep p v e none = v := by
        intro hne v
        cases e with
        | task => exact absurd rfl hne
        | didClose uri =>
          cases uri with
          | other u => rfl
          | file q =>
            simp only [viewStep, Option.bind_none]
            rw [if_neg]
            rintro rfl
            exact hl' (by simp)
        | _ => rfl
      constructor
      · intro hm
        have hne : e ≠ .task := fun h => hm (by simp [h])
        rw [h2 (fun h => hm (by simp [h])), hother hne]
      · intro hm
        by_cases htask : e = .task
        · subst htask
          by_cases hml : ServerEvent.task ∈ l
          · obtain ⟨k, hk⟩ := h2' hml
            rw [hk]
            exact ⟨k, rfl⟩
          · rw [h2 hml]
            cases hw : (view p (happened es)).waiting.getLast? with
            | none =>
              refine ⟨(view p (happened es)).known, ?_⟩
              simp only [viewStep, View.publish, View.close, hw, Option.bind_none, Option.getD_none]
              rw [List.getLast?_eq_none_iff.1 hw]
            | some ds =>
              refine ⟨some ds, ?_⟩
              simp only [viewStep, View.publish, View.close, hw, Option.bind_none, Option.getD_some]
        · have hml : ServerEvent.task ∈ l := by
            rcases List.mem_append.1 hm with h | h
            · exact h
            · simp only [List.mem_singleton] at h; exact absurd h.symm htask
          obtain ⟨k, hk⟩ := h2' hml
          exact ⟨k, by rw [hk, hother htask]⟩
  obtain ⟨-, h1, h2⟩ := key (happened later) hopen hclose
  refine ⟨fun h => by rw [h1 h]; rfl, fun h => ?_⟩
  obtain ⟨k, hk⟩ := h2 h
  rw [hk]

/-- Non-vacuity of C94, with the hypotheses of `C94_settled` and `C94_closed`: a document with an error is opened,
published, closed and opened again; it then shows nothing although its diagnostics are known and its text has an error
(`C94_settled`).  If it is closed before the error is published, the error is shown after that (`C94_closed`). -/
example : (run diagnosticsOf (.new .default) ([.didOpen (.file "/a.lua") 1 badText, .task,
      .didClose (.file "/a.lua"), .didOpen (.file "/a.lua") 2 badText, .task].map (·, Orders.plain))).isSome = true ∧
    view "/a.lua" [.didOpen (.file "/a.lua") 1 badText, .task, .didClose (.file "/a.lua"),
      .didOpen (.file "/a.lua") 2 badText] = ⟨some [], some [badDiag], []⟩ ∧
    openText "/a.lua" [.didOpen (.file "/a.lua") 1 badText, .task, .didClose (.file "/a.lua"),
      .didOpen (.file "/a.lua") 2 badText] = some badText ∧
    view "/a.lua" [.didOpen (.file "/a.lua") 1 badText] = ⟨none, none, [[badDiag]]⟩ ∧
    view "/a.lua" [.didOpen (.file "/a.lua") 1 badText, .didClose (.file "/a.lua"), .task] =
      ⟨some [badDiag], some [badDiag], []⟩ := by
  refine ⟨?_, ?_, ?_, ?_, ?_⟩
  · rw [diagnosticsOf_table badText_diagnostics]
    decide +kernel
  all_goals
    simp [view, viewFrom, viewStep, openText, serverFile, View.start, View.compute, View.publish, View.close, View.latest,
      badText_diagnostics]

end Verif
