import Verif.Spec.Workspace
import Verif.Props.Fatal
import Verif.Props.Loader

/-
C98: the server and its file loader together.
-/
namespace Verif
open Spec Server Running

/-- The files the loader finds in one look. -/
private def files (l : AbsPath × Loader.Node) : List (AbsPath × Option Bytes) :=
  (Loader.loadEntry l.1.toList l.2).getD []

private theorem abs_path {p : String} (h : isAbsolute p = true) : Paths.isAbsolute p.toList = true := by
  rw [absolute_iff] at h
  cases hp : p.toList with
  | nil => rw [hp] at h; simp at h
  | cons c cs =>
    rw [hp] at h
    simp only [List.head?_cons, Option.some.injEq] at h
    subst h
    rfl

private theorem leads_leaf {n : Loader.Node} {names : List Text} {m : Loader.Node} (h : Leads n names m)
    (hd : ∀ es, n ≠ .dir es) : names = [] := by
  cases h with
  | here => rfl
  | down _ _ => exact absurd rfl (hd _)

private theorem files_spec {l : AbsPath × Loader.Node} (ha : isAbsolute l.1 = true) (hw : WellFormed l.2)
    (hf : ∀ c, l.2 ≠ .file c) :
    ((files l).map (·.1)).Nodup ∧ ∀ p c, (p, c) ∈ files l ↔ Shows l p c := by
  have none_of : (∀ es, l.2 ≠ .dir es) → files l = [] →
      ((files l).map (·.1)).Nodup ∧ ∀ p c, (p, c) ∈ files l ↔ Shows l p c := by
    intro hd he
    rw [he]
    refine ⟨by simp, fun p c => ⟨by simp, ?_⟩⟩
    rintro ⟨names, name, h1, -⟩
    exact absurd (leads_leaf h1 hd) (by simp)
  rcases l with ⟨root, node⟩
  have ha' := abs_path ha
  cases node with
  | file c => exact absurd rfl (hf c)
  | dir entries =>
    obtain ⟨fs, h1, h2, h3⟩ := Loader.C50_files ha' hw
    have : files (root, .dir entries) = fs := by simp [files, h1]
    rw [this]
    exact ⟨h2, h3⟩
  | special =>
    refine none_of (by simp) ?_
    simp only [files, Loader.loadEntry, Loader.walk, Loader.loadOne, List.mapM_cons, List.mapM_nil]
    cases Paths.absAssert root.toList <;> rfl
  | error =>
    exact none_of (by simp) rfl

/-- The messages of the loader in the events of a history. -/
private def received (es : List (ServerEvent × Orders)) : List LoaderMsg :=
  es.flatMap fun e => match e.1 with
    | .loader first rest => first :: rest
    | _ => []

private theorem writes_append (a b : List LoaderMsg) : writes (a ++ b) = writes a ++ writes b := by
  simp [writes]

private theorem loadEntries_writes (n v : Nat) : ∀ (load : List (Text × Loader.Node)) (i : Nat) (msgs : List LoaderMsg),
    Loader.loadEntries n v i load = some msgs → msgs.length = 2 * load.length ∧
      writes msgs = load.flatMap fun l => (Loader.loadEntry l.1 l.2).getD [] := by
  intro load
  induction load with
  | nil => intro i msgs h; cases h; exact ⟨rfl, rfl⟩
  | cons l load ih =>
    intro i msgs h
    rcases l with ⟨root, node⟩
    simp only [Loader.loadEntries] at h
    split at h
    · rename_i fs rest h1 h2
      cases h
      obtain ⟨h3, h4⟩ := ih _ _ h2
      refine ⟨by simp [h3]; omega, ?_⟩
      simp only [writes] at h4
      simp [writes, h4, h1]
    · cases h

private theorem handle_writes {v : Nat} {looks : List (AbsPath × Loader.Node)} {msgs : List LoaderMsg}
    (h : Loader.handle (.config v (looks.map fun l => (l.1.toList, l.2))) = some msgs) :
    msgs.length = 2 * looks.length + 1 ∧ writes msgs = looks.flatMap files := by
  simp only [Loader.handle, Option.map_eq_some_iff] at h
  obtain ⟨ms, h1, rfl⟩ := h
  obtain ⟨h2, h3⟩ := loadEntries_writes _ _ _ _ _ h1
  refine ⟨by simpa using h2, ?_⟩
  simp only [writes] at h3
  simp only [writes, List.flatMap_cons, List.nil_append, h3]
  rw [List.flatMap_map]
  rfl

private theorem loads_grow {config : Config} {es : List (ServerEvent × Orders)} {e : ServerEvent × Orders} {s s' : Server}
    (h : run diagnosticsOf (.new config) es = some s) (h' : run diagnosticsOf (.new config) (es ++ [e]) = some s') :
    (∃ t, s'.loads.map (·.2) = s.loads.map (·.2) ++ t) ∧
    ((∀ id json rest, e.1 ≠ .response id false (some (.arr (json :: rest)))) → s'.loads.map (·.2) = s.loads.map (·.2)) := by
  have h1 := (C91_libraries h).2.1
  have h2 := (C91_libraries h').2.1
  have hh : happened (es ++ [e]) = happened es ++ [e.1] := by simp [happened]
  rw [hh, libraries_snoc, ← h1] at h2
  have same : (s'.loads.map (·.2)).reverse ++ [config.library] = (s.loads.map (·.2)).reverse ++ [config.library] →
      s'.loads.map (·.2) = s.loads.map (·.2) := by
    intro h
    have := List.append_cancel_right h
    simpa using congrArg List.reverse this
  split at h2
  · rename_i cur old id json rest heq hev
    rw [heq] at same
    constructor
    · split at h2
      · exact ⟨[], by simpa using same h2⟩
      · rw [← heq, ← List.cons_append] at h2
        have := List.append_cancel_right h2
        exact ⟨[librarySetting json cur], by simpa using congrArg List.reverse this⟩
    · intro hne
      exact absurd hev (hne _ _ _)
  · exact ⟨⟨[], by simpa using same h2⟩, fun _ => same h2⟩

private structure Good (config : Config) (es : List (ServerEvent × Orders)) (r : Running) : Prop where
  run : Server.run diagnosticsOf (.new config) es = some r.server
  taken : r.taken ≤ (r.server.loads.map (·.2)).length
  looks : r.looks.map (·.1) = ((r.server.loads.map (·.2)).take r.taken).flatten
  sent : writes (received es) ++ writes (r.queue ++ r.sending) = r.looks.flatMap files

private theorem received_other {es : List (ServerEvent × Orders)} {e : ServerEvent × Orders}
    (h : ∀ first rest, e.1 ≠ .loader first rest) : received (es ++ [e]) = received es := by
  unfold received
  rw [List.flatMap_append]
  rcases e with ⟨e, o⟩
  cases e <;> simp at h ⊢

private theorem take_grow {α : Type} {a b : List α} {n : Nat} (h : n ≤ a.length) : (a ++ b).take n = a.take n := by
  rw [List.take_append_of_le_length h]

private theorem Good.inner {config : Config} {es es' : List (ServerEvent × Orders)} {r r' : Running}
    (h : Good config es r) (hs : Inner r es' r') : Good config (es ++ es') r' := by
  cases hs with
  | take version roots nodes msgs h1 h2 h3 h4 =>
    have hlt : r.taken < r.server.loads.length := (List.getElem?_eq_some_iff.1 h2).1
    have hm : (roots.zip nodes).map (·.1) = roots := List.map_fst_zip (by omega)
    refine ⟨by simpa using h.run, by simp only [List.length_map]; omega, ?_, ?_⟩
    · have : (r.server.loads.map (·.2))[r.taken]? = some roots := by simp [h2]
      simp only [List.map_append, h.looks, hm]
      rw [List.take_add_one, this]
      simp
    · have := h.sent
      rw [h1, List.append_nil] at this
      simp only [List.append_nil, List.flatMap_append, writes_append, ← this, (handle_writes h4).2, List.append_assoc]
  | send m ms h1 =>
    refine ⟨by simpa using h.run, h.taken, h.looks, ?_⟩
    have := h.sent
    rw [h1] at this
    simpa using this
  | receive first rest later o s h1 h2 =>
    have hr := run_snoc.2 ⟨_, h.run, h2⟩
    have hl := (loads_grow h.run hr).2 (by simp)
    refine ⟨hr, by simp only [hl]; exact h.taken, by simp only [hl]; exact h.looks, ?_⟩
    have := h.sent
    rw [h1] at this
    have hrec : received (es ++ [(.loader first rest, o)]) = received es ++ (first :: rest) := by
      simp [received]
    simp only [hrec, writes_append, List.append_assoc] at this ⊢
    exact this

private theorem good {config : Config} {es : List (ServerEvent × Orders)} {r : Running} (h : Reaches config es r) :
    Good config es r := by
  induction h with
  | start => exact ⟨rfl, Nat.le_refl _, rfl, rfl⟩
  | @client es r e s h1 h2 h3 ih =>
    have hr := run_snoc.2 ⟨_, ih.run, h3⟩
    obtain ⟨t, ht⟩ := (loads_grow ih.run hr).1
    refine ⟨hr, ?_, ?_, ?_⟩
    · simp only [ht, List.length_append]; have := ih.taken; omega
    · simp only [ht, take_grow ih.taken]; exact ih.looks
    · rw [received_other h2]; exact ih.sent
  | inner h1 h2 ih => exact ih.inner h2

/-- Every path looked at is absolute. -/
private theorem looks_abs {config : Config} {es : List (ServerEvent × Orders)} {r : Running} (h : Good config es r) :
    ∀ l ∈ r.looks, isAbsolute l.1 = true := by
  intro l hl
  have h1 : l.1 ∈ r.looks.map (·.1) := List.mem_map.2 ⟨l, hl, rfl⟩
  rw [h.looks] at h1
  obtain ⟨roots, h2, h3⟩ := List.mem_flatten.1 h1
  obtain ⟨x, h4, rfl⟩ := List.mem_map.1 (List.mem_of_mem_take h2)
  exact (absolute_iff _).2 ((C60_library_loaded_partial h.run).2.1 x h4 _ h3)

private theorem files_ok {config : Config} {es : List (ServerEvent × Orders)} {r : Running} (h : Good config es r)
    (hd : Directories r.looks) : ∀ l ∈ r.looks, ((files l).map (·.1)).Nodup ∧ ∀ p c, (p, c) ∈ files l ↔ Shows l p c :=
  fun l hl => files_spec (looks_abs h l hl) (hd l hl).1 (hd l hl).2

/-- Writing a list in which a path occurs at most once. -/
private theorem afterWrites_one {ws : List (AbsPath × Option Bytes)} (hn : (ws.map (·.1)).Nodup)
    (f : AbsPath → Option Bytes) {p : AbsPath} :
    (∀ c, (p, c) ∈ ws → afterWrites f ws p = c) ∧ ((∀ c, (p, c) ∉ ws) → afterWrites f ws p = f p) := by
  induction ws generalizing f with
  | nil => exact ⟨fun c h => by simp at h, fun _ => rfl⟩
  | cons w ws ih =>
    simp only [List.map_cons, List.nodup_cons] at hn
    have h := ih hn.2 (fun _ => if w.1 = p then w.2 else f p)
    have he : afterWrites f (w :: ws) p = afterWrites (fun _ => if w.1 = p then w.2 else f p) ws p := by
      simp [afterWrites]
    rw [he]
    constructor
    · intro c hc
      rcases List.mem_cons.1 hc with rfl | hc
      · rw [h.2]
        · simp
        · intro c' h'
          exact hn.1 (List.mem_map.2 ⟨_, h', rfl⟩)
      · exact h.1 c hc
    · intro hno
      rw [h.2 (fun c hc => hno c (List.mem_cons_of_mem _ hc))]
      rw [if_neg]
      intro e
      exact hno w.2 (by rw [← e]; simp)

private theorem afterWrites_append (f : AbsPath → Option Bytes) (a b : List (AbsPath × Option Bytes)) (p : AbsPath) :
    afterWrites f (a ++ b) p = afterWrites (fun _ => afterWrites f a p) b p := by
  simp [afterWrites]

/-- Writing what the looks show: the last look that shows a path counts. -/
private theorem afterWrites_looks {p : AbsPath} : ∀ (looks : List (AbsPath × Loader.Node)) (f : AbsPath → Option Bytes),
    (∀ l ∈ looks, ((files l).map (·.1)).Nodup ∧ ∀ p c, (p, c) ∈ files l ↔ Shows l p c) →
    (∀ c, (∃ before l after, looks = before ++ l :: after ∧ Shows l p c ∧ ∀ l' ∈ after, ∀ c', ¬ Shows l' p c') →
      afterWrites f (looks.flatMap files) p = c) ∧
    ((∀ l ∈ looks, ∀ c, ¬ Shows l p c) → afterWrites f (looks.flatMap files) p = f p) := by
  intro looks
  induction looks with
  | nil =>
    intro f _
    refine ⟨?_, fun _ => rfl⟩
    rintro c ⟨before, l, after, h, -⟩
    simp at h
  | cons l0 looks ih =>
    intro f h
    obtain ⟨h1, h2⟩ := h l0 (by simp)
    have ih' := ih (fun _ => afterWrites f (files l0) p) (fun l hl => h l (by simp [hl]))
    rw [List.flatMap_cons, afterWrites_append]
    have ho := afterWrites_one h1 f (p := p)
    constructor
    · rintro c ⟨before, l, after, he, h3, h4⟩
      cases before with
      | nil =>
        simp only [List.nil_append, List.cons.injEq] at he
        obtain ⟨rfl, rfl⟩ := he
        rw [ih'.2 h4]
        exact ho.1 c ((h2 p c).2 h3)
      | cons b before =>
        simp only [List.cons_append, List.cons.injEq] at he
        exact ih'.1 c ⟨before, l, after, he.2, h3, h4⟩
    · intro hno
      rw [ih'.2 (fun l hl => hno l (by simp [hl]))]
      exact ho.2 (fun c hc => hno l0 (by simp) c ((h2 p c).1 hc))

/-- Some look shows a path last, or none does. -/
private theorem last_look (p : AbsPath) (looks : List (AbsPath × Loader.Node)) :
    (∃ before l after c, looks = before ++ l :: after ∧ Shows l p c ∧ ∀ l' ∈ after, ∀ c', ¬ Shows l' p c') ∨
    ∀ l ∈ looks, ∀ c, ¬ Shows l p c := by
  induction looks with
  | nil => right; simp
  | cons l0 looks ih =>
    rcases ih with ⟨before, l, after, c, h1, h2⟩ | ih
    · exact .inl ⟨l0 :: before, l, after, c, by rw [h1]; rfl, h2⟩
    · by_cases h : ∃ c, Shows l0 p c
      · obtain ⟨c, hc⟩ := h
        exact .inl ⟨[], l0, looks, c, rfl, hc, ih⟩
      · right
        intro l hl c hs
        rcases List.mem_cons.1 hl with rfl | hl
        · exact h ⟨c, hs⟩
        · exact ih l hl c hs

/-- A file that is never opened has what the loader wrote. -/
private theorem serverFile_unopened {p : AbsPath} {es : List (ServerEvent × Orders)} (h : NeverOpened p (happened es)) :
    serverFile p (happened es) = (false, afterWrites (fun _ => none) (writes (received es)) p) := by
  induction es using history_ind with
  | nil => rfl
  | snoc es e ih =>
    have hh : happened (es ++ [e]) = happened es ++ [e.1] := by simp [happened]
    rw [hh] at h ⊢
    have ih := ih (fun v t hm => h v t (by simp [hm]))
    rcases e with ⟨e, o⟩
    have hr : ∀ e', (∀ f r, e' ≠ .loader f r) → received (es ++ [(e', o)]) = received es :=
      fun e' h => received_other h
    rw [serverFile_snoc]
    cases e with
    | didOpen uri v t =>
      cases uri with
      | other u => simp only [ih, hr _ (by simp : ∀ f r, ServerEvent.didOpen (.other u) v t ≠ .loader f r)]
      | file q =>
        have hq : q ≠ p := by
          rintro rfl
          exact h v t (by simp)
        simp only [if_neg hq, ih, hr _ (by simp : ∀ f r, ServerEvent.didOpen (.file q) v t ≠ .loader f r)]
    | didClose uri =>
      cases uri with
      | other u => simp only [ih, hr _ (by simp : ∀ f r, ServerEvent.didClose (.other u) ≠ .loader f r)]
      | file q =>
        simp only [ih, hr _ (by simp : ∀ f r, ServerEvent.didClose (.file q) ≠ .loader f r)]
        split <;> rfl
    | didChange uri v cs =>
      cases uri with
      | other u => simp only [ih, hr _ (by simp : ∀ f r, ServerEvent.didChange (.other u) v cs ≠ .loader f r)]
      | file q => simp only [ih, hr _ (by simp : ∀ f r, ServerEvent.didChange (.file q) v cs ≠ .loader f r)]
    | loader first rest =>
      simp only [ih]
      have : received (es ++ [(.loader first rest, o)]) = received es ++ (first :: rest) := by simp [received]
      rw [this, writes_append, afterWrites_append]
      rfl
    | request a b c => simp only [ih, hr _ (by simp : ∀ f r, ServerEvent.request a b c ≠ .loader f r)]
    | didSave a => simp only [ih, hr _ (by simp : ∀ f r, ServerEvent.didSave a ≠ .loader f r)]
    | didChangeConfiguration => simp only [ih, hr _ (by simp : ∀ f r, ServerEvent.didChangeConfiguration ≠ .loader f r)]
    | malformedNotification => simp only [ih, hr _ (by simp : ∀ f r, ServerEvent.malformedNotification ≠ .loader f r)]
    | unknownNotification => simp only [ih, hr _ (by simp : ∀ f r, ServerEvent.unknownNotification ≠ .loader f r)]
    | response a b c => simp only [ih, hr _ (by simp : ∀ f r, ServerEvent.response a b c ≠ .loader f r)]
    | task => simp only [ih, hr _ (by simp : ∀ f r, ServerEvent.task ≠ .loader f r)]

/-- **C98** Whatever the interleaving of client, server and loader: once nothing is under way, the loader has looked
once at every path of every library the session has set, in order; and a file that was never opened is known to the
server exactly if one of the looks shows it as a readable Lua file and no later look shows it unreadable; its contents,
and the text analysed for it, are those of the last look that shows it. -/
theorem C98_loaded {config : Config} {es : List (ServerEvent × Orders)} {r : Running} (h : Reaches config es r)
    (hq : Quiet r) (hd : Directories r.looks)  {p : AbsPath}
    (hp : NeverOpened p (happened es)) :
    r.looks.map (·.1) = (loadedLibraries config.library (happened es)).flatten ∧
    (∀ c, (∃ before l after, r.looks = before ++ l :: after ∧ Shows l p c ∧ ∀ l' ∈ after, ∀ c', ¬ Shows l' p c') →
      match c with
      | some b => ∃ id, r.server.vfs.fileId p = some (some id) ∧ r.server.vfs.fileContents id = some b ∧
          r.server.fileText id = some (b.toText.getD [])
      | none => r.server.vfs.fileId p = some none) ∧
    ((∀ l ∈ r.looks, ∀ c, ¬ Shows l p c) → r.server.vfs.fileId p = some none) := by
  have hg := good h
  have hi := Inv.run hg.run
  have hm := (Image.run hg.run p).contents
  rw [show es.map (·.1) = happened es from rfl, serverFile_unopened hp] at hm
  have hs := hg.sent
  rw [hq.2.1, hq.2.2] at hs
  simp only [List.append_nil] at hs
  rw [show writes [] = [] from rfl, List.append_nil] at hs
  rw [hs] at hm
  have hw := afterWrites_looks (p := p) r.looks (fun _ => none) (files_ok hg hd)
  have known : ∀ b, r.server.vfs.contentsOf p = some b → ∃ id, r.server.vfs.fileId p = some (some id) ∧
      r.server.vfs.fileContents id = some b ∧ r.server.fileText id = some (b.toText.getD []) := by
    intro b hb
    obtain ⟨id, h1, h2⟩ := (Vfs.contentsOf_some hi.wf).1 hb
    refine ⟨id, h1, h2, ?_⟩
    have := C39_db_follows_vfs hg.run id
    rw [h2] at this
    cases b <;> exact this
  have unknown : r.server.vfs.contentsOf p = none → r.server.vfs.fileId p = some none := by
    intro hn
    rw [Vfs.fileId_wf hi.wf]
    cases hx : r.server.vfs.paths.idxOf? p with
    | none => rfl
    | some i =>
      unfold Vfs.contentsOf at hn
      rw [hx] at hn
      simp only [Option.bind_some] at hn
      simp [hn]
  refine ⟨?_, fun c hc => ?_, fun hno => ?_⟩
  · rw [hg.looks, hq.1]
    have := (C91_libraries hg.run).2.1
    rw [loadedLibraries, ← this, List.take_of_length_le (by simp)]
    simp
  · have := hw.1 c hc
    simp only at hm
    rw [this] at hm
    cases c with
    | some b => exact known b hm
    | none => exact unknown hm
  · have := hw.2 hno
    simp only at hm
    rw [this] at hm
    exact unknown hm

/-- **C98** On a disk that does not change: once nothing is under way, the server knows of the files never opened exactly the
readable Lua files below the paths of the libraries the session has set, and their texts are what is on disk. -/
theorem C98_steady {config : Config} {es : List (ServerEvent × Orders)} {r : Running} (h : Reaches config es r)
    (hq : Quiet r) {disk : AbsPath → Loader.Node} (hl : ∀ l ∈ r.looks, l.2 = disk l.1) (hd : Directories r.looks)
    (hu : ∀ l ∈ r.looks, ∀ l' ∈ r.looks, ∀ p c c', Shows l p c → Shows l' p c' → c = c')  {p : AbsPath} (hp : NeverOpened p (happened es)) :
    (∀ b, (∃ id, r.server.vfs.fileId p = some (some id) ∧ r.server.vfs.fileContents id = some b ∧
        r.server.fileText id = some (b.toText.getD [])) ↔
      ∃ lib ∈ loadedLibraries config.library (happened es), ∃ root ∈ lib, Shows (root, disk root) p (some b)) ∧
    ((∃ id, r.server.vfs.fileId p = some (some id)) ↔
      ∃ lib ∈ loadedLibraries config.library (happened es), ∃ root ∈ lib, ∃ b, Shows (root, disk root) p (some b)) := by
  obtain ⟨h1, h2, h3⟩ := C98_loaded h hq hd hp
  have hroot : ∀ root, (∃ lib ∈ loadedLibraries config.library (happened es), root ∈ lib) ↔ (root, disk root) ∈ r.looks := by
    intro root
    rw [← List.mem_flatten, ← h1]
    constructor
    · intro hm
      obtain ⟨l, hl1, rfl⟩ := List.mem_map.1 hm
      rw [← hl l hl1]; exact hl1
    · intro hm
      exact List.mem_map.2 ⟨_, hm, rfl⟩
  have conv : ∀ P : AbsPath → Prop, (∃ lib ∈ loadedLibraries config.library (happened es), ∃ root ∈ lib, P root) ↔
      ∃ root, (root, disk root) ∈ r.looks ∧ P root := by
    intro P
    constructor
    · rintro ⟨lib, h4, root, h5, h6⟩
      exact ⟨root, (hroot root).1 ⟨lib, h4, h5⟩, h6⟩
    · rintro ⟨root, h4, h6⟩
      obtain ⟨lib, h5, h7⟩ := (hroot root).2 h4
      exact ⟨lib, h5, root, h7, h6⟩
  simp only [conv]
  rcases last_look p r.looks with ⟨before, l, after, c, he, hs, ha⟩ | hno
  · have hc := h2 c ⟨before, l, after, he, hs, ha⟩
    have hlm : l ∈ r.looks := by rw [he]; simp
    have hl1 : (l.1, disk l.1) = l := by rw [← hl l hlm]
    have hone : ∀ root c', (root, disk root) ∈ r.looks → Shows (root, disk root) p c' → c' = c :=
      fun root c' h4 h5 => hu _ h4 _ hlm p c' c h5 hs
    cases c with
    | none =>
      simp only at hc
      constructor
      · intro b
        constructor
        · rintro ⟨id, h4, -⟩; rw [hc] at h4; cases h4
        · rintro ⟨root, h4, h5⟩; exact absurd (hone _ _ h4 h5) (by simp)
      · constructor
        · rintro ⟨id, h4⟩; rw [hc] at h4; cases h4
        · rintro ⟨root, h4, b, h5⟩; exact absurd (hone _ _ h4 h5) (by simp)
    | some b0 =>
      simp only at hc
      obtain ⟨id0, g1, g2, g3⟩ := hc
      constructor
      · intro b
        constructor
        · rintro ⟨id, h4, h5, -⟩
          rw [g1] at h4
          cases h4
          rw [g2] at h5
          cases h5
          exact ⟨l.1, by rw [hl1]; exact hlm, by rw [hl1]; exact hs⟩
        · rintro ⟨root, h4, h5⟩
          have := hone _ _ h4 h5
          cases this
          exact ⟨id0, g1, g2, g3⟩
      · exact ⟨fun _ => ⟨l.1, by rw [hl1]; exact hlm, b0, by rw [hl1]; exact hs⟩, fun _ => ⟨id0, g1⟩⟩
  · have hn := h3 hno
    constructor
    · intro b
      constructor
      · rintro ⟨id, h4, -⟩; rw [hn] at h4; cases h4
      · rintro ⟨root, h4, h5⟩; exact absurd h5 (hno _ h4 _)
    · constructor
      · rintro ⟨id, h4⟩; rw [hn] at h4; cases h4
      · rintro ⟨root, h4, b, h5⟩; exact absurd h5 (hno _ h4 _)

/-! ### nothing goes wrong -/

private theorem afterWrites_none {p : AbsPath} {b : Bytes} : ∀ (ws : List (AbsPath × Option Bytes)) (f : AbsPath → Option Bytes),
    (∀ w ∈ ws, w.1 = p → w.2 ≠ none) → f p = some b → afterWrites f ws p ≠ none := by
  intro ws
  induction ws generalizing b with
  | nil => intro f _ hb; simp [afterWrites, hb]
  | cons w ws ih =>
    intro f h hb
    have he : afterWrites f (w :: ws) p = afterWrites (fun _ => if w.1 = p then w.2 else f p) ws p := by
      simp [afterWrites]
    rw [he]
    by_cases hw : w.1 = p
    · cases hc : w.2 with
      | none => exact absurd hc (h w (by simp) hw)
      | some b' => exact ih _ (fun w' h' => h w' (by simp [h'])) (b := b') (by simp [hw])
    · exact ih _ (fun w' h' => h w' (by simp [h'])) (b := b) (by simp [hw, hb])

/-- **C98** As long as no Lua file that could be read cannot be read later (and ids do not run out), the server handles
whatever the loader has sent, however it is cut into turns, and the loader handles the next configuration, whatever it finds. -/
theorem C98_safe {config : Config} {es : List (ServerEvent × Orders)} {r : Running} (h : Reaches config es r)
    (hd : Directories r.looks) (hr : StayReadable r.looks) :
    (∀ first rest later o, r.queue = first :: rest ++ later →
      storedFiles (happened es) + storedFiles [.loader first rest] ≤ 4294967295 →
      ∃ s, handleEvent diagnosticsOf r.server (.loader first rest, o) = some s) ∧
    (∀ version roots (nodes : List Loader.Node), r.server.loads[r.taken]? = some (version, roots) →
      (∀ n ∈ nodes, WellFormed n) →
      ∃ msgs, Loader.handle (.config version ((roots.zip nodes).map fun l => (l.1.toList, l.2))) = some msgs) := by
  have hg := good h
  have hi := Inv.run hg.run
  constructor
  · intro first rest later o hq hb
    cases he : handleEvent diagnosticsOf r.server (.loader first rest, o) with
    | some s => exact ⟨s, rfl⟩
    | none =>
      exfalso
      have hs : storedFiles [.loader first rest] = (writes (first :: rest)).length := by simp [storedFiles]
      have hpl : r.server.vfs.paths.length ≤ storedFiles (happened es) := paths_run hg.run
      obtain ⟨p, -, ⟨before, b, after, hw, -⟩, h2⟩ :=
        (loader_none_iff diagnosticsOf_total hi (by omega)).1 he
      have hall : (r.looks.flatMap files).Pairwise fun w w' => w.1 = w'.1 → w.2 ≠ none → w'.2 ≠ none := by
        have hfo := files_ok hg hd
        rw [List.flatMap_def, List.pairwise_flatten]
        constructor
        · intro ws hws
          obtain ⟨l, hl, rfl⟩ := List.mem_map.1 hws
          have := (hfo l hl).1
          rw [List.Nodup, List.pairwise_map] at this
          exact this.imp fun hne heq => absurd heq hne
        · rw [List.pairwise_map]
          refine List.Pairwise.imp_of_mem ?_ hr
          intro l l' hl hl' hR w hw w' hw' heq hn hn'
          rcases w with ⟨q, c⟩
          rcases w' with ⟨q', c'⟩
          simp only at heq hn hn'
          subst heq hn'
          cases c with
          | none => exact hn rfl
          | some b => exact hR q b (((hfo l hl).2 _ _).1 hw) (((hfo l' hl').2 _ _).1 hw')
      rw [← hg.sent, hq, writes_append (first :: rest ++ later), writes_append (first :: rest), hw] at hall
      have h3 : ((p, some b) :: after).Pairwise fun (w w' : AbsPath × Option Bytes) => w.1 = w'.1 → w.2 ≠ none → w'.2 ≠ none := by
        refine List.Pairwise.sublist ?_ hall
        refine List.Sublist.trans ?_ (List.sublist_append_right _ _)
        refine List.Sublist.trans ?_ (List.sublist_append_left _ _)
        refine List.Sublist.trans ?_ (List.sublist_append_left _ _)
        exact List.sublist_append_right _ _
      rw [List.pairwise_cons] at h3
      rw [hw, afterWrites_append] at h2
      have he2 : ∀ f : AbsPath → Option Bytes, afterWrites f ((p, some b) :: after) p = afterWrites (fun _ => some b) after p := by
        intro f; simp [afterWrites]
      rw [he2] at h2
      exact afterWrites_none after _ (fun w hw1 hw2 => h3.1 w hw1 hw2.symm (by simp)) rfl h2
  · intro version roots nodes hl hn
    have hmem : (version, roots) ∈ r.server.loads := List.mem_of_getElem? hl
    have habs := (C60_library_loaded_partial hg.run).2.1 _ hmem
    obtain ⟨msgs, h1, -⟩ := Loader.C50_progress version ((roots.zip nodes).map fun l => (l.1.toList, l.2)) (by
      intro e he
      obtain ⟨l, hl1, rfl⟩ := List.mem_map.1 he
      have := List.of_mem_zip hl1
      exact ⟨abs_path ((absolute_iff _).2 (habs _ this.1)), hn _ this.2⟩)
    exact ⟨msgs, h1⟩

/-- The number of messages the loader sends for a configuration. -/
theorem handle_length {v : Nat} {looks : List (AbsPath × Loader.Node)} {msgs : List LoaderMsg}
    (h : Loader.handle (.config v (looks.map fun l => (l.1.toList, l.2))) = some msgs) :
    msgs.length = 2 * looks.length + 1 := (handle_writes h).1

/-- The loader takes no more configurations than it was given. -/
theorem taken_le {config : Config} {es : List (ServerEvent × Orders)} {r : Running} (h : Reaches config es r) :
    r.taken ≤ r.server.loads.length := by
  have := (good h).taken
  rwa [List.length_map] at this

/-- The loader does not panic on a configuration it was given. -/
theorem handle_total {config : Config} {es : List (ServerEvent × Orders)} {r : Running} (h : Reaches config es r)
    {version : Nat} {roots : List AbsPath} {nodes : List Loader.Node}
    (hl : r.server.loads[r.taken]? = some (version, roots)) (hn : ∀ n ∈ nodes, WellFormed n) :
    ∃ msgs, Loader.handle (.config version ((roots.zip nodes).map fun l => (l.1.toList, l.2))) = some msgs := by
  have habs := (C60_library_loaded_partial (good h).run).2.1 _ (List.mem_of_getElem? hl)
  obtain ⟨msgs, h1, -⟩ := Loader.C50_progress version ((roots.zip nodes).map fun l => (l.1.toList, l.2)) (by
    intro e he
    obtain ⟨l, hl1, rfl⟩ := List.mem_map.1 he
    have := List.of_mem_zip hl1
    exact ⟨abs_path ((absolute_iff _).2 (habs _ this.1)), hn _ this.2⟩)
  exact ⟨msgs, h1⟩

/-! ### it settles -/

/-- A number of steps of the server and its loader without the client. -/
inductive InnerRun : Running → Nat → Running → Prop
  | done (r : Running) : InnerRun r 0 r
  | step {r es r' n r''} : Inner r es r' → InnerRun r' n r'' → InnerRun r (n + 1) r''

private def rank (r : Running) : Nat :=
  2 * r.sending.length + r.queue.length + (((r.server.loads.map (·.2)).drop r.taken).map fun l => 4 * l.length + 3).sum

private theorem rank_lt {config : Config} {es es' : List (ServerEvent × Orders)} {r r' : Running}
    (h : Good config es r) (hs : Inner r es' r') : rank r' < rank r := by
  cases hs with
  | take version roots nodes msgs h1 h2 h3 h4 =>
    have hd : (r.server.loads.map (·.2)).drop r.taken = roots :: (r.server.loads.map (·.2)).drop (r.taken + 1) := by
      have h5 : (r.server.loads.map (·.2))[r.taken]? = some roots := by simp [h2]
      obtain ⟨hlt, h6⟩ := List.getElem?_eq_some_iff.1 h5
      rw [List.drop_eq_getElem_cons hlt, h6]
    have hm := (handle_writes h4).1
    rw [List.length_zip, h3, Nat.min_self] at hm
    simp only [rank, hd, h1, List.map_cons, List.sum_cons, List.length_nil, hm]
    omega
  | send m ms h1 =>
    simp only [rank, h1, List.length_cons, List.length_append, List.length_nil]
    omega
  | receive first rest later o s h1 h2 =>
    have hr := run_snoc.2 ⟨_, h.run, h2⟩
    have hl := (loads_grow h.run hr).2 (by simp)
    simp only [rank, hl, h1, List.length_cons, List.length_append]
    omega

/-- **C98** Left alone by the client, server and loader come to rest: there are no more steps than twice the messages being
sent, plus those in the queue, plus four for every path and three for every configuration the loader has still to
take; and while something is under way there is a step. -/
theorem C98_settles {config : Config} {es : List (ServerEvent × Orders)} {r : Running} (h : Reaches config es r) :
    (∀ n r', InnerRun r n r' → n ≤ 2 * r.sending.length + r.queue.length +
      ((r.server.loads.drop r.taken).map fun l => 4 * l.2.length + 3).sum) ∧
    (Directories r.looks → StayReadable r.looks →
      (∀ first rest, r.queue = first :: rest → storedFiles (happened es) + storedFiles [.loader first []] ≤ 4294967295) →
      (¬ Quiet r ↔ ∃ es' r', Inner r es' r')) := by
  have hg := good h
  constructor
  · intro n r' hn
    have key : ∀ {r n r'}, InnerRun r n r' → ∀ {es}, Good config es r → n ≤ rank r := by
      intro r n r' hn
      induction hn with
      | done r => intro es _; omega
      | step h1 h2 ih =>
        intro es hg
        have := ih (hg.inner h1)
        have := rank_lt hg h1
        omega
    have := key hn hg
    simp only [rank] at this
    rw [← List.map_drop, List.map_map] at this
    exact this
  · intro hd hr hb
    obtain ⟨s1, s2⟩ := C98_safe h hd hr
    have htk := hg.taken
    rw [List.length_map] at htk
    constructor
    · intro hq
      cases hsend : r.sending with
      | cons m ms => exact ⟨_, _, .send r m ms hsend⟩
      | nil =>
        cases hqu : r.queue with
        | cons first rest =>
          obtain ⟨s, hs⟩ := s1 first [] rest Orders.plain (by rw [hqu]; rfl) (hb first rest hqu)
          exact ⟨_, _, .receive r first [] rest Orders.plain s (by rw [hqu]; rfl) hs⟩
        | nil =>
          have hlt : r.taken < r.server.loads.length := by
            rcases Nat.lt_or_ge r.taken r.server.loads.length with h1 | h1
            · exact h1
            · exact absurd ⟨by omega, hsend, hqu⟩ hq
          have hl : r.server.loads[r.taken]? = some (r.server.loads[r.taken].1, r.server.loads[r.taken].2) :=
            List.getElem?_eq_getElem hlt
          obtain ⟨msgs, hm⟩ := s2 _ _ (r.server.loads[r.taken].2.map fun _ => .error) hl (by
            intro n hn
            obtain ⟨_, -, rfl⟩ := List.mem_map.1 hn
            exact .error)
          exact ⟨_, _, .take r _ _ _ msgs hsend hl (by simp) hm⟩
    · rintro ⟨es', r', hs⟩ ⟨q1, q2, q3⟩
      cases hs with
      | take version roots nodes msgs h1 h2 h3 h4 =>
        have := (List.getElem?_eq_some_iff.1 h2).1
        omega
      | send m ms h1 => rw [q2] at h1; cases h1
      | receive first rest later o s h1 h2 => rw [q3] at h1; cases h1

/-! ### examples and what goes wrong -/

/-- The response that sets the library. -/
private def setLibrary (k : Nat) (paths : List String) : ServerEvent :=
  .response (.int k) false (some (.arr [.obj [("workspace", .obj [("library", .arr (paths.map .str))])]]))

/-- The id of a path and the text analysed for it. -/
def lookedUp (s : Server) (p : AbsPath) : Option (Option Nat) × Option Text :=
  (s.vfs.fileId p, ((s.vfs.fileId p).bind id).bind s.fileText)

/-- A directory with one Lua file. -/
def oneFile (c : Option Bytes) : Loader.Node := .dir [(['a', '.', 'l', 'u', 'a'], .file c)]

theorem oneFile_ok (c : Option Bytes) : WellFormed (oneFile c) ∧ ∀ c', oneFile c ≠ .file c' := by
  refine ⟨.dir _ (by simp) ?_ ?_, by simp [oneFile]⟩
  · intro e he
    simp only [List.mem_singleton] at he
    subst he
    exact ⟨by simp, by simp, by simp, by simp⟩
  · intro e he
    simp only [List.mem_singleton] at he
    subst he
    exact .file c

private theorem oneFile_shows (c : Option Bytes) : Shows ("/l", oneFile c) "/l/a.lua" c :=
  ⟨[], ['a', '.', 'l', 'u', 'a'], .down (List.mem_singleton.2 rfl) (.here _), ⟨['a'], by simp, by decide⟩,
    show "/l/a.lua" = String.ofList (extend "/l".toList ([] ++ [['a', '.', 'l', 'u', 'a']])) by decide⟩

private theorem Reaches.clients {config : Config} {evs : List (ServerEvent × Orders)} :
    ∀ {es : List (ServerEvent × Orders)} {r : Running} {s : Server}, Reaches config es r →
    (∀ e ∈ evs, ∀ first rest, e.1 ≠ .loader first rest) → Server.run diagnosticsOf r.server evs = some s →
    Reaches config (es ++ evs) { r with server := s } := by
  induction evs with
  | nil =>
    intro es r s h _ hr
    cases hr
    simpa using h
  | cons e evs ih =>
    intro es r s h hn hr
    simp only [Server.run, List.foldlM_cons, Option.bind_eq_bind, Option.bind_eq_some_iff] at hr
    obtain ⟨s1, h1, h2⟩ := hr
    have := ih (.client e s1 h (hn e (by simp)) h1) (fun e he => hn e (by simp [he])) h2
    simpa using this

private theorem Reaches.sends {config : Config} : ∀ (n : Nat) {es : List (ServerEvent × Orders)} {r : Running},
    Reaches config es r → r.sending.length = n →
    Reaches config es { r with sending := [], queue := r.queue ++ r.sending } := by
  intro n
  induction n with
  | zero =>
    intro es r h hn
    have : r.sending = [] := List.length_eq_zero_iff.1 hn
    rcases r with ⟨a, b, c, d, e⟩
    simp only at this
    subst this
    simpa using h
  | succ n ih =>
    intro es r h hn
    cases hs : r.sending with
    | nil => rw [hs] at hn; cases hn
    | cons m ms =>
      have := ih (.inner h (.send r m ms hs)) (by simp only [hs, List.length_cons] at hn; simpa using hn)
      simpa using this

private def asks : List (ServerEvent × Orders) :=
  [(.didChangeConfiguration, Orders.plain), (.didChangeConfiguration, Orders.plain), (setLibrary 0 ["/l"], Orders.plain)]

/-- The state after a history that the server survives. -/
private def after (es : List (ServerEvent × Orders)) : Server :=
  (Server.run diagnosticsOf (.new ⟨[]⟩) es).getD (.new ⟨[]⟩)

private def found (c : Option Bytes) : List LoaderMsg :=
  [.progress 1 0 1, .loaded [("/l/a.lua", c)], .progress 1 1 1]

private theorem oneFile_load (c : Option Bytes) (v : Nat) :
    Loader.handle (.config v ([("/l", oneFile c)].map fun l => (l.1.toList, l.2))) =
      some [.progress 1 0 v, .loaded [("/l/a.lua", c)], .progress 1 1 v] := by
  have h1 : Paths.absAssert "/l".toList = some "/l".toList := by decide
  have h2 : Paths.push "/l".toList ['a', '.', 'l', 'u', 'a'] = "/l/a.lua".toList := by decide
  have h3 : Paths.absAssert "/l/a.lua".toList = some "/l/a.lua".toList := by decide
  have h4 : (Paths.extension "/l/a.lua".toList).getD [] = "lua".toList := by decide
  have h5 : Loader.loadEntry "/l".toList (oneFile c) = some [("/l/a.lua", c)] := by
    simp only [Loader.loadEntry, oneFile, Loader.walk, Loader.walkL, h2, List.append_nil, List.mapM_cons, List.mapM_nil,
      Loader.loadOne, h1, h3, h4, ne_eq, not_true, if_false]
    rfl
  simp only [Loader.handle, List.map_cons, List.map_nil, Loader.loadEntries, h5]
  rfl

private theorem asked (c : Option Bytes) : Reaches ⟨[]⟩ asks ⟨after asks, 1, [("/l", oneFile c)], [], found c⟩ := by
  have h1 : Reaches ⟨[]⟩ asks ⟨after asks, 0, [], [], []⟩ := by
    refine Reaches.clients (evs := asks) .start ?_ rfl
    intro e he
    simp only [asks, List.mem_cons, List.not_mem_nil, or_false] at he
    rcases he with rfl | rfl | rfl <;> simp [setLibrary]
  have h2 := Reaches.inner h1 (.take _ 1 ["/l"] [oneFile c] (found c) rfl rfl rfl (oneFile_load c 1))
  have h3 := Reaches.sends 3 h2 rfl
  simpa using h3

/-- The contents of that file. -/
def sampleBytes : Bytes := .utf8 ['x']

private def loaded : List (ServerEvent × Orders) :=
  asks ++ [(.loader (.progress 1 0 1) [.loaded [("/l/a.lua", some sampleBytes)], .progress 1 1 1], Orders.plain)]

private theorem loaded_reached : Reaches ⟨[]⟩ loaded ⟨after loaded, 1, [("/l", oneFile (some sampleBytes))], [], []⟩ :=
  .inner (asked (some sampleBytes)) (.receive _ (.progress 1 0 1) [.loaded [("/l/a.lua", some sampleBytes)], .progress 1 1 1] [] Orders.plain
    (after loaded) rfl rfl)

private theorem looks_ok (cs : List (Option Bytes)) : Directories (cs.map fun c => ("/l", oneFile c)) := by
  intro l hl
  obtain ⟨c, -, rfl⟩ := List.mem_map.1 hl
  exact oneFile_ok c

/-- The theorems apply: a library is set, loaded and received. -/
example : ∃ es r, Reaches ⟨[]⟩ es r ∧ Quiet r ∧ Directories r.looks ∧ StayReadable r.looks ∧
    NeverOpened "/l/a.lua" (happened es) ∧ loadedLibraries [] (happened es) = [["/l"]] ∧
    (∀ l ∈ r.looks, ∀ l' ∈ r.looks, ∀ p c c', Shows l p c → Shows l' p c' → c = c') ∧
    Shows ("/l", oneFile (some sampleBytes)) "/l/a.lua" (some sampleBytes) ∧
    lookedUp r.server "/l/a.lua" = (some (some 0), some ['x']) := by
  have hd := looks_ok [some sampleBytes]
  refine ⟨loaded, _, loaded_reached, ⟨rfl, rfl, rfl⟩, hd, by simp [StayReadable], ?_, by decide, ?_,
    oneFile_shows _, rfl⟩
  · intro v t h
    simp [happened, loaded, asks, setLibrary] at h
  · intro l hl l' hl' p c c' h1 h2
    have hg := good loaded_reached
    simp only [List.mem_singleton] at hl hl'
    subst hl hl'
    obtain ⟨h3, h4⟩ := files_ok hg hd _ (List.mem_singleton.2 rfl)
    have h5 := (h4 p c).2 h1
    have h6 := (h4 p c').2 h2
    have h7 := afterWrites_one h3 (fun _ => none) (p := p)
    rw [← h7.1 c h5, ← h7.1 c' h6]

/-- **C98**, what fails: the files of a library that is no longer set stay. -/
theorem C98_removed_library_fails : ∃ es r, Reaches ⟨[]⟩ es r ∧ Quiet r ∧ library [] (happened es) = [] ∧
    lookedUp r.server "/l/a.lua" = (some (some 0), some ['x']) := by
  have h1 : Reaches ⟨[]⟩ (loaded ++ [(setLibrary 1 [], Orders.plain)])
      ⟨after (loaded ++ [(setLibrary 1 [], Orders.plain)]), 1, [("/l", oneFile (some sampleBytes))], [], []⟩ :=
    .client _ _ loaded_reached (by simp [setLibrary]) rfl
  have h2 := Reaches.inner h1 (.take _ 2 [] [] [.progress 0 0 2] rfl rfl rfl rfl)
  have h3 := Reaches.inner h2 (.send _ (.progress 0 0 2) [] rfl)
  have h4 := Reaches.inner h3 (.receive _ (.progress 0 0 2) [] [] Orders.plain
    (after (loaded ++ [(setLibrary 1 [], Orders.plain), (.loader (.progress 0 0 2) [], Orders.plain)])) rfl rfl)
  exact ⟨_, _, h4, ⟨rfl, rfl, rfl⟩, by decide, rfl⟩

/-- **C98**, what fails: a file that is gone when its library is loaded again stays. -/
theorem C98_deleted_file_fails : ∃ es r, Reaches ⟨[]⟩ es r ∧ Quiet r ∧ library [] (happened es) = ["/l", "/l"] ∧
    r.looks = [("/l", oneFile (some sampleBytes)), ("/l", .dir []), ("/l", .dir [])] ∧
    lookedUp r.server "/l/a.lua" = (some (some 0), some ['x']) := by
  have h1 : Reaches ⟨[]⟩ (loaded ++ [(setLibrary 1 ["/l", "/l"], Orders.plain)])
      ⟨after (loaded ++ [(setLibrary 1 ["/l", "/l"], Orders.plain)]), 1, [("/l", oneFile (some sampleBytes))], [], []⟩ :=
    .client _ _ loaded_reached (by simp [setLibrary]) rfl
  have h2 := Reaches.inner h1 (.take _ 2 ["/l", "/l"] [.dir [], .dir []]
    [.progress 2 0 2, .loaded [], .progress 2 1 2, .loaded [], .progress 2 2 2] rfl rfl rfl rfl)
  have h3 := Reaches.sends 5 h2 rfl
  have h4 := Reaches.inner h3 (.receive _ (.progress 2 0 2) [.loaded [], .progress 2 1 2, .loaded [], .progress 2 2 2] []
    Orders.plain (after (loaded ++ [(setLibrary 1 ["/l", "/l"], Orders.plain),
      (.loader (.progress 2 0 2) [.loaded [], .progress 2 1 2, .loaded [], .progress 2 2 2], Orders.plain)])) rfl rfl)
  exact ⟨_, _, h4, ⟨rfl, rfl, rfl⟩, by decide, rfl, rfl⟩

/-- **C98**, what fails: a file that could be read when a library was loaded and cannot be when it is loaded again, before
the server has received the first load, ends the server (so `StayReadable` cannot be left out of `C98_safe`). -/
theorem C98_unreadable_file_fails : ∃ es r first rest, Reaches ⟨[]⟩ es r ∧ Directories r.looks ∧ r.queue = first :: rest ∧
    r.looks = [("/l", oneFile (some sampleBytes)), ("/l", oneFile none), ("/l", .dir [])] ∧
    ∀ o, handleEvent diagnosticsOf r.server (.loader first rest, o) = none := by
  have h1 : Reaches ⟨[]⟩ (asks ++ [(setLibrary 1 ["/l", "/l"], Orders.plain)])
      ⟨after (asks ++ [(setLibrary 1 ["/l", "/l"], Orders.plain)]), 1, [("/l", oneFile (some sampleBytes))], [], found (some sampleBytes)⟩ :=
    .client _ _ (asked (some sampleBytes)) (by simp [setLibrary]) rfl
  have h0 : Loader.handle (.config 2 ((["/l", "/l"].zip [oneFile none, .dir []]).map fun l => (l.1.toList, l.2))) =
      some [.progress 2 0 2, .loaded [("/l/a.lua", none)], .progress 2 1 2, .loaded [], .progress 2 2 2] := by
    have := oneFile_load none 0
    simp only [Loader.handle, List.map_cons, List.map_nil, Loader.loadEntries] at this
    split at this
    · rename_i fs rest h1 h2
      cases h2
      simp at this
      subst this
      simp only [Loader.handle, List.zip_cons_cons, List.zip_nil_right, List.map_cons, List.map_nil, Loader.loadEntries, h1]
      rfl
    · simp at this
  have h2 := Reaches.inner h1 (.take _ 2 ["/l", "/l"] [oneFile none, .dir []] _ rfl rfl rfl h0)
  have h3 := Reaches.sends 5 h2 rfl
  refine ⟨_, _, _, _, h3, ?_, rfl, rfl, fun o => ?_⟩
  · intro l hl
    simp only [List.mem_append, List.zip_cons_cons, List.zip_nil_right, List.mem_cons, List.not_mem_nil, or_false] at hl
    rcases hl with rfl | rfl | rfl
    · exact oneFile_ok _
    · exact oneFile_ok _
    · exact ⟨.dir _ (by simp) (by simp) (by simp), by simp⟩
  · have hg := good h3
    refine (loader_none_iff diagnosticsOf_total (Inv.run hg.run) (by decide +kernel)).2 ⟨"/l/a.lua", by decide +kernel, ?_, by decide +kernel⟩
    exact ⟨[], sampleBytes, [("/l/a.lua", none)], rfl, by decide +kernel⟩

end Verif
