import Verif.Spec.Session
import Verif.Props.Fatal

/-
C101: a session from start to end.
-/
namespace Verif
open Spec Server Process

private theorem session_snoc (early : Bool) (is : List (Input × Orders)) (i : Input × Orders) :
    session early (is ++ [i]) = step early (session early is) i := by simp [session]

private theorem session_app (early : Bool) (a b : List (Input × Orders)) :
    session early (a ++ b) = b.foldl (step early) (session early a) := by simp [session]

/-- **C101**: the first library is the one the initialization options ask for; it is empty if there are none. -/
theorem C101_initial_library (options : Option Json) : initialConfig options = ⟨initialLibrary options⟩ := by
  cases options with
  | none => rfl
  | some json =>
    have h := update_library Config.default json
    simp only [initialConfig, initialLibrary, Option.getD_some]
    rw [show (Config.default).library = [] from rfl] at h
    rw [← h]

private theorem fresh_iff (early : Bool) (is : List (Input × Orders)) :
    (session early is).phase = .fresh ↔ ∀ i ∈ is, early = true ∧ EarlyRequest i.1 := by
  induction is using history_ind with
  | nil => simp [session]
  | snoc is i ih =>
    rw [session_snoc]
    have hsplit : (∀ x ∈ is ++ [i], early = true ∧ EarlyRequest x.1) ↔
        (∀ x ∈ is, early = true ∧ EarlyRequest x.1) ∧ early = true ∧ EarlyRequest i.1 := by
      constructor
      · intro h; exact ⟨fun x hx => h x (by simp [hx]), h i (by simp)⟩
      · rintro ⟨h1, h2⟩ x hx
        rcases List.mem_append.1 hx with hx | hx
        · exact h1 x hx
        · simp at hx; subst hx; exact h2
    rw [hsplit, ← ih]
    unfold step
    cases hp : (session early is).phase with
    | fresh =>
      simp only [true_and]
      rcases i with ⟨i, o⟩
      cases i with
      | event e =>
        cases e with
        | request id m ok =>
          cases early
          · simp
          · simp [EarlyRequest, hp]
        | _ => simp [EarlyRequest]
      | init id params => cases params <;> simp [EarlyRequest]
      | _ => simp [EarlyRequest]
    | greeted c => rcases i with ⟨i, o⟩; cases i <;> simp
    | serving s =>
      simp only [reduceCtorEq, false_and, iff_false]
      rcases i with ⟨i, o⟩
      cases i with
      | exit => simp
      | closed => simp
      | _ => simp only [asEvent]; split <;> simp
    | ended b s => simp [hp]

private theorem greeted_iff (early : Bool) (is : List (Input × Orders)) (c : Config) :
    (session early is).phase = .greeted c ↔ ∃ pre id options o, is = pre ++ [(.init id (some options), o)] ∧
      (∀ i ∈ pre, early = true ∧ EarlyRequest i.1) ∧ c = initialConfig options := by
  induction is using history_ind with
  | nil => simp [session]
  | snoc is i ih =>
    rw [session_snoc]
    constructor
    · intro h
      unfold step at h
      cases hp : (session early is).phase with
      | fresh =>
        have hf := (fresh_iff early is).1 hp
        rw [hp] at h
        rcases i with ⟨i, o⟩
        cases i with
        | event e =>
          cases e with
          | request id m ok => cases early <;> simp [hp] at h
          | _ => simp at h
        | init id params =>
          cases params with
          | none => simp at h
          | some options =>
            simp only [Phase.greeted.injEq] at h
            exact ⟨is, id, options, o, rfl, hf, h.symm⟩
        | _ => simp at h
      | greeted c => rw [hp] at h; rcases i with ⟨i, o⟩; cases i <;> simp at h
      | serving s =>
        rw [hp] at h
        rcases i with ⟨i, o⟩
        cases i with
        | exit => simp at h
        | closed => simp at h
        | _ => simp only [asEvent] at h; split at h <;> simp at h
      | ended b s => rw [hp] at h; simp [hp] at h
    · rintro ⟨pre, id, options, o, he, hpre, rfl⟩
      obtain ⟨rfl, he⟩ := List.append_inj' he rfl
      simp at he
      subst he
      have hp := (fresh_iff early is).2 hpre
      simp [step, hp]

private theorem step_main {early : Bool} {p : Process} {s : Server} (hp : p.phase = .serving s) (i : Input × Orders)
    (h1 : i.1 ≠ .exit) (h2 : i.1 ≠ .closed) :
    (step early p i).phase = match handleEvent diagnosticsOf s (eventOf i.1, i.2) with
      | none => .ended false (some s)
      | some s' => .serving s' := by
  unfold step
  rw [hp]
  rcases i with ⟨i, o⟩
  cases i with
  | exit => exact absurd rfl h1
  | closed => exact absurd rfl h2
  | _ =>
    simp only [asEvent, eventOf]
    split <;> rename_i he <;> rw [he]

/-- **C101**: the process is serving exactly after the handshake, as long as no event has ended the server; its state is
the one of C27-C98 for the initial library. -/
theorem C101_serving (early : Bool) (inputs : List (Input × Orders)) (s : Server) :
    (session early inputs).phase = .serving s ↔ ∃ options events, Serves early inputs options events ∧
      run diagnosticsOf (.new ⟨initialLibrary options⟩) events = some s := by
  induction inputs using history_ind generalizing s with
  | nil =>
    simp only [session, List.foldl_nil, reduceCtorEq, false_iff]
    rintro ⟨options, events, ⟨pre, id, o1, o2, main, h, -⟩, -⟩
    simp at h
  | snoc is i ih =>
    rw [session_snoc]
    constructor
    · intro h
      cases hp : (session early is).phase with
      | fresh =>
        unfold step at h
        rw [hp] at h
        rcases i with ⟨i, o⟩
        cases i with
        | event e =>
          cases e with
          | request id m ok => cases early <;> simp [hp] at h
          | _ => simp at h
        | init id params => cases params <;> simp at h
        | _ => simp at h
      | greeted c =>
        obtain ⟨pre, id, options, o, rfl, hpre, rfl⟩ := (greeted_iff early is c).1 hp
        unfold step at h
        rw [hp] at h
        rcases i with ⟨i, o'⟩
        cases i with
        | initialized =>
          simp only [Phase.serving.injEq] at h
          refine ⟨options, [], ⟨pre, id, o, o', [], by simp, hpre, by simp, rfl⟩, ?_⟩
          rw [← C101_initial_library, h]
          rfl
        | _ => simp at h
      | serving t =>
        by_cases h1 : i.1 = .exit
        · simp [step, hp, h1] at h
        by_cases h2 : i.1 = .closed
        · simp [step, hp, h2] at h
        rw [step_main hp i h1 h2] at h
        cases he : handleEvent diagnosticsOf t (eventOf i.1, i.2) with
        | none => rw [he] at h; simp at h
        | some t' =>
          rw [he] at h
          simp only [Phase.serving.injEq] at h
          subst h
          obtain ⟨options, events, ⟨pre, id, o1, o2, main, rfl, hpre, hmain, rfl⟩, hr⟩ := (ih t).1 hp
          refine ⟨options, _, ⟨pre, id, o1, o2, main ++ [i], by simp, hpre, ?_, rfl⟩, ?_⟩
          · intro x hx
            rcases List.mem_append.1 hx with hx | hx
            · exact hmain x hx
            · simp at hx; subst hx; exact ⟨h1, h2⟩
          · rw [List.map_append, List.map_singleton]
            exact run_snoc.2 ⟨t, hr, he⟩
      | ended b t => unfold step at h; rw [hp] at h; simp [hp] at h
    · rintro ⟨options, events, ⟨pre, id, o1, o2, main, he, hpre, hmain, rfl⟩, hr⟩
      rcases List.eq_nil_or_concat main with rfl | ⟨main', j, rfl⟩
      · have he' : is ++ [i] = (pre ++ [(.init id (some options), o1)]) ++ [(.initialized, o2)] := by simpa using he
        obtain ⟨rfl, he'⟩ := List.append_inj' he' rfl
        simp at he'
        subst he'
        have hp := (greeted_iff early _ _).2 ⟨pre, id, options, o1, rfl, hpre, rfl⟩
        simp only [List.map_nil, run, List.foldlM_nil] at hr
        simp only [step, hp, C101_initial_library]
        simpa using hr
      · have he' : is ++ [i] = (pre ++ (.init id (some options), o1) :: (.initialized, o2) :: main') ++ [j] := by
          simpa using he
        obtain ⟨rfl, he'⟩ := List.append_inj' he' rfl
        simp at he'
        subst he'
        rw [List.concat_eq_append, List.map_append, List.map_singleton] at hr
        obtain ⟨t, hr, hh⟩ := run_snoc.1 hr
        have hp := (ih t).2 ⟨options, _, ⟨pre, id, o1, o2, main', rfl, hpre,
          fun x hx => hmain x (by simp [hx]), rfl⟩, hr⟩
        obtain ⟨h1, h2⟩ := hmain i (by simp)
        rw [step_main hp i h1 h2, hh]

private theorem ended_stays (early : Bool) (rest : List (Input × Orders)) (p : Process) {b s} (h : p.phase = .ended b s) :
    rest.foldl (step early) p = p := by
  induction rest with
  | nil => rfl
  | cons i rest ih =>
    rw [List.foldl_cons]
    have : step early p i = p := by unfold step; rw [h]
    rw [this, ih]

/-- **C101**: nothing that comes after `exit` matters. -/
theorem C101_exit_ends (early : Bool) (inputs rest : List (Input × Orders)) (o : Orders) (s : Server)
    (h : (session early inputs).phase = .serving s) :
    (session early (inputs ++ (.exit, o) :: rest)).phase = .ended true (some s) ∧
      status (session early (inputs ++ (.exit, o) :: rest)) = some true ∧
      sentBy (session early (inputs ++ (.exit, o) :: rest)) = s.sent := by
  have h1 : (step early (session early inputs) (.exit, o)).phase = .ended true (some s) := by simp [step, h]
  have h2 : session early (inputs ++ (.exit, o) :: rest) = step early (session early inputs) (.exit, o) := by
    rw [session_app, List.foldl_cons]
    exact ended_stays _ _ _ h1
  rw [h2]
  simp [status, sentBy, h1]

/-- **C101**: the exit status is 0 exactly if `exit` comes while the server is serving: after the handshake, before the
end of the input, and before any event that ends the server (C90).  Whether there was a `shutdown` makes no
difference. -/
theorem C101_success (early : Bool) (inputs : List (Input × Orders)) :
    status (session early inputs) = some true ↔ ∃ front o rest options events, inputs = front ++ (.exit, o) :: rest ∧
      Serves early front options events ∧ run diagnosticsOf (.new ⟨initialLibrary options⟩) events ≠ none := by
  constructor
  · intro h
    suffices H : ∃ front o rest s, inputs = front ++ (.exit, o) :: rest ∧ (session early front).phase = .serving s by
      obtain ⟨front, o, rest, s, h1, h2⟩ := H
      obtain ⟨options, events, h3, h4⟩ := (C101_serving early front s).1 h2
      exact ⟨front, o, rest, options, events, h1, h3, by simp [h4]⟩
    induction inputs using history_ind with
    | nil => simp [session, status] at h
    | snoc is i ih =>
      rw [session_snoc] at h
      cases hp : (session early is).phase with
      | ended b s =>
        have hs : step early (session early is) i = session early is := by unfold step; rw [hp]
        rw [hs] at h
        obtain ⟨front, o, rest, s, rfl, h2⟩ := ih h
        exact ⟨front, o, rest ++ [i], s, by simp, h2⟩
      | serving s =>
        by_cases h1 : i.1 = .exit
        · rcases i with ⟨i, o⟩
          simp only at h1
          subst h1
          exact ⟨is, o, [], s, rfl, hp⟩
        by_cases h2 : i.1 = .closed
        · simp [step, hp, h2, status] at h
        · exfalso
          simp only [status, step_main hp i h1 h2] at h
          split at h
          · rename_i heq
            split at heq
            · simp only [Phase.ended.injEq] at heq
              rw [← heq.1] at h
              simp at h
            · simp at heq
          · simp at h
      | fresh =>
        exfalso
        unfold step status at h
        rw [hp] at h
        rcases i with ⟨i, o⟩
        cases i with
        | event e =>
          cases e with
          | request id m ok => cases early <;> simp [hp] at h
          | _ => simp at h
        | init id params => cases params <;> simp at h
        | _ => simp at h
      | greeted c =>
        exfalso
        unfold step status at h
        rw [hp] at h
        rcases i with ⟨i, o⟩
        cases i <;> simp at h
  · rintro ⟨front, o, rest, options, events, rfl, h1, h2⟩
    cases hr : run diagnosticsOf (.new ⟨initialLibrary options⟩) events with
    | none => exact absurd hr h2
    | some s =>
      have := (C101_serving early front s).2 ⟨options, events, h1, hr⟩
      exact (C101_exit_ends early front rest o s this).2.1

/-- **C101**, with C90: in a session with forward ranges and at most 2^32-1 files, the exit status is 0 exactly if `exit`
comes after the handshake and nothing fatal comes before it. -/
theorem C101_success_events (early : Bool) (front rest : List (Input × Orders)) (o : Orders) (options : Option Json)
    (events : List (ServerEvent × Orders)) (h : Serves early front options events)  (hb : storedFiles (happened events) ≤ 4294967295) :
    status (session early (front ++ (.exit, o) :: rest)) = some true ↔
      ¬ ∃ past e later, happened events = past ++ e :: later ∧ Fatal (initialLibrary options) past e := by
  have hd := C90_dies ⟨initialLibrary options⟩ events hb
  rw [← hd]
  constructor
  · intro hs hr
    obtain ⟨front', o', rest', options', events', he, h1, h2⟩ := (C101_success early _).1 hs
    have hnot : ∀ {a : List (Input × Orders)} {op ev}, Serves early a op ev → ∀ i ∈ a, i.1 ≠ .exit := by
      rintro a op ev ⟨pre, id, o1, o2, main, rfl, hpre, hmain, -⟩ i hi
      rcases List.mem_append.1 hi with hi | hi
      · obtain ⟨-, id, m, ok, e⟩ := hpre i hi
        rw [e]; simp
      · simp only [List.mem_cons] at hi
        rcases hi with rfl | rfl | hi
        · simp
        · simp
        · exact (hmain i hi).1
    have hfr : front = front' := by
      have take : ∀ (a b : List (Input × Orders)) (o : Orders), (∀ i ∈ a, i.1 ≠ .exit) →
          (a ++ (.exit, o) :: b).takeWhile (fun i => match i.1 with | .exit => false | _ => true) = a := by
        intro a b o ha
        induction a with
        | nil => simp
        | cons x xs ih =>
          have h1 := ha x (by simp)
          rw [List.cons_append, List.takeWhile_cons, ih fun i hi => ha i (by simp [hi])]
          rcases x with ⟨x, o⟩
          cases x <;> simp_all
      rw [← take front rest o (hnot h), he, take front' rest' o' (hnot h1)]
    subst hfr
    cases hr' : run diagnosticsOf (.new ⟨initialLibrary options'⟩) events' with
    | none => exact h2 hr'
    | some s =>
      have hsv := (C101_serving early front s).2 ⟨options', events', h1, hr'⟩
      have : Serves early front options' events' → options' = options ∧ events' = events := by
        rintro ⟨pre, id, o1, o2, main, rfl, hpre, hmain, rfl⟩
        obtain ⟨pre', id', o1', o2', main', he', hpre', hmain', rfl⟩ := h
        have take : ∀ (a : List (Input × Orders)) (i : ReqId) (p : Option (Option Json)) (o : Orders) (b : List (Input × Orders)),
            (∀ x ∈ a, early = true ∧ EarlyRequest x.1) →
            (a ++ (.init i p, o) :: b).dropWhile (fun x => match x.1 with | .init _ _ => false | _ => true) =
              (.init i p, o) :: b := by
          intro a i p o b ha
          induction a with
          | nil => simp
          | cons x xs ih =>
            obtain ⟨-, id, m, ok, e⟩ := ha x (by simp)
            rw [List.cons_append, List.dropWhile_cons, ih fun i hi => ha i (by simp [hi])]
            simp [e]
        have := congrArg (List.dropWhile (fun x => match x.1 with | .init _ _ => false | _ => true)) he'
        rw [take _ _ _ _ _ hpre, take _ _ _ _ _ hpre'] at this
        simp at this
        obtain ⟨⟨⟨-, rfl⟩, -⟩, -, rfl⟩ := this
        exact ⟨rfl, rfl⟩
      obtain ⟨rfl, rfl⟩ := this h1
      rw [hr] at hr'
      simp at hr'
  · intro hr
    exact (C101_success early _).2 ⟨front, o, rest, options, events, rfl, h, hr⟩

/-- **C101**: if the input ends before `exit`, the exit status is not 0, whatever came before. -/
theorem C101_closed (early : Bool) (inputs rest : List (Input × Orders)) (o : Orders)
    (h : ∀ i ∈ inputs, i.1 ≠ .exit) : status (session early (inputs ++ (.closed, o) :: rest)) = some false := by
  have hnot : status (session early inputs) ≠ some true := by
    intro hs
    obtain ⟨front, o, rest, options, events, rfl, -⟩ := (C101_success early _).1 hs
    exact h (.exit, o) (by simp) rfl
  have h1 : ∃ s, (step early (session early inputs) (.closed, o)).phase = .ended false s := by
    unfold step
    cases hp : (session early inputs).phase with
    | fresh => exact ⟨none, rfl⟩
    | greeted c => exact ⟨none, rfl⟩
    | serving s => exact ⟨some s, rfl⟩
    | ended b s =>
      cases b with
      | true => simp [status, hp] at hnot
      | false => exact ⟨s, hp⟩
  obtain ⟨s, h1⟩ := h1
  rw [session_app, List.foldl_cons, ended_stays _ _ _ h1]
  simp [status, h1]

/-- **C101**: `initialize` is answered, once, and every request before it gets an error, in order. -/
theorem C101_greetings (pre : List (ReqId × Method × Bool × Orders)) (id : ReqId) (options : Option Json) (o1 o2 : Orders)
    (main : List (Input × Orders)) :
    (session true (pre.map (fun r => (.event (.request r.1 r.2.1 r.2.2.1), r.2.2.2)) ++
      (.init id (some options), o1) :: (.initialized, o2) :: main)).greetings =
      pre.map (fun r => .notInitialized r.1) ++ [.initializeResult id] := by
  have h1 : ∀ gs, (pre.map fun r => ((.event (.request r.1 r.2.1 r.2.2.1), r.2.2.2) : Input × Orders)).foldl (step true)
      ⟨.fresh, gs⟩ = ⟨.fresh, gs ++ pre.map fun r => .notInitialized r.1⟩ := by
    induction pre with
    | nil => simp
    | cons r rs ih =>
      intro gs
      rw [List.map_cons, List.foldl_cons]
      rw [show step true ⟨.fresh, gs⟩ ((.event (.request r.1 r.2.1 r.2.2.1), r.2.2.2) : Input × Orders) =
        ⟨.fresh, gs ++ [.notInitialized r.1]⟩ from rfl, ih]
      simp
  have h2 : ∀ (main : List (Input × Orders)) (p : Process), (∃ s, p.phase = .serving s) ∨ (∃ b s, p.phase = .ended b s) →
      (main.foldl (step true) p).greetings = p.greetings := by
    intro main
    induction main with
    | nil => intro p _; rfl
    | cons i is ih =>
      intro p hp
      rw [List.foldl_cons]
      rcases hp with ⟨s, hp⟩ | ⟨b, s, hp⟩
      · by_cases q1 : i.1 = .exit
        · rw [ih]
          · simp [step, hp, q1]
          · simp [step, hp, q1]
        by_cases q2 : i.1 = .closed
        · rw [ih]
          · simp [step, hp, q2]
          · simp [step, hp, q2]
        · have q := step_main (early := true) hp i q1 q2
          rw [ih]
          · unfold step
            rw [hp]
            rcases i with ⟨i, o⟩
            cases i with
            | exit => rfl
            | closed => rfl
            | _ => simp only [asEvent]; split <;> rfl
          · rw [q]
            split
            · exact .inr ⟨_, _, rfl⟩
            · exact .inl ⟨_, rfl⟩
      · have : step true p i = p := by unfold step; rw [hp]
        rw [this]
        exact ih p (.inr ⟨b, s, hp⟩)
  rw [session_app, session, h1, List.foldl_cons, List.foldl_cons, h2]
  · simp [step]
  · exact .inl ⟨_, rfl⟩

/-! ### concrete sessions -/

private def hello (options : Option Json) : List (Input × Orders) :=
  [(.init (.int 0) (some options), .plain), (.initialized, .plain)]

private def someLibrary : Option Json := some (.obj [("workspace", .obj [("library", .arr [.str "/lib"])])])

private theorem hello_serves (options : Option Json) (main : List (Input × Orders))
    (h : ∀ i ∈ main, i.1 ≠ .exit ∧ i.1 ≠ .closed) :
    Serves false (hello options ++ main) options (main.map fun i => (eventOf i.1, i.2)) :=
  ⟨[], .int 0, .plain, .plain, main, rfl, by simp, h, rfl⟩

/-- What the protocol asks for is not the case: "If no shutdown request was made before, the exit status is 1".  A client
that says `exit` at once gets status 0. -/
theorem C101_shutdown_fails : status (session false (hello none ++ [(.exit, .plain)])) = some true := by
  have h := (C101_serving false (hello none) (.new ⟨[]⟩)).2 ⟨none, [], by simpa using hello_serves none [] (by simp), rfl⟩
  exact (C101_exit_ends false _ [] .plain _ h).2.1

/-- A request that was accepted may be left without an answer: its task is dropped at `exit`. -/
theorem C101_unanswered_fails : let p := session false (hello none ++
      [(.event (.request (.int 1) .completion true), .plain), (.exit, .plain)])
    status p = some true ∧ answers (.int 1) (sentBy p) = 0 := by
  exact ⟨rfl, rfl⟩

/-- Non-vacuity of C101: a session with a library, an early request (with the two versions of lsp_server), a second
`initialize`, and `shutdown`. -/
example : ∃ events, Serves true ((.event (.request (.int 7) .unknown true), .plain) :: hello someLibrary ++
      [(.init (.int 1) none, .plain), (.event (.request (.int 2) .shutdown true), .plain)]) someLibrary events ∧
    storedFiles (happened events) ≤ 4294967295 ∧
    initialLibrary someLibrary = ["/lib"] ∧ (¬ ∃ past e later, happened events = past ++ e :: later ∧
      Fatal ["/lib"] past e) := by
  refine ⟨_, ⟨[(.event (.request (.int 7) .unknown true), .plain)], .int 0, .plain, .plain, _, rfl, ?_, ?_, rfl⟩, ?_, rfl, ?_⟩
  · intro i hi; simp at hi; subst hi; exact ⟨rfl, _, _, _, rfl⟩
  · intro i hi; simp at hi; rcases hi with rfl | rfl <;> simp
  · decide
  · rintro ⟨past, e, later, h, hf⟩
    have : e ∈ ([.request (.int 1) .unknown true, .request (.int 2) .shutdown true] : List ServerEvent) := by
      have h' : ([.request (.int 1) .unknown true, .request (.int 2) .shutdown true] : List ServerEvent) =
        past ++ e :: later := h
      rw [h']; simp
    simp at this
    rcases this with rfl | rfl <;> exact hf

example : (session true ((.event (.request (.int 7) .unknown true), .plain) :: hello someLibrary)).greetings =
    [.notInitialized (.int 7), .initializeResult (.int 0)] ∧
    status (session false ((.event (.request (.int 7) .unknown true), .plain) :: hello someLibrary)) = some false :=
  ⟨rfl, rfl⟩

/-- A fatal event before `exit`: the status is not 0. -/
example : status (session false (hello none ++ [(.event .malformedNotification, .plain), (.exit, .plain)])) = some false := rfl

end Verif
