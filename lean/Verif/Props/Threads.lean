import Verif.Model.Threads
import Verif.Props.Workspace

/-
C107: the threads of the server and the channels between them.
-/
namespace Verif
open Spec

namespace Threads

/-- A number of steps. -/
inductive Steps (disk : Loader.Node → Prop) : Threads → Nat → Threads → Prop
  | done (t : Threads) : Steps disk t 0 t
  | step {t es t' n t''} : Step disk t es t' → Steps disk t' n t'' → Steps disk t (n + 1) t''

end Threads
open Threads

variable {disk : Loader.Node → Prop} {config : Config} {es : List (ServerEvent × Orders)} {t : Threads}

private structure Sound (config : Config) (es : List (ServerEvent × Orders)) (t : Threads) : Prop where
  run : Running.Reaches config es t.run
  ok : t.failed = false
  unhurt : t.loader ≠ .panicked
  alive : t.main = .loop ∨ t.main = .leaving → t.loader = .alive
  ended : t.main = .joined ∨ t.main = .gone → t.loader = .ended
  finished : t.loader = .ended → t.run.taken = t.run.server.loads.length ∧ t.run.sending = []

private theorem Sound.step (hd : ∀ n, disk n → WellFormed n) {es' : List (ServerEvent × Orders)} {t' : Threads}
    (h : Sound config es t) (hs : Step disk t es' t') : Sound config (es ++ es') t' := by
  obtain ⟨h1, h2, h3, h4, h5, h6⟩ := h
  cases hs with
  | take version roots nodes msgs l1 l2 l3 l4 l5 l6 =>
    refine ⟨h1.inner (.take _ version roots nodes msgs l2 l3 l4 l6), h2, h3, h4, h5, ?_⟩
    intro h; rw [l1] at h; cases h
  | crash version roots nodes l1 l2 l3 l4 l5 l6 =>
    obtain ⟨msgs, hm⟩ := handle_total h1 l3 (nodes := nodes) (fun n hn => hd n (l5 n hn))
    rw [l6] at hm; cases hm
  | send m ms l1 l2 l3 =>
    refine ⟨h1.inner (.send _ m ms l2), h2, h3, h4, h5, ?_⟩
    intro h; rw [l1] at h; cases h
  | sendFails m ms l1 l2 l3 =>
    simp only [receiverOpen, bne_eq_false_iff_eq] at l3
    have := h5 (.inr l3)
    rw [l1] at this; cases this
  | stop l1 l2 l3 l4 =>
    have hm : ¬ (t.main = .loop ∨ t.main = .leaving) := by
      simpa [senderOpen] using l4
    refine ⟨by rw [List.append_nil]; exact h1, h2, by simp, fun h => absurd h hm, fun _ => rfl, fun _ => ⟨l3, l2⟩⟩
  | client e s l1 l2 l3 l4 =>
    refine ⟨h1.client e s l2 l3, h2, h3, h4, h5, ?_⟩
    intro h
    rw [h4 (.inl l1)] at h; cases h
  | clientFails e s l1 l2 l3 l4 l5 => exact absurd (h4 (.inl l1)) l4
  | receive first rest later o s l1 l2 l3 =>
    refine ⟨h1.inner (.receive _ first rest later o s l2 l3), h2, h3, h4, h5, ?_⟩
    intro h
    rw [h4 (.inl l1)] at h; cases h
  | receiveFails l1 l2 l3 => exact absurd (h4 (.inl l1)) l3
  | leave l1 =>
    refine ⟨by rw [List.append_nil]; exact h1, h2, h3, fun _ => h4 (.inl l1), by simp, h6⟩
  | dropSender l1 =>
    exact ⟨by rw [List.append_nil]; exact h1, h2, h3, by simp, by simp, h6⟩
  | join l1 l2 => exact ⟨by rw [List.append_nil]; exact h1, h2, h3, by simp, fun _ => l2, h6⟩
  | joinFails l1 l2 => exact absurd l2 h3
  | dropReceiver l1 => exact ⟨by rw [List.append_nil]; exact h1, h2, h3, by simp, fun _ => h5 (.inl l1), h6⟩

private theorem sound (hd : ∀ n, disk n → WellFormed n) (h : Threads.Reaches disk config es t) : Sound config es t := by
  induction h with
  | start => exact ⟨.start, rfl, by simp, fun _ => rfl, by simp, by simp⟩
  | step _ hs ih => exact ih.step hd hs

/-- **C107** In every schedule, whatever is on the disk: no thread ever sends to or receives from a channel whose other
end is gone, the loader does not panic, and it is there as long as the server may need it. -/
theorem C107_channels (hd : ∀ n, disk n → WellFormed n) (h : Threads.Reaches disk config es t) :
    t.failed = false ∧ t.loader ≠ .panicked ∧ (t.main = .loop → t.loader = .alive) :=
  have hs := sound hd h
  ⟨hs.ok, hs.unhurt, fun hm => hs.alive (.inl hm)⟩

/-- What is left to do for the loader. -/
private def work (r : Running) : Nat :=
  r.sending.length + ((r.server.loads.drop r.taken).map fun l => 2 * l.2.length + 2).sum

private def phase : MainThread → Nat
  | .loop => 4 | .leaving => 3 | .joining => 2 | .joined => 1 | .gone => 0

private def left (t : Threads) : Nat := work t.run + phase t.main + if t.loader = .alive then 1 else 0

private theorem left_lt (hd : ∀ n, disk n → WellFormed n) (h : Sound config es t) (hm : t.main ≠ .loop)
    {es' : List (ServerEvent × Orders)} {t' : Threads} (hs : Step disk t es' t') : left t' < left t ∧ t'.main ≠ .loop := by
  cases hs with
  | take version roots nodes msgs l1 l2 l3 l4 l5 l6 =>
    refine ⟨?_, hm⟩
    have hlt := (List.getElem?_eq_some_iff.1 l3)
    obtain ⟨hlt, he⟩ := hlt
    have hl := handle_length l6
    rw [List.length_zip, l4, Nat.min_self] at hl
    have hd' : t.run.server.loads.drop t.run.taken = (version, roots) :: t.run.server.loads.drop (t.run.taken + 1) := by
      rw [List.drop_eq_getElem_cons hlt, he]
    simp only [left, work, hd', l2, List.map_cons, List.sum_cons, List.length_nil, hl]
    omega
  | crash version roots nodes l1 l2 l3 l4 l5 l6 =>
    obtain ⟨msgs, hm⟩ := handle_total h.run l3 (nodes := nodes) (fun n hn => hd n (l5 n hn))
    rw [l6] at hm; cases hm
  | send m ms l1 l2 l3 =>
    refine ⟨?_, hm⟩
    simp only [left, work, l2, List.length_cons]
    omega
  | sendFails m ms l1 l2 l3 =>
    refine ⟨?_, hm⟩
    simp [left, l1]
  | stop l1 l2 l3 l4 =>
    refine ⟨?_, hm⟩
    simp [left, l1]
  | client e s l1 => exact absurd l1 hm
  | clientFails e s l1 => exact absurd l1 hm
  | receive first rest later o s l1 => exact absurd l1 hm
  | receiveFails l1 => exact absurd l1 hm
  | leave l1 => exact absurd l1 hm
  | dropSender l1 => exact ⟨by simp [left, l1, phase], by simp⟩
  | join l1 => exact ⟨by simp [left, l1, phase], by simp⟩
  | joinFails l1 => exact ⟨by simp [left, l1, phase], by simp⟩
  | dropReceiver l1 => exact ⟨by simp [left, l1, phase], by simp⟩

/-- **C107** Once the main loop is left, for whatever reason, the process comes to its end in every schedule: the number of steps
is bounded by the messages the loader has still to send, two for every path and two for every configuration it has not taken,
and four; there is a step until everything is dropped; and then the loader has looked at every library it was asked to
load, and has sent what it found. -/
theorem C107_ends (hd : ∀ n, disk n → WellFormed n) (hn : ∃ n, disk n) (h : Threads.Reaches disk config es t)
    (hm : t.main ≠ .loop) :
    (∀ n t', Steps disk t n t' → n ≤ t.run.sending.length +
      ((t.run.server.loads.drop t.run.taken).map fun l => 2 * l.2.length + 2).sum + 4) ∧
    (t.main ≠ .gone ↔ ∃ es' t', Step disk t es' t') ∧
    (t.main = .gone → t.loader = .ended ∧ t.run.taken = t.run.server.loads.length ∧ t.run.sending = []) := by
  have hs := sound hd h
  refine ⟨?_, ?_, ?_⟩
  · intro n t' hr
    have key : ∀ {t n t'}, Steps disk t n t' → ∀ {es}, Sound config es t → t.main ≠ .loop → n ≤ left t := by
      intro t n t' hr
      induction hr with
      | done => intro _ _ _; omega
      | step h1 _ ih =>
        intro es hs hm
        obtain ⟨h2, h3⟩ := left_lt hd hs hm h1
        have := ih (hs.step hd h1) h3
        omega
    have h1 := key hr hs hm
    have h2 : phase t.main ≤ 3 := by
      revert hm
      cases t.main <;> simp [phase]
    have h3 : (if t.loader = .alive then 1 else 0) ≤ 1 := by split <;> omega
    simp only [left, work] at h1
    omega
  · constructor
    · intro hg
      cases hp : t.main with
      | loop => exact absurd hp hm
      | gone => exact absurd hp hg
      | leaving => exact ⟨_, _, .dropSender t hp⟩
      | joined => exact ⟨_, _, .dropReceiver t hp⟩
      | joining =>
        cases hl : t.loader with
        | panicked => exact absurd hl hs.unhurt
        | ended => exact ⟨_, _, .join t hp hl⟩
        | alive =>
          cases hq : t.run.sending with
          | cons m ms => exact ⟨_, _, .send t m ms hl hq (by simp [receiverOpen, hp])⟩
          | nil =>
            by_cases ht : t.run.taken = t.run.server.loads.length
            · exact ⟨_, _, .stop t hl hq ht (by simp [senderOpen, hp])⟩
            · have hlt : t.run.taken < t.run.server.loads.length := by
                have := taken_le hs.run
                omega
              obtain ⟨n, hn⟩ := hn
              have hl' : t.run.server.loads[t.run.taken]? =
                  some (t.run.server.loads[t.run.taken].1, t.run.server.loads[t.run.taken].2) :=
                List.getElem?_eq_getElem hlt
              have hdn : ∀ m ∈ t.run.server.loads[t.run.taken].2.map (fun _ => n), disk m := by
                intro m hm
                obtain ⟨_, -, rfl⟩ := List.mem_map.1 hm
                exact hn
              obtain ⟨msgs, hmsg⟩ := handle_total hs.run hl' (fun m hm => hd m (hdn m hm))
              exact ⟨_, _, .take t _ _ _ msgs hl hq hl' (by simp) hdn hmsg⟩
    · rintro ⟨es', t', hst⟩ hg
      have he := hs.ended (.inr hg)
      cases hst <;> simp_all
  · intro hg
    have he := hs.ended (.inr hg)
    exact ⟨he, hs.finished he⟩

/-- **C107** While the main loop runs, the threads do exactly what C98 is about: the same states are reached with the
same events, so everything proved there holds here. -/
theorem C107_running (hd : ∀ n, disk n → WellFormed n) :
    (Threads.Reaches disk config es t → Running.Reaches config es t.run) ∧
    (∀ r, Running.Reaches config es r → (∀ l ∈ r.looks, disk l.2) →
      Threads.Reaches disk config es ⟨r, .loop, .alive, false⟩) := by
  refine ⟨fun h => (sound hd h).run, ?_⟩
  intro r h
  induction h with
  | start => exact fun _ => .start
  | client e s _ h2 h3 ih =>
    exact fun hl => .step (ih hl) (.client _ e s rfl h2 h3 (.inl rfl))
  | @inner es r es' r' _ h2 ih =>
    intro hl
    cases h2 with
    | take version roots nodes msgs l1 l2 l3 l4 =>
      refine .step (ih fun l h => hl l (by simp [h])) (.take _ version roots nodes msgs rfl l1 l2 l3 ?_ l4)
      intro n hn
      have hz : n ∈ (roots.zip nodes).map (·.2) := by rwa [List.map_snd_zip (by omega)]
      obtain ⟨l, h1, rfl⟩ := List.mem_map.1 hz
      exact hl l (by simp [h1])
    | send m ms l1 => exact .step (ih hl) (.send _ m ms rfl l1 rfl)
    | receive first rest later o s l1 l2 => exact .step (ih hl) (.receive _ first rest later o s rfl l1 l2)

/-! ### example -/

/-- The theorems apply: two libraries are loaded one after the other, the main loop is left, and the process ends. -/
example : ∃ (t : Threads) (es : List (ServerEvent × Orders)), Threads.Reaches WellFormed ⟨[]⟩ es t ∧
    t.run.looks.length = 3 ∧ t.main = .gone ∧ t.loader = .ended := by
  obtain ⟨es, r, h1, ⟨h2, h3, h4⟩, -, h5, -⟩ := C98_deleted_file_fails
  have hw : ∀ l ∈ r.looks, WellFormed l.2 := by
    have he : WellFormed (.dir []) := .dir _ (by simp) (by simp) (by simp)
    rw [h5]
    intro l hl
    simp only [List.mem_cons, List.not_mem_nil, or_false] at hl
    rcases hl with rfl | rfl | rfl
    · exact (oneFile_ok _).1
    · exact he
    · exact he
  have h6 := (C107_running (t := ⟨r, .loop, .alive, false⟩) fun _ h => h).2 r h1 hw
  have h7 := Reaches.step h6 (.leave _ rfl)
  have h8 := Reaches.step h7 (.dropSender _ rfl)
  have h9 := Reaches.step h8 (.stop _ rfl h3 h2 rfl)
  have h10 := Reaches.step h9 (.join _ rfl rfl)
  have h11 := Reaches.step h10 (.dropReceiver _ rfl)
  exact ⟨_, _, h11, by simp [h5], rfl, rfl⟩

end Verif
