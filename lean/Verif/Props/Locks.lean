import Verif.Spec.Locks
import Verif.Props.Server

/-
C106: the server never waits for itself.
-/
namespace Verif
open Spec

/-- Granted from nothing to nothing. -/
private def Free (ops : List LockOp) : Prop := GrantedAll .nothing ops .nothing

private theorem Free.append {a b : List LockOp} (ha : Free a) (hb : Free b) : Free (a ++ b) := by
  have key : ∀ {h a h'}, GrantedAll h a h' → ∀ {h''}, GrantedAll h' b h'' → GrantedAll h (a ++ b) h'' := by
    intro h a h' h1
    induction h1 with
    | nil => exact id
    | cons g _ ih => exact fun h2 => .cons g (ih h2)
  exact key ha hb

private theorem Free.nil : Free [] := GrantedAll.nil _

private theorem Free.flatMap {α : Type} {f : α → List LockOp} (hf : ∀ a, Free (f a)) : ∀ l : List α, Free (l.flatMap f)
  | [] => .nil
  | a :: l => by rw [List.flatMap_cons]; exact (hf a).append (Free.flatMap hf l)

private theorem Free.reads : Free [.read, .readDone] := .cons (.read rfl) (.cons (.readDone rfl) (.nil _))
private theorem Free.writes : Free [.write, .writeDone] := .cons (.write rfl rfl) (.cons (.writeDone rfl) (.nil _))
private theorem Free.snapshots : Free [.snapshot, .snapshotDone] := .cons .snapshot (.cons (.snapshotDone rfl) (.nil _))
private theorem Free.sets : Free [.setDb] := .cons (.setDb rfl) (.nil _)

private theorem update_free (s : Server) : Free s.updateLocks :=
  (Free.flatMap (fun _ => .reads) _).append .snapshots

private theorem dispatch_free (s : Server) (e : ServerEvent) : Free (s.dispatchLocks e) := by
  unfold Server.dispatchLocks
  split
  · split
    · exact .nil
    · split
      · split
        · exact .snapshots
        · exact .nil
      · exact .nil
  · refine Free.writes.append ?_
    split
    · exact update_free _
    · exact .nil
  · split
    · exact .writes
    · exact .nil
  · refine Free.flatMap (fun m => ?_) _
    cases m
    · exact .nil
    · exact .writes
  · exact .nil

private theorem finish_free (diag : Text → Option (List Diag)) (o : Orders) (s : Server) :
    Free (s.finishLocks diag o) := by
  refine Free.append (Free.writes.append ?_) ?_
  · split
    · exact .nil
    · exact .sets
  · split
    · exact .nil
    · refine Free.append ?_ ?_
      · split
        · exact update_free _
        · exact .nil
      · split
        · exact .nil
        · unfold Server.publishLocks
          split
          · exact .nil
          · exact Free.flatMap (fun _ => .reads) _

/-- **C106** Whatever happens, the server never waits for a lock it holds itself, nor for a snapshot of its own, and it
holds nothing between two events. -/
theorem C106_never_waits (config : Config) (es : List (ServerEvent × Orders)) :
    GrantedAll .nothing (Server.historyLocks diagnosticsOf (.new config) es) .nothing := by
  generalize Server.new config = s
  induction es generalizing s with
  | nil => exact .nil _
  | cons e es ih =>
    refine Free.append (Free.append (dispatch_free s e.1) ?_) ?_
    · split
      · exact .nil
      · exact finish_free _ _ _
    · split
      · exact .nil
      · exact ih _

/-! ### examples -/

/-- A document is opened, found unchanged when it is opened again, and a completion is asked for. -/
private def sampleTurns : List (ServerEvent × Orders) :=
  [(.didOpen (.file "/a.lua") 1 [], .plain), (.didOpen (.file "/a.lua") 2 [], .plain),
    (.request (.int 1) .completion true, .plain)]

/-- The operations of three events; the diagnostics are updated in the first, because the Vfs has changed, and in the
second, because it has not. -/
example : (Server.historyLocks diagnosticsOf (.new ⟨[]⟩) sampleTurns).length = 21 := by
  rw [diagnosticsOf_table noText_diagnostics]
  decide +kernel

/-- What the theorem excludes: updating the diagnostics while the Vfs is locked for writing ... -/
example : ¬ ∃ h, GrantedAll .nothing [.write, .read, .readDone, .writeDone] h := by
  rintro ⟨h, h1⟩
  cases h1 with
  | cons g1 h1 => cases g1; cases h1 with
    | cons g2 h1 => cases g2 with
      | read h2 => cases h2

/-- ... or changing the database while a task has a snapshot of it. -/
example : ¬ ∃ h, GrantedAll .nothing [.snapshot, .setDb, .snapshotDone] h := by
  rintro ⟨h, h1⟩
  cases h1 with
  | cons g1 h1 => cases g1; cases h1 with
    | cons g2 h1 => cases g2 with
      | setDb h2 => cases h2

end Verif
