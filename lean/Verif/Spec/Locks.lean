import Verif.Model.Locks

/-
Locks as they are: a lock for readers and writers, which one thread asks for, and a database with snapshots.
-/
namespace Verif.Spec

/-- Who holds what. -/
structure Held where
  readers : Nat
  writers : Nat
  snapshots : Nat
  deriving DecidableEq, Repr

/-- Nothing is held. -/
def Held.nothing : Held := ⟨0, 0, 0⟩

/-- An operation is carried out at once: a reader needs that nobody writes, a writer that nobody reads or writes, the
database is written only if there is no snapshot.  Otherwise the thread waits. -/
inductive Granted : Held → LockOp → Held → Prop
  | read {h} : h.writers = 0 → Granted h .read { h with readers := h.readers + 1 }
  | readDone {h n} : h.readers = n + 1 → Granted h .readDone { h with readers := n }
  | write {h} : h.readers = 0 → h.writers = 0 → Granted h .write { h with writers := 1 }
  | writeDone {h n} : h.writers = n + 1 → Granted h .writeDone { h with writers := n }
  | snapshot {h} : Granted h .snapshot { h with snapshots := h.snapshots + 1 }
  | snapshotDone {h n} : h.snapshots = n + 1 → Granted h .snapshotDone { h with snapshots := n }
  | setDb {h} : h.snapshots = 0 → Granted h .setDb h

/-- All the operations are carried out at once, one after the other. -/
inductive GrantedAll : Held → List LockOp → Held → Prop
  | nil (h) : GrantedAll h [] h
  | cons {h op h' ops h''} : Granted h op h' → GrantedAll h' ops h'' → GrantedAll h (op :: ops) h''

end Verif.Spec
