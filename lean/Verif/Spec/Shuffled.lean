import Verif.Model.Server

/-
Two sequences of messages that differ only in the order in which documents are published together.
-/
namespace Verif.Spec

/-- The document a message publishes diagnostics for. -/
def publishes : Msg → Option Uri
  | .publishDiagnostics uri _ _ => some uri
  | _ => none

/-- The same messages in the same order, except that a run of publications for different documents may come in
another order. -/
inductive Shuffled : List Msg → List Msg → Prop where
  | nil : Shuffled [] []
  | message {a b : List Msg} (m : Msg) : Shuffled a b → Shuffled (a ++ [m]) (b ++ [m])
  | publications {a b ps qs : List Msg} : Shuffled a b → ps.Perm qs → (ps.map publishes).Nodup →
      (∀ m ∈ ps, publishes m ≠ none) → Shuffled (a ++ ps) (b ++ qs)

end Verif.Spec
