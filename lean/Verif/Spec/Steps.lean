import Verif.Model.Grammar
import Verif.Model.Sink

/-
How much work the parser does.
-/
namespace Verif

/-- The number of calls of the parser's API (looking at a token, taking one, starting or finishing a node, reporting an
error: crates/parser/src/parser.rs) that a program makes. -/
def Prog.steps {α : Type} : Prog α → PState → Nat
  | .pure _, _ => 0
  | .nth n k, s => 1 + (k (lookahead s.toks n)).steps s
  | .advance k, s =>
    1 + if lookahead s.toks 0 = .eof then (k false).steps { s with events := s.events ++ [.token] }
      else (k true).steps { toks := s.toks.tail, events := s.events ++ [.token] }
  | .start k, s => 1 + (k s.events.length).steps { s with events := s.events ++ [Event.tombstone] }
  | .complete m kind k, s =>
    1 + match s.events[m]? with
      | some (.start _ fp) => k.steps { s with events := s.events.set m (.start kind fp) ++ [.finish] }
      | _ => 0
  | .precede cm k, s =>
    1 + match (s.events ++ [Event.tombstone])[cm]? with
      | some (.start kind _) =>
        (k s.events.length).steps
          { s with events := (s.events ++ [Event.tombstone]).set cm (.start kind (some (s.events.length - cm))) }
      | _ => 0
  | .startError k, s => 1 + (k s.events.length).steps { s with events := s.events ++ [.startError] }
  | .completeError m e k, s =>
    1 + match s.events[m]? with
      | some .startError => k.steps { s with events := s.events ++ [.finishError e] }
      | _ => 0
  | .error e k, s => 1 + k.steps { s with events := s.events ++ [.error e] }
  | .panic, _ => 0
  | .outOfFuel, _ => 0

namespace Green
mutual
/-- the number of nodes of a tree -/
def nodeCount : Green → Nat
  | .token _ _ => 0
  | .node _ cs => 1 + nodeCountL cs
def nodeCountL : List Green → Nat
  | [] => 0
  | g :: gs => nodeCount g + nodeCountL gs
end
end Green

end Verif
