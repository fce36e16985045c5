import Verif.Model.Diagnostics
import Verif.Model.Loader

/-
Model of the server together with its file loader: two threads and two unbounded channels
(lua-analyzer/src/global_state.rs:49-56, vfs/src/loader.rs:23-31).

The loader looks at the entries of a configuration one after the other and sends as it goes; here all looks of a
configuration are taken when it is, and the messages are sent afterwards one by one.  Nothing else depends on when a
look happens, and every look may find another disk, so no behaviour is lost.
-/
namespace Verif

/-- The state of the server with its loader. -/
structure Running where
  server : Server
  /-- how many of the configurations given to the loader (`server.loads`) it has taken -/
  taken : Nat
  /-- everything the loader has looked at so far: the entries with what was there -/
  looks : List (AbsPath × Loader.Node)
  /-- what the loader has still to send for the configuration it has taken last -/
  sending : List LoaderMsg
  /-- what the loader has sent and the server has not received: `loader.receiver` -/
  queue : List LoaderMsg

namespace Running

/-- lua-analyzer/src/main_loop.rs:66-68: the server has just been started. -/
def start (config : Config) : Running := ⟨.new config, 0, [], [], []⟩

/-- A step in which the client has no part, with the event the server handles in it, if any. -/
inductive Inner : Running → List (ServerEvent × Orders) → Running → Prop
  /-- vfs/src/loader.rs:61-81: the loader takes the next configuration and looks at its entries -/
  | take (r : Running) (version : Nat) (roots : List AbsPath) (nodes : List Loader.Node) (msgs : List LoaderMsg) :
      r.sending = [] → r.server.loads[r.taken]? = some (version, roots) → nodes.length = roots.length →
      Loader.handle (.config version ((roots.zip nodes).map fun l => (l.1.toList, l.2))) = some msgs →
      Inner r [] { r with taken := r.taken + 1, looks := r.looks ++ roots.zip nodes, sending := msgs }
  /-- vfs/src/loader.rs:117-119: the loader sends a message -/
  | send (r : Running) (m : LoaderMsg) (ms : List LoaderMsg) :
      r.sending = m :: ms → Inner r [] { r with sending := ms, queue := r.queue ++ [m] }
  /-- lua-analyzer/src/main_loop.rs:93-94 and 162-185: the server receives some messages in one turn -/
  | receive (r : Running) (first : LoaderMsg) (rest later : List LoaderMsg) (o : Orders) (s : Server) :
      r.queue = first :: rest ++ later → Server.handleEvent diagnosticsOf r.server (.loader first rest, o) = some s →
      Inner r [(.loader first rest, o)] { r with server := s, queue := later }

/-- The states reached from the start, with the events the server has handled. -/
inductive Reaches (config : Config) : List (ServerEvent × Orders) → Running → Prop
  | start : Reaches config [] (start config)
  /-- lua-analyzer/src/main_loop.rs:86-91: a message of the client, or a finished task -/
  | client {es r} (e : ServerEvent × Orders) (s : Server) : Reaches config es r →
      (∀ first rest, e.1 ≠ .loader first rest) → Server.handleEvent diagnosticsOf r.server e = some s →
      Reaches config (es ++ [e]) { r with server := s }
  | inner {es r es' r'} : Reaches config es r → Inner r es' r' → Reaches config (es ++ es') r'

/-- Nothing is under way: the loader has taken all configurations and the server has received all its messages. -/
def Quiet (r : Running) : Prop := r.taken = r.server.loads.length ∧ r.sending = [] ∧ r.queue = []

end Running
end Verif
