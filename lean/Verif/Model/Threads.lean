import Verif.Model.Running

/-
Model of the two threads of the server and the channels between them, from the start to the end of the process:
lua-analyzer/src/global_state.rs:26-30 and 48-63, main_loop.rs:71-96, vfs/src/loader.rs:10-89.

Both channels are unbounded, so sending never waits; it fails if the receiver has been dropped, receiving fails
if all senders have been dropped and the channel is empty, and every such failure is unwrapped, that is, a panic.
When the main loop is left - by `exit`, by the end of the input, by an error or by a panic - the state of the server is
dropped, field by field.  The loader's handle is dropped before the receiver of its messages
(`Handle`, "Enforces drop order"), and in the handle the sender (loader.rs:12) before the thread (loader.rs:13), which
is joined when it is dropped (`jod_thread`); joining a thread that has panicked is a panic.

Left out: the threads of lsp_server that read and write the messages, and the pool (it is empty whenever the
main thread is not waiting for it).
-/
namespace Verif

/-- Where the main thread is. -/
inductive MainThread where
  /-- main_loop.rs:72-80 -/
  | loop
  /-- the loop has been left, the loader's handle is next to be dropped -/
  | leaving
  /-- the sender in the handle has been dropped, the thread is being joined -/
  | joining
  /-- the thread has been joined, the receiver is next to be dropped -/
  | joined
  /-- the receiver has been dropped -/
  | gone
  deriving DecidableEq, Repr

/-- Where the loader's thread is. -/
inductive LoaderThread where
  | alive | ended | panicked
  deriving DecidableEq, Repr

structure Threads where
  run : Running
  main : MainThread
  loader : LoaderThread
  /-- sending, receiving or joining has failed in the main thread -/
  failed : Bool

namespace Threads

/-- The server can still send to the loader. -/
def senderOpen (t : Threads) : Bool := t.main == .loop || t.main == .leaving

/-- The loader can still send to the server. -/
def receiverOpen (t : Threads) : Bool := t.main != .gone

/-- A step of one of the threads, with the event the server handles in it, if any.  `disk`: what may be found on the
disk. -/
inductive Step (disk : Loader.Node → Prop) : Threads → List (ServerEvent × Orders) → Threads → Prop
  /-- loader.rs:61-68: the loader receives a configuration and looks at its entries; what the channel holds is received even if
  the sender has been dropped -/
  | take (t : Threads) (version : Nat) (roots : List AbsPath) (nodes : List Loader.Node) (msgs : List LoaderMsg) :
      t.loader = .alive → t.run.sending = [] → t.run.server.loads[t.run.taken]? = some (version, roots) →
      nodes.length = roots.length → (∀ n ∈ nodes, disk n) →
      Loader.handle (.config version ((roots.zip nodes).map fun l => (l.1.toList, l.2))) = some msgs →
      Step disk t [] { t with run := { t.run with
        taken := t.run.taken + 1, looks := t.run.looks ++ roots.zip nodes, sending := msgs } }
  /-- loader.rs:98: the loader panics -/
  | crash (t : Threads) (version : Nat) (roots : List AbsPath) (nodes : List Loader.Node) :
      t.loader = .alive → t.run.sending = [] → t.run.server.loads[t.run.taken]? = some (version, roots) →
      nodes.length = roots.length → (∀ n ∈ nodes, disk n) →
      Loader.handle (.config version ((roots.zip nodes).map fun l => (l.1.toList, l.2))) = none →
      Step disk t [] { t with loader := .panicked }
  /-- loader.rs:117-119, global_state.rs:51-52: the loader sends a message -/
  | send (t : Threads) (m : LoaderMsg) (ms : List LoaderMsg) :
      t.loader = .alive → t.run.sending = m :: ms → t.receiverOpen = true →
      Step disk t [] { t with run := { t.run with sending := ms, queue := t.run.queue ++ [m] } }
  /-- ... which fails if nobody can receive it -/
  | sendFails (t : Threads) (m : LoaderMsg) (ms : List LoaderMsg) :
      t.loader = .alive → t.run.sending = m :: ms → t.receiverOpen = false →
      Step disk t [] { t with loader := .panicked }
  /-- loader.rs:55-62: there is nothing to receive any more -/
  | stop (t : Threads) :
      t.loader = .alive → t.run.sending = [] → t.run.taken = t.run.server.loads.length → t.senderOpen = false →
      Step disk t [] { t with loader := .ended }
  /-- main_loop.rs:86-91: a message of the client, or a finished task; loader.rs:33-35: giving the loader a
  configuration fails if it is not there any more -/
  | client (t : Threads) (e : ServerEvent × Orders) (s : Server) :
      t.main = .loop → (∀ first rest, e.1 ≠ .loader first rest) →
      Server.handleEvent diagnosticsOf t.run.server e = some s →
      (t.loader = .alive ∨ s.loads = t.run.server.loads) →
      Step disk t [e] { t with run := { t.run with server := s } }
  | clientFails (t : Threads) (e : ServerEvent × Orders) (s : Server) :
      t.main = .loop → (∀ first rest, e.1 ≠ .loader first rest) →
      Server.handleEvent diagnosticsOf t.run.server e = some s →
      t.loader ≠ .alive → s.loads ≠ t.run.server.loads →
      Step disk t [] { t with main := .leaving, failed := true }
  /-- main_loop.rs:93-94 and 162-185: the server receives some messages in one turn -/
  | receive (t : Threads) (first : LoaderMsg) (rest later : List LoaderMsg) (o : Orders) (s : Server) :
      t.main = .loop → t.run.queue = first :: rest ++ later →
      Server.handleEvent diagnosticsOf t.run.server (.loader first rest, o) = some s →
      Step disk t [(.loader first rest, o)] { t with run := { t.run with server := s, queue := later } }
  /-- main_loop.rs:94: receiving fails if there is nothing to receive and nobody to send it -/
  | receiveFails (t : Threads) :
      t.main = .loop → t.run.queue = [] → t.loader ≠ .alive →
      Step disk t [] { t with main := .leaving, failed := true }
  /-- main_loop.rs:72-82: the loop is left, for whatever reason -/
  | leave (t : Threads) : t.main = .loop → Step disk t [] { t with main := .leaving }
  /-- loader.rs:12 -/
  | dropSender (t : Threads) : t.main = .leaving → Step disk t [] { t with main := .joining }
  /-- loader.rs:13 -/
  | join (t : Threads) : t.main = .joining → t.loader = .ended → Step disk t [] { t with main := .joined }
  | joinFails (t : Threads) : t.main = .joining → t.loader = .panicked →
      Step disk t [] { t with main := .joined, failed := true }
  /-- global_state.rs:29 -/
  | dropReceiver (t : Threads) : t.main = .joined → Step disk t [] { t with main := .gone }

/-- The states reached from the start, with the events the server has handled. -/
inductive Reaches (disk : Loader.Node → Prop) (config : Config) : List (ServerEvent × Orders) → Threads → Prop
  | start : Reaches disk config [] ⟨Running.start config, .loop, .alive, false⟩
  | step {es t es' t'} : Reaches disk config es t → Step disk t es' t' → Reaches disk config (es ++ es') t'

end Threads
end Verif
