import Verif.Model.Server
import Verif.Model.Paths

/-
Model of crates/vfs/src/loader.rs: the file loader.  `none` is a panic.

What the disk holds below a path is a tree; it may be another one each time the loader looks.  `WalkDir`
(following links) yields a directory before its entries; what it cannot read or follow is an error entry.
-/
namespace Verif.Loader

/-- What a path denotes when it is looked at, links followed. -/
inductive Node where
  /-- a regular file; `none`: it cannot be read -/
  | file (contents : Option Bytes)
  | dir (entries : List (Text × Node))
  /-- neither a regular file nor a directory -/
  | special
  /-- it does not exist, it cannot be accessed, or it is a link to one of the directories above it -/
  | error

mutual
/-- `WalkDir::new(root).follow_links(true)`, errors left out: the paths with the nodes they lead to. -/
def walk (path : Text) : Node → List (Text × Node)
  | .error => []
  | .dir entries => (path, .dir entries) :: walkL path entries
  | node => [(path, node)]
def walkL (path : Text) : List (Text × Node) → List (Text × Node)
  | [] => []
  | (name, node) :: entries => walk (Paths.push path name) node ++ walkL path entries
end

/-- loader.rs:96-107, one entry of the walk: the path of a file to load, with its contents (loader.rs:109-112 and
122-124); `Option` outside: the panic of `AbsPathBuf::assert`. -/
def loadOne (path : Text) (node : Node) : Option (Option (AbsPath × Option Bytes)) :=
  match Paths.absAssert path with
  | none => none
  | some absPath =>
    match node with
    | .file contents =>
      if (Paths.extension absPath).getD [] ≠ "lua".toList then some none
      else some (some (String.ofList absPath, contents))
    | _ => some none

/-- loader.rs:91-115, `load_entry`. -/
def loadEntry (root : Text) (disk : Node) : Option (List (AbsPath × Option Bytes)) :=
  ((walk root disk).mapM fun e => loadOne e.1 e.2).map (·.filterMap id)

/-- loader.rs:72-80, the loop over the entries from the `i`-th on. -/
def loadEntries (nTotal configVersion : Nat) : Nat → List (Text × Node) → Option (List LoaderMsg)
  | _, [] => some []
  | i, (root, disk) :: entries =>
    match loadEntry root disk, loadEntries nTotal configVersion (i + 1) entries with
    | some files, some rest =>
      some (.loaded files :: .progress nTotal (i + 1) configVersion :: rest)
    | _, _ => none

/-- loader.rs:16-20, `Message`, with what the disk holds when it is handled. -/
inductive Message where
  | config (version : Nat) (load : List (Text × Node))
  | invalidate (path : Text) (disk : Node)

/-- loader.rs:65-87, the messages sent for one message received. -/
def handle : Message → Option (List LoaderMsg)
  | .config version load =>
    (loadEntries load.length version 0 load).map (.progress load.length 0 version :: ·)
  | .invalidate path disk =>
    let contents := match disk with
      | .file contents => contents
      | _ => none
    some [.loaded [(String.ofList path, contents)]]

/-- loader.rs:61-89, `run`: the messages sent for the messages received, in order. -/
def run (inbox : List Message) : Option (List LoaderMsg) := (inbox.mapM handle).map List.flatten

end Verif.Loader
