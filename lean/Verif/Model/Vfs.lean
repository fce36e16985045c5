import Verif.Model.Text

/-
Model of crates/vfs/src/{lib,path_interner}.rs.  `none` is a panic.
-/
namespace Verif

/-- std `Path`, as a key: paths that are equal for Rust (`Path: Eq` compares components, so `/a//b` and
`/a/b` are equal) are the same `AbsPath`; the string stands for its list of components
(`Model/Paths.lean` models the components themselves). -/
abbrev AbsPath := String

/-- A byte string.  It is either valid UTF-8, and then determined by the text it encodes
(`String::into_bytes` and `String::from_utf8` are inverse to each other), or it is not. -/
inductive Bytes where
  | utf8 (t : Text)
  | invalid (b : List UInt8)
  deriving DecidableEq

namespace Bytes
/-- `String::from_utf8(bytes).ok()` -/
def toText : Bytes → Option Text
  | utf8 t => some t
  | invalid _ => none
end Bytes

/-- lib.rs:43-52, `ChangeKind`. -/
inductive ChangeKind where
  | create | modify | delete
  deriving DecidableEq, Repr

/-- lib.rs:21-28, `ChangedFile`. -/
structure ChangedFile where
  fileId : Nat
  kind : ChangeKind
  deriving DecidableEq, Repr

/-- lib.rs:14-19, `Vfs`; the interner is the list of interned paths (an `IndexSet`). -/
structure Vfs where
  paths : List AbsPath
  data : List (Option Bytes)
  changes : List ChangedFile

namespace Vfs

/-- `Vfs::default()` -/
def default : Vfs := ⟨[], [], []⟩

/-- path_interner.rs:17-19, `get` (`IndexSet::get_index_of`). -/
def internerGet (v : Vfs) (path : AbsPath) : Option Nat := v.paths.idxOf? path

/-- path_interner.rs:21-25, `intern` (`IndexSet::insert_full`): the interned paths afterwards and the id. -/
def intern (v : Vfs) (path : AbsPath) : Option (List AbsPath × Nat) :=
  let (paths, id) := match v.paths.idxOf? path with
    | some i => (v.paths, i)
    | none => (v.paths ++ [path], v.paths.length)
  if id < 4294967295 then some (paths, id) else none

/-- path_interner.rs:27-29, `lookup`. -/
def filePath (v : Vfs) (id : Nat) : Option AbsPath := v.paths[id]?

/-- lib.rs:63-65, `file_id`; the outer `Option` is a panic (index out of bounds). -/
def fileId (v : Vfs) (path : AbsPath) : Option (Option Nat) :=
  match v.internerGet path with
  | none => some none
  | some id =>
    match v.data[id]? with
    | none => none
    | some c => some (if c.isSome then some id else none)

/-- lib.rs:82-84, `file_contents`. -/
def fileContents (v : Vfs) (id : Nat) : Option Bytes :=
  match v.data[id]? with
  | some (some c) => some c
  | _ => none

/-- lib.rs:137-143, `alloc_file_id`. -/
def allocFileId (v : Vfs) (path : AbsPath) : Option (Vfs × Nat) :=
  match v.intern path with
  | none => none
  | some (paths, id) =>
    let len := max v.data.length (id + 1)
    some ({ v with paths, data := v.data ++ List.replicate (len - v.data.length) none }, id)

/-- lib.rs:105-118, `set_file_contents`. -/
def setFileContents (v : Vfs) (path : AbsPath) (contents : Option Bytes) : Option (Vfs × Bool) :=
  match v.allocFileId path with
  | none => none
  | some (v, id) =>
    match v.data[id]? with
    | none => none
    | some old =>
      match old, contents with
      | none, none => some (v, false)
      | none, some _ =>
        some ({ v with data := v.data.set id contents, changes := v.changes ++ [⟨id, .create⟩] }, true)
      | some _, none =>
        some ({ v with data := v.data.set id contents, changes := v.changes ++ [⟨id, .delete⟩] }, true)
      | some o, some n =>
        if o = n then some (v, false)
        else some ({ v with data := v.data.set id contents, changes := v.changes ++ [⟨id, .modify⟩] }, true)

/-- lib.rs:126-128, `take_changes`. -/
def takeChanges (v : Vfs) : Vfs × List ChangedFile := ({ v with changes := [] }, v.changes)

/-- lib.rs:89-97, `iter`. -/
def iter (v : Vfs) : Option (List (Nat × AbsPath)) :=
  ((List.range v.data.length).filter fun id => (v.fileContents id).isSome).mapM fun id =>
    (v.filePath id).map (id, ·)

end Vfs
end Verif
