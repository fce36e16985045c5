import Verif.Model.Text

/-
Model of crates/stdx/src/paths.rs on Unix.  A path is its text (std `Path` on Unix: the bytes; here
characters, i.e. valid UTF-8: separators and dots are ASCII, so other bytes are treated alike).
The std functions are modelled from the source of `std::path` (library/std/src/path.rs), for Unix,
where there are no prefixes.  `none` is a panic.
-/
namespace Verif.Paths

/-- std `Component` without `Prefix`. -/
inductive Component where
  | rootDir | curDir | parentDir
  | normal (name : Text)
  deriving DecidableEq, Repr

/-- std `Component::as_os_str` -/
def Component.asStr : Component → Text
  | rootDir => ['/']
  | curDir => ['.']
  | parentDir => ['.', '.']
  | normal name => name

/-- std `Path::has_root`, which is `Path::is_absolute` on Unix. -/
def isAbsolute (p : Text) : Bool := p.head? == some '/'

/-- std `Components::parse_single_component`: `.` and the empty name are no components. -/
def parseSingle (name : Text) : Option Component :=
  if name = ['.'] then none
  else if name = ['.', '.'] then some .parentDir
  else if name = [] then none
  else some (.normal name)

/-- The text up to the first separator, and the text after it (if there is one). -/
def splitFront : Text → Text × Option Text
  | [] => ([], none)
  | c :: cs =>
    if c = '/' then ([], some cs)
    else
      let (name, rest) := splitFront cs
      (c :: name, rest)

/-- std `Components::next` in the body of the path: `parse_next_component` until the end. -/
def bodyFuel : Nat → Text → List Component
  | 0, _ => []
  | fuel + 1, p =>
    match splitFront p with
    | (name, none) => (parseSingle name).toList
    | (name, some rest) => (parseSingle name).toList ++ bodyFuel fuel rest

/-- the same with enough fuel: every turn but the last removes a separator -/
def bodyComponents (p : Text) : List Component := bodyFuel (p.length + 1) p

/-- std `Components::include_cur_dir`: a leading `.` is a component of a relative path. -/
def includeCurDir (p : Text) : Bool :=
  !isAbsolute p && (p == ['.'] || ['.', '/'].isPrefixOf p)

/-- std `Path::components` -/
def components (p : Text) : List Component :=
  if isAbsolute p then .rootDir :: bodyComponents (p.drop 1)
  else if includeCurDir p then .curDir :: bodyComponents (p.drop 1)
  else bodyComponents p

/-- std `PathBuf::push` -/
def push (buf path : Text) : Text :=
  if isAbsolute path then path
  else if buf ≠ [] ∧ buf.getLast? ≠ some '/' then buf ++ '/' :: path
  else buf ++ path

/-- std `Components::len_before_body` -/
def lenBeforeBody (p : Text) : Nat := if isAbsolute p || includeCurDir p then 1 else 0

/-- std `Components::parse_next_component_back`, on the body of the path in reverse: the last component and
what is left of the (reversed) body without it and without its separator. -/
def lastReversed (body : Text) : Option Component × Text :=
  let (name, rest) := splitFront body
  (parseSingle name.reverse, rest.getD [])

/-- std `Components::trim_right`, on the body of the path in reverse. -/
def trimRight : Nat → Text → Text
  | 0, body => body
  | fuel + 1, body =>
    if body = [] then []
    else match lastReversed body with
      | (some _, _) => body
      | (none, rest) => trimRight fuel rest

/-- std `Components::next_back` in the body, in reverse: `none` if there is no component left in the body. -/
def nextBack : Nat → Text → Option Text
  | 0, _ => none
  | fuel + 1, body =>
    if body = [] then none
    else match lastReversed body with
      | (some _, rest) => some rest
      | (none, rest) => nextBack fuel rest

/-- std `Path::parent`: `None` for the root and for the empty path. -/
def parent (p : Text) : Option Text :=
  let start := p.take (lenBeforeBody p)
  let body := (p.drop (lenBeforeBody p)).reverse
  match nextBack (body.length + 1) body with
  | some rest => some (start ++ (trimRight (rest.length + 1) rest).reverse)
  | none => if includeCurDir p then some [] else none

/-- std `PathBuf::pop`: truncates to the length of the parent, of which the path is an extension. -/
def pop (p : Text) : Text :=
  match parent p with
  | some q => p.take q.length
  | none => p

/-- paths.rs:260-274, one component. -/
def normalizeStep (ret : Text) : Component → Text
  | .rootDir => push ret Component.rootDir.asStr
  | .curDir => ret
  | .parentDir => pop ret
  | .normal c => push ret c

/-- paths.rs:251-276, `normalize_path` (there are no prefixes on Unix). -/
def normalizePath (p : Text) : Text := (components p).foldl normalizeStep []

/-- paths.rs:116-136, `AbsPath::assert` and `TryFrom<&Path>`, on an absolute path the identity. -/
def absAssert (p : Text) : Option Text := if isAbsolute p then some p else none

/-- paths.rs:159-161, `AbsPath::normalize`; nothing is checked. -/
def absNormalize (p : Text) : Text := normalizePath p

/-- paths.rs:138-140, `AbsPath::parent`: the outer `Option` is the panic of the assertion. -/
def absParent (p : Text) : Option (Option Text) :=
  match parent p with
  | none => some none
  | some q => (absAssert q).map some

/-- paths.rs:143-145, `AbsPath::join`: `try_into().unwrap()`. -/
def absJoin (p q : Text) : Option Text := absAssert (push p q)

/-- paths.rs:91-93, `AbsPathBuf::pop` (std `PathBuf::pop`): whether there was a parent, and the path afterwards. -/
def absPop (p : Text) : Bool × Text :=
  match parent p with
  | some q => (true, p.take q.length)
  | none => (false, p)

/-- std `Components::next` in the body of the path: the next component and what is left. -/
def nextFront : Nat → Text → Option (Component × Text)
  | 0, _ => none
  | fuel + 1, p =>
    if p = [] then none
    else
      let (name, rest) := splitFront p
      match parseSingle name with
      | some c => some (c, rest.getD [])
      | none => nextFront fuel (rest.getD [])

/-- std `Components::trim_left` -/
def trimLeft : Nat → Text → Text
  | 0, p => p
  | fuel + 1, p =>
    if p = [] then []
    else
      let (name, rest) := splitFront p
      match parseSingle name with
      | some _ => p
      | none => trimLeft fuel (rest.getD [])

/-- std `Components`, read from the front: has the start been read, and what is left of the path? -/
structure Front where
  started : Bool
  path : Text
  deriving DecidableEq, Repr

/-- std `Components::next` -/
def Front.next (f : Front) : Option (Component × Front) :=
  if f.started then (nextFront (f.path.length + 1) f.path).map fun (c, rest) => (c, ⟨true, rest⟩)
  else if isAbsolute f.path then some (.rootDir, ⟨true, f.path.drop 1⟩)
  else if includeCurDir f.path then some (.curDir, ⟨true, f.path.drop 1⟩)
  else (nextFront (f.path.length + 1) f.path).map fun (c, rest) => (c, ⟨true, rest⟩)

/-- std `Components::as_path` -/
def Front.asPath (f : Front) : Text :=
  if f.started then
    let path := trimLeft (f.path.length + 1) f.path
    (trimRight (path.length + 1) path.reverse).reverse
  else
    let start := f.path.take (lenBeforeBody f.path)
    let body := (f.path.drop (lenBeforeBody f.path)).reverse
    start ++ (trimRight (body.length + 1) body).reverse

/-- std::path `iter_after`: skips the components of the prefix. -/
def iterAfter (f : Front) : List Component → Option Front
  | [] => some f
  | y :: ys =>
    match f.next with
    | some (x, f') => if x = y then iterAfter f' ys else none
    | none => none

/-- paths.rs:171-173, `AbsPath::strip_prefix` (std `Path::strip_prefix`); the result is not checked to be relative
(`RelPath::new_unchecked`, paths.rs:246-248). -/
def stripPrefix (p base : Text) : Option Text := (iterAfter ⟨false, p⟩ (components base)).map Front.asPath

/-- std `PathBuf::set_extension`-free part used by the loader: `Path::file_name`. -/
def fileName (p : Text) : Option Text :=
  match (components p).getLast? with
  | some (.normal name) => some name
  | _ => none

/-- std `Path::extension` (`rsplit_file_at_dot`): what follows the last dot of the file name, unless the dot is its
first character or there is none (`..` is not a file name). -/
def extension (p : Text) : Option Text :=
  match fileName p with
  | none => none
  | some name =>
    let after := name.reverse.takeWhile (· ≠ '.')
    let before := (name.reverse.dropWhile (· ≠ '.')).drop 1
    if after.length = name.length ∨ before = [] then none else some after.reverse

end Verif.Paths
