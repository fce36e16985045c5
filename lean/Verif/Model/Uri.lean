import Verif.Model.Paths

/-
Model of crates/lua-analyzer/src/from_proto.rs:9-12 (`abs_path`) and to_proto.rs:26-57 (`url_from_abs_path`) on
Unix.  The functions of the url crate (2.2.1) and of percent-encoding (2.1.0) they call are modelled from the
source of those crates.  Bytes are characters below 256, so that a path (on Unix: any bytes) is a `Text` and the
model of `std::path` in Model/Paths.lean applies.  The parser of URLs is not modelled: a `Url` is any value of
this structure.
-/
namespace Verif.Uri

/-- url::Url, as far as these functions look at it: `query` stands for everything after the path. -/
structure Url where
  scheme : Text
  host : Option Text
  path : Text
  query : Text
  deriving DecidableEq, Repr

/-- char::to_digit(16), on a byte -/
def hexValue (c : Char) : Option Nat :=
  if '0' ≤ c ∧ c ≤ '9' then some (c.toNat - '0'.toNat)
  else if 'a' ≤ c ∧ c ≤ 'f' then some (c.toNat - 'a'.toNat + 10)
  else if 'A' ≤ c ∧ c ≤ 'F' then some (c.toNat - 'A'.toNat + 10)
  else none

/-- percent_encoding::percent_decode: `%` and two hexadecimal digits are a byte, anything else is itself
(`after_percent_sign`). -/
def percentDecode : Text → Text
  | [] => []
  | '%' :: h :: l :: rest =>
    match hexValue h, hexValue l with
    | some a, some b => Char.ofNat (a * 16 + b) :: percentDecode rest
    | _, _ => '%' :: percentDecode (h :: l :: rest)
  | c :: rest => c :: percentDecode rest

/-- percent_encoding::percent_encode_byte: the table of `%00` to `%FF`. -/
def percentEncodeByte (c : Char) : Text :=
  let digit (n : Nat) : Char := if n < 10 then Char.ofNat ('0'.toNat + n) else Char.ofNat ('A'.toNat + n - 10)
  ['%', digit (c.toNat / 16), digit (c.toNat % 16)]

/-- url::parser::PATH_SEGMENT, and AsciiSet::should_percent_encode: the controls, the bytes that are not ASCII, the
set FRAGMENT, the set PATH, and `/` and `%`. -/
def shouldEncode (c : Char) : Bool :=
  c.toNat < 0x20 || c.toNat == 0x7F || c.toNat ≥ 0x80
    || [' ', '"', '<', '>', '`'].contains c
    || ['#', '?', '{', '}'].contains c
    || ['/', '%'].contains c

/-- percent_encoding::percent_encode(_, PATH_SEGMENT) -/
def percentEncode (s : Text) : Text :=
  s.flatMap fun c => if shouldEncode c then percentEncodeByte c else [c]

/-- str::split('/') -/
def splitSlash (p : Text) : List Text :=
  p.foldr (fun c acc => if c = '/' then [] :: acc else
    match acc with
    | s :: ss => (c :: s) :: ss
    | [] => [[c]]) [[]]

/-- url::Url::path_segments: `None` for a URL that cannot be a base, whose path does not start with a `/`. -/
def pathSegments (u : Url) : Option (List Text) :=
  match u.path with
  | '/' :: rest => some (splitSlash rest)
  | _ => none

/-- url: is the byte a letter? -/
def isLetter (c : Char) : Bool := ('a' ≤ c && c ≤ 'z') || ('A' ≤ c && c ≤ 'Z')

/-- url::file_url_segments_to_pathbuf (Unix): what looks like a drive letter at the end gets a `/`. -/
def segmentsToPath (segments : List Text) : Text :=
  let bytes := segments.flatMap fun s => '/' :: percentDecode s
  match bytes.reverse with
  | colon :: letter :: _ :: _ =>
    if isLetter letter && (colon == ':' || colon == '|') then bytes ++ ['/'] else bytes
  | _ => bytes

/-- url::Url::to_file_path (Unix): the scheme is not looked at; the host must be absent or `localhost`. -/
def toFilePath (u : Url) : Option Text :=
  match pathSegments u with
  | some segments =>
    match u.host with
    | none => some (segmentsToPath segments)
    | some h => if h = "localhost".toList then some (segmentsToPath segments) else none
  | none => none

/-- url::Url::from_file_path and path_to_file_url_segments (Unix): every component after the root. -/
def fromFilePath (p : Text) : Option Url :=
  if Paths.isAbsolute p then
    let names := ((Paths.components p).drop 1).map Paths.Component.asStr
    let path := names.flatMap fun n => '/' :: percentEncode n
    some { scheme := "file".toList, host := none, path := if names = [] then ['/'] else path, query := [] }
  else none

/-- paths.rs:45-53, `TryFrom<PathBuf> for AbsPathBuf`. -/
def tryFrom (p : Text) : Option Text := if Paths.isAbsolute p then some p else none

/-- from_proto.rs:9-12, `abs_path`: the outer `none` is the panic of `unwrap`, the inner one the error
"url is not a file". -/
def absPath (u : Url) : Option (Option Text) :=
  match toFilePath u with
  | none => some none
  | some p =>
    match tryFrom p with
    | some q => some (some q)
    | none => none

/-- to_proto.rs:30-57, `url_from_abs_path`; `none` is a panic of the assertion or of `unwrap`.  On Unix no path has
a prefix, so the function returns at line 38. -/
def urlFromAbsPath (p : Text) : Option Url :=
  if Paths.isAbsolute p then fromFilePath p else none

/-- Equality of `AbsPathBuf` (paths.rs:11, derived from std `PathBuf`, which compares components). -/
def samePath (p q : Text) : Prop := Paths.components p = Paths.components q

end Verif.Uri
