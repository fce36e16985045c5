/-
Model of crates/lua-analyzer/src/config.rs and of crates/lua-analyzer/src/reload.rs.
-/
namespace Verif

/-- serde_json `Value`; a number by its spelling, an object by its entries (keys are distinct). -/
inductive Json where
  | null
  | bool (b : Bool)
  | num (n : String)
  | str (s : String)
  | arr (items : List Json)
  | obj (entries : List (String × Json))

namespace Json

/-- serde_json `Value::pointer_mut`, for one token of the pointer that is not a number: `None` unless the value
is an object with that key. -/
def get : Json → String → Option Json
  | .obj entries, key => entries.lookup key
  | _, _ => none

/-- `serde_json::from_value::<Vec<String>>` -/
def toStrings : Json → Option (List String)
  | .arr items => items.mapM fun
    | .str s => some s
    | _ => none
  | _ => none

end Json

/-- config.rs:7-11, 19-24, `Config`: the only setting is `workspace_library`. -/
structure Config where
  library : List String
  deriving DecidableEq, Repr

namespace Config

/-- config.rs:55-64, 81-100, `ConfigData::from_json`: the setting at `/workspace/library`, the default `[]` if
there is none or it is not an array of strings. -/
def fromJson (json : Json) : Config :=
  ⟨(((json.get "workspace").bind (·.get "library")).bind Json.toStrings).getD []⟩

/-- config.rs:13-17, `ConfigData::default`. -/
def default : Config := fromJson .null

/-- config.rs:31-37, `update`. -/
def update (c : Config) (json : Json) : Config :=
  match json with
  | .null => c
  | .obj [] => c
  | json => fromJson json

end Config

/-- std `Path::is_absolute` (Unix). -/
def isAbsolute (path : String) : Bool :=
  match path.toList with
  | '/' :: _ => true
  | _ => false

end Verif
