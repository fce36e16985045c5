import Verif.Model.AstNodes

/-
Model of the code generator in xtask/src/codegen/gen_syntax: lowering an ungrammar to structs and enums with fields
(ast_src.rs) and what it generates from them and from the list of tokens (mod.rs).

Not modelled: reading and parsing `lua.ungram` and `ast_src.toml` (the crates `ungrammar` and `toml`), and the rendering of
the result as formatted Rust source; the generated items are modelled as data with the meaning of the Rust they stand for.
A `Rule::Node`/`Rule::Token` carries the name of the node or token instead of an index into the grammar.
-/
namespace Verif.Codegen

/-- `ungrammar::Rule`. -/
inductive Rule where
  | labeled (label : String) (rule : Rule)
  | node (name : String)
  | token (name : String)
  | seq (rules : List Rule)
  | alt (rules : List Rule)
  | opt (rule : Rule)
  | rep (rule : Rule)
  deriving Repr

/-- `ungrammar::Grammar`: the named rules in the order of `iter`. -/
abbrev Grammar := List (String × Rule)

/-- ast_src.rs:92-97, `Cardinality`. -/
inductive Cardinality where
  | optional | manyTrailing | many
  deriving DecidableEq, Repr

/-- ast_src.rs:31-35, `Field`. -/
inductive Field where
  | token (name : String)
  | node (name ty : String) (cardinality : Cardinality)
  deriving DecidableEq, Repr

/-- `heck::SnakeCase::to_snake_case`, for words of ASCII letters and underscores without two capitals in a row. -/
def snakeChars : Bool → List Char → List Char
  | _, [] => []
  | first, c :: cs =>
    if c.isUpper then (if first then [] else ['_']) ++ c.toLower :: snakeChars false cs
    else c :: snakeChars (c == '_') cs

/-- See `snakeChars`. -/
def snake (s : String) : String := String.ofList (snakeChars true s.toList)

/-- `heck::CamelCase::to_camel_case`, for words of ASCII letters without underscores. -/
def camel (s : String) : String :=
  match s.toList with
  | [] => s
  | c :: cs => String.ofList (c.toUpper :: cs)

/-- ast_src.rs:241-243, `pluralize`. -/
def pluralize (s : String) : String := s ++ "s"

/-- ast_src.rs:37-39, `label_is_manually_implemented`. -/
def manual (label : String) : Bool := label ∈ ["lhs", "rhs", "op", "table_sep"]

/-- ast_src.rs:208-239, `lower_comma_list`: the field, if the rule is a list with separators. -/
def lowerCommaList (label : Option String) : Rule → Option Field
  | .seq [.node n, .rep (.seq [_, .node n']), .opt _] =>
    -- the two guards (228-229) differ only in what they ask of the trailing separator, and the second asks nothing
    if n' = n then some (.node (label.getD (pluralize (snake n))) n .manyTrailing) else none
  | .seq [.node n, .rep (.seq [_, .node n'])] =>
    if n' = n then some (.node (label.getD (pluralize (snake n))) n .many) else none
  | _ => none

/-- `str::contains`. -/
def contains (whole part : List Char) : Bool :=
  part.isPrefixOf whole || match whole with
    | [] => false
    | _ :: cs => contains cs part

/-- ast_src.rs:174-178: brackets are put in quotes (`"[]{}()".contains`). -/
def quoteBracket (name : String) : String :=
  if contains "[]{}()".toList name.toList then "'" ++ name ++ "'" else name

mutual
/-- ast_src.rs:153-206, `lower_rule`: the fields it pushes. -/
def lowerRule (label : Option String) (rule : Rule) : Except Fail (List Field) :=
  match lowerCommaList label rule with
  | some f => .ok [f]
  | none =>
    match rule with
    | .node n => .ok [.node (label.getD (snake n)) n .optional]
    | .token t =>
      if label.isSome then .error .panic
      else if t = "string" then .ok []
      else .ok [.token (quoteBracket t)]
    | .rep (.node n) => .ok [.node (label.getD (pluralize (snake n))) n .many]
    | .rep _ => .error .panic
    | .labeled l r =>
      if label.isSome then .error .panic
      else if manual l then .ok []
      else lowerRule (some l) r
    | .seq rs => lowerRules label rs
    | .alt rs => lowerRules label rs
    | .opt r => lowerRule label r
/-- ast_src.rs:199-203, the loop. -/
def lowerRules (label : Option String) : List Rule → Except Fail (List Field)
  | [] => .ok []
  | r :: rs =>
    match lowerRule label r with
    | .error e => .error e
    | .ok fs =>
      match lowerRules label rs with
      | .error e => .error e
      | .ok fs' => .ok (fs ++ fs')
end

/-- ast_src.rs:136-151, `lower_enum`. -/
def lowerEnum : Rule → Option (List String)
  | .alt rs => rs.mapM fun r => match r with
    | .node n => some n
    | _ => none
  | _ => none

/-- ast_src.rs:7-12, `AstSrc` (`tokens` is never filled). -/
structure AstSrc where
  nodes : List (String × List Field) := []
  enums : List (String × List String) := []
  deriving DecidableEq, Repr

/-- ast_src.rs:107-134, `lower`. -/
def lower : Grammar → Except Fail AstSrc
  | [] => .ok {}
  | (name, rule) :: g =>
    match lowerEnum rule with
    | some variants =>
      match lower g with
      | .error e => .error e
      | .ok src => .ok { src with enums := (name, variants) :: src.enums }
    | none =>
      match lowerRule none rule with
      | .error e => .error e
      | .ok fields =>
        match lower g with
        | .error e => .error e
        | .ok src => .ok { src with nodes := (name, fields) :: src.nodes }

/-- kinds_src.rs:8-15, `KindsSrc`; `punct` is a `BTreeMap`, here in the order of its keys. -/
structure KindsSrc where
  punct : List (String × String)
  keywords : List String
  literals : List String
  tokens : List String
  trivia : List String

/-- ast_src.rs:18-20, `names`. -/
def AstSrc.names (src : AstSrc) : List String := src.nodes.map (·.1) ++ src.enums.map (·.1)

/-- mod.rs:59-64, the names of the kinds of keywords. -/
def keywordKind (kw : String) : String := camel kw ++ "Kw"

/-- mod.rs:93-115, the variants of `SyntaxKind`. -/
def genKinds (kinds : KindsSrc) (src : AstSrc) : List String :=
  ["Tombstone", "Eof", "Unknown"] ++ kinds.punct.map (·.2) ++ kinds.keywords.map keywordKind ++ kinds.literals.map camel ++
    kinds.tokens ++ src.names ++ kinds.trivia ++ ["__LAST"]

/-- The value a variant of the generated enum has, by name. -/
def kindNamed (s : String) : Option SyntaxKind :=
  (SyntaxKind.variantNames.zip SyntaxKind.all).lookup s

/-- mod.rs:46-52: brackets are written as a character in quotes, in the pattern of an arm of `T!`. -/
def pattern (token : String) : String :=
  if contains "{}[]()".toList token.toList then "'" ++ String.ofList (token.toList.take 1) ++ "'" else token

/-- mod.rs:143-154, the arms of the macro `T!`. -/
def genMacroT (kinds : KindsSrc) : List (String × String) :=
  kinds.punct.map (fun p => (pattern p.1, p.2)) ++ kinds.keywords.map (fun k => (k, keywordKind k)) ++
    kinds.literals.map (fun l => (snake l, camel l)) ++ kinds.tokens.map (fun t => (snake t, t)) ++
    kinds.trivia.map (fun t => (snake t, t)) ++ [("__", "Tombstone"), ("eof", "Eof"), ("unknown", "Unknown")]

/-- mod.rs:131-137, `from_keyword`. -/
def genFromKeyword (kinds : KindsSrc) (s : Text) : Option SyntaxKind :=
  match kinds.keywords.find? (fun k => k.toList == s) with
  | some k => kindNamed (keywordKind k)
  | none => none

/-- mod.rs:115-129, `is_trivia`, `is_keyword`, `is_punct` and `is_literal`: whether the kind is one of those named. -/
def isOneOf (names : List String) (k : SyntaxKind) : Bool := names.any fun n => kindNamed n == some k

/-- ast_src.rs:65-83, `method_name`. -/
def methodName (kinds : KindsSrc) : Field → String
  | .token name =>
    let n := if name = "'{'" then "l_curly" else if name = "'}'" then "r_curly" else if name = "'('" then "l_paren"
      else if name = "')'" then "r_paren" else if name = "'['" then "l_brack" else if name = "']'" then "r_brack"
      else (kinds.punct.lookup name).getD name
    snake n ++ "_token"
  | .node name _ _ => name

/-- What a type can be cast from (mod.rs:263-265 for structs, 298-303 for enums). -/
inductive Casts where
  | struct (kind : SyntaxKind)
  | enum (kinds : List SyntaxKind)
  deriving DecidableEq, Repr

/-- The meaning of a generated `can_cast`. -/
def Casts.can : Casts → SyntaxKind → Bool
  | .struct k, k' => k' == k
  | .enum ks, k' => ks.contains k'

/-- A generated accessor (mod.rs:226-251). -/
inductive Accessor where
  | child (ty : Casts)
  | children (ty : Casts)
  | token (kind : SyntaxKind)
  deriving DecidableEq, Repr

/-- The result of calling an accessor: `Option` or `AstChildren`. -/
inductive Result where
  | one (r : Option Red)
  | many (rs : List Red)

/-- The meaning of a generated accessor. -/
def Accessor.run : Accessor → Red → Result
  | .child ty, r => .one (Ast.child ty.can r)
  | .children ty, r => .many (Ast.children ty.can r)
  | .token k, r => .one (Ast.token k r)

/-- mod.rs:206-320: what can be cast to a type of the generated source (`none`: the type or kind does not exist, so that the
generated source does not compile). -/
def castsOf (src : AstSrc) (ty : String) : Option Casts :=
  if ty ∈ src.nodes.map (·.1) then (kindNamed (camel ty)).map .struct
  else match src.enums.lookup ty with
    | some vs => (vs.mapM fun v => kindNamed (camel v)).map .enum
    | none => none

/-- mod.rs:222-252: the methods of a struct; fields for commas are left out, and a field that may have a trailing separator
is not taken for a repeated one. -/
def genMethods (kinds : KindsSrc) (src : AstSrc) (fields : List Field) : Option (List (String × Accessor)) :=
  (fields.filter fun f => f != .token ",").mapM fun f =>
    match f with
    | .token t => (((genMacroT kinds).lookup t).bind kindNamed).map fun k => (methodName kinds f, .token k)
    | .node _ ty .many => (castsOf src ty).map fun c => (methodName kinds f, .children c)
    | .node _ ty _ => (castsOf src ty).map fun c => (methodName kinds f, .child c)

/-- mod.rs:205-257: the structs with their methods. -/
def genStructs (kinds : KindsSrc) (src : AstSrc) : Option (List (String × List (String × Accessor))) :=
  src.nodes.mapM fun n => (genMethods kinds src n.2).map fun ms => (n.1, ms)

/-- mod.rs:258-320: every type with what can be cast to it. -/
def genCasts (src : AstSrc) : Option (List (String × Casts)) :=
  src.names.mapM fun n => (castsOf src n).map fun c => (n, c)

/-- mod.rs:164-203, `gen_tokens`: the token types and their kinds. -/
def genTokens (kinds : KindsSrc) : Option (List (String × SyntaxKind)) :=
  (kinds.tokens ++ kinds.literals ++ kinds.trivia).mapM fun t => (kindNamed (camel t)).map fun k => (t, k)

end Verif.Codegen
