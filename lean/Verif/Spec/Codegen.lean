import Verif.Model.Codegen
import Verif.Spec.Productions

/-
What a rule of a grammar file says about the parts of a node, and what the generated accessors should return for them.
-/
namespace Verif.Spec
open Codegen

/-- A place in a rule: a node of some type, or a token. -/
inductive Symbol where
  | node (type : String)
  | token (text : String)
  deriving DecidableEq, Repr

/-- How often a place is filled, and whether it gets an accessor at all. -/
inductive Role where
  /-- at most once -/
  | one
  /-- repeatedly -/
  | many
  /-- repeatedly, with separators that may also stand at the end -/
  | trailing
  /-- no accessor: under a label whose accessor is written by hand, between the items of a list, or a comma -/
  | hidden
  deriving DecidableEq, Repr

/-- A place of a rule that is filled. -/
structure Slot where
  symbol : Symbol
  label : Option String
  role : Role
  deriving DecidableEq, Repr

/-- The labels whose accessors are written by hand. -/
def byHand : List String := ["lhs", "rhs", "op", "table_sep"]

/-- The tokens that get no accessor. -/
def noAccessor : List String := [",", "string"]

/-- The rules for lists of nodes with separators: `N (sep N)*` and `N (sep N)* end?`; with the role of the nodes and the rule
for what follows the last of them. -/
inductive ListRule : List Rule → String → Rule → Role → Rule → Prop where
  | plain (n sep) : ListRule [.node n, .rep (.seq [sep, .node n])] n sep .many (.seq [])
  | trailing (n sep last) : ListRule [.node n, .rep (.seq [sep, .node n]), .opt last] n sep .trailing (.opt last)

/-- The role of a place under something repeated. -/
def Role.repeated : Role → Role
  | .hidden => .hidden
  | _ => .many

mutual
/-- What the parts of a node may be that is described by a rule, with the label and the role of the places in it. -/
inductive Sentence : Option String → Role → Rule → List Slot → Prop where
  | node (l o n) : Sentence l o (.node n) [⟨.node n, l, o⟩]
  | token (l o t) : Sentence l o (.token t) [⟨.token t, l, if t ∈ noAccessor then .hidden else o⟩]
  | labeled {l o m r s} : Sentence (some m) (if m ∈ byHand then .hidden else o) r s → Sentence l o (.labeled m r) s
  | seq {l o rs s} : (∀ n sep o' last, ¬ ListRule rs n sep o' last) → Sentences l o rs s → Sentence l o (.seq rs) s
  | list {l o rs n sep o' last tail} (separators : List (List Slot)) : ListRule rs n sep o' last →
      (∀ p ∈ separators, Sentence none .hidden sep p) → Sentence none .hidden last tail →
      Sentence l o (.seq rs) (⟨.node n, l, if o = .hidden then .hidden else o'⟩ ::
        separators.flatMap (fun p => p ++ [⟨.node n, l, if o = .hidden then .hidden else o'⟩]) ++ tail)
  | alt {l o rs r s} : r ∈ rs → Sentence l o r s → Sentence l o (.alt rs) s
  | absent (l o r) : Sentence l o (.opt r) []
  | present {l o r s} : Sentence l o r s → Sentence l o (.opt r) s
  | rep {l o r} (ss : List (List Slot)) : (∀ s ∈ ss, Sentence l o.repeated r s) → Sentence l o (.rep r) ss.flatten
/-- One rule after the other. -/
inductive Sentences : Option String → Role → List Rule → List Slot → Prop where
  | nil (l o) : Sentences l o [] []
  | cons {l o r rs s t} : Sentence l o r s → Sentences l o rs t → Sentences l o (r :: rs) (s ++ t)
end

/-- The name of the accessor for a place. -/
def Slot.accessor (kinds : KindsSrc) (it : Slot) : String :=
  match it.symbol with
  | .token t => methodName kinds (.token (quoteBracket t))
  | .node n => it.label.getD (if it.role = .one then snake n else snake n ++ "s")

/-- The part fills the place: it is a node of the type, or the token. -/
def Slot.Fits (kinds : KindsSrc) (src : AstSrc) (it : Slot) (part : Red) : Prop :=
  match it.symbol with
  | .node n => part.green.isNode = true ∧ ∃ c, castsOf src n = some c ∧ c.can part.kind = true
  | .token t => part.green.isNode = false ∧
      ((genMacroT kinds).lookup (quoteBracket t)).bind kindNamed = some part.kind

/-- The parts fill the places, one by one. -/
inductive Fill (kinds : KindsSrc) (src : AstSrc) : List Slot → List Red → Prop where
  | nil : Fill kinds src [] []
  | cons {it part its parts} : it.Fits kinds src part → Fill kinds src its parts → Fill kinds src (it :: its) (part :: parts)

/-- The parts that fill the places with the name, symbol and role of the given one. -/
def sameParts (kinds : KindsSrc) (items : List Slot) (parts : List Red) (it : Slot) : List Red :=
  ((items.zip parts).filter fun x => decide (x.1.accessor kinds = it.accessor kinds ∧ x.1.symbol = it.symbol ∧
    x.1.role = it.role)).map (·.2)

/-- What the accessor for a place returns. -/
def expected (kinds : KindsSrc) (items : List Slot) (parts : List Red) (it : Slot) : Result :=
  match it.role with
  | .many => .many (sameParts kinds items parts it)
  | _ => .one (sameParts kinds items parts it).head?

/-- Whether an element of a node is something the accessor looks for. -/
def Accepts (a : Accessor) (part : Red) : Prop :=
  match a with
  | .child ty | .children ty => part.green.isNode = true ∧ ty.can part.kind = true
  | .token k => part.green.isNode = false ∧ part.kind = k

end Verif.Spec
