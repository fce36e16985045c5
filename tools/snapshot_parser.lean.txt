import Verif.Model.Validation
import Verif.Proof.Eval
open Verif

def cap (s : String) : String := match s.toList with | [] => "" | c :: cs => String.ofList (c.toUpper :: cs)
def kname (k : SyntaxKind) : String :=
  let r := reprStr k
  cap ((r.splitOn ".").getLast!)
def esc (t : List Char) : String := 
  "\"" ++ String.join (t.map fun c => if c == '\n' then "\\n" else if c == '\t' then "\\t" else if c == '\r' then "\\r" else if c == '\'' then "\\'" else if c == '"' then "\\\"" else if c == '\\' then "\\\\" else String.singleton c) ++ "\""
partial def dump (ind : Nat) (off : Nat) : Green → List String
  | .token k t =>
    let n := Text.len t
    let s := if n < 25 then esc t else
      -- find boundary from 21 
      let rec go (i : Nat) : String := match Text.sliceTo i t with | some p => (esc (p ++ " ...".toList)) | none => go (i+1)
      go 21
    [String.ofList (List.replicate ind ' ') ++ s!"{kname k}@{off}..{off+n} {s}"]
  | .node k cs =>
    let n := Green.len (.node k cs)
    let rec goL (o : Nat) : List Green → List String
      | [] => []
      | g :: gs => dump (ind+2) o g ++ goL (o + g.len) gs
    (String.ofList (List.replicate ind ' ') ++ s!"{kname k}@{off}..{off+n}") :: goL off cs

def fixMsg (s : String) : String :=
  let ws := s.splitOn "Verif.SyntaxKind."
  match ws with
  | [] => s
  | w :: rest => String.join (w :: rest.map cap)

def main (args : List String) : IO UInt32 := do
  for f in args do
    let t ← IO.FS.readFile f
    match sourceFileParse t.toList with
    | .error _ => IO.println s!"=== {f}\nPANIC"
    | .ok (g, es) =>
      IO.println s!"=== {f}"
      for l in dump 0 0 g do IO.println l
      IO.println "--errors"
      for e in es do IO.println s!"{fixMsg e.msg} {e.range.start}..{e.range.stop}"
  return 0
