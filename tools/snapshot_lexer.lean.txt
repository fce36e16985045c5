import Verif.Model.Lexer
open Verif Lexer
def cap (s : String) : String := match s.toList with | [] => "" | c :: cs => String.ofList (c.toUpper :: cs)
def kname (k : SyntaxKind) : String := cap (((reprStr k).splitOn ".").getLast!)
def main (args : List String) : IO UInt32 := do
  for f in args do
    let t ← IO.FS.readFile f
    IO.println s!"=== {f}"
    match tokenize t.toList with
    | .error _ => IO.println "PANIC"
    | .ok (ts, es) =>
      for l in ts do IO.println s!"{kname l.kind} {l.len}"
      IO.println "--errors"
      for e in es do IO.println s!"{e.msg} {e.range.start}..{e.range.stop}"
  return 0
