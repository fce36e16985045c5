import Verif.Model.Grammar

/-
The parser on a stack of bounded depth.
-/
namespace Verif
open Grammar

/-- The two functions all recursion of the parser goes through (`expr_bp` and `block`), with room for at most `depth`
of their calls at the same time; `loops` bounds the iterations of every single loop.  What runs out of one of them
fails with `Fail.fuel`. -/
def stackRec (loops : Nat) : (depth : Nat) → Rec
  | 0 => { exprBp := fun _ => .outOfFuel, block := .outOfFuel }
  | d + 1 => { exprBp := exprBp (stackRec loops d) loops, block := blockRaw (stackRec loops d) loops BLOCK_END }

/-- crates/parser/src/lib.rs:85-106, `parse`, with at most `depth` calls of `expr_bp` and `block` below the root block -/
def parseWithin (depth loops : Nat) (toks : List SyntaxKind) : Except Fail (List SinkCall) :=
  match (do
      let m ← P.start
      blockRaw (stackRec loops depth) loops ROOT_END
      let _ ← P.complete m .sourceFile
      return () : Prog Unit).run { toks := toks, events := [] } with
  | .error e => .error e
  | .ok (_, s) => processEvents s.events

end Verif
