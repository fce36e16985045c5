import Verif.Model.Text

/-
Model of lib/accept: the character source and the acceptor combinators.  The source state is the list
of characters not yet consumed.
-/
namespace Verif
namespace Accept

/-- source.rs:39, `EOF_CHAR`. -/
def EOF_CHAR : Char := Char.ofNat 0

/-- source.rs:78-80, `CharSource::nth`. -/
def nthChar (s : Text) (n : Nat) : Char := s.getD n EOF_CHAR

/-- source.rs:86-88, `nth_is_eof`. -/
def nthIsEof (s : Text) (n : Nat) : Bool := s[n]?.isNone

/-- The things that can be accepted from a character source (accept.rs and combinators.rs).  Only the
pair instances of the tuple combinators `Seq`, `And`, `Or` are modelled (the lexer uses no others), so
the second component of a `Seq` is looked up at `n + 1` (combinators.rs:17); `range` is `Range<char>`. -/
inductive Acc where
  | ch (c : Char)
  | pred (f : Char → Bool)
  | range (lo hi : Char)
  | any
  | seq (a b : Acc)
  | and (a b : Acc)
  | or (a b : Acc)
  | not (a : Acc)
  | while (a : Acc)
  | until (a : Acc)
  | repeat (a : Acc) (n : Nat)

/-- `Lexable::nth`: accept.rs:97-143, combinators.rs:11-19, 54-62, 88-96, 146-157, 169-177, 206-214,
233-241. -/
def Acc.nth : Acc → Text → Nat → Bool
  | .ch c, s, n => nthChar s n == c
  | .pred f, s, n => f (nthChar s n)
  | .range lo hi, s, n => decide (lo.val ≤ (nthChar s n).val ∧ (nthChar s n).val < hi.val)
  | .any, s, n => !nthIsEof s n
  | .seq a b, s, n => a.nth s n && b.nth s (n + 1)
  | .and a b, s, n => a.nth s n && b.nth s n
  | .or a b, s, n => a.nth s n || b.nth s n
  | .not a, s, n => !nthIsEof s 0 && !a.nth s n
  | .while a, s, n => a.nth s n
  | .until a, s, n => !nthIsEof s 0 && !a.nth s n
  | .repeat a k, s, n => (List.range k).all fun i => a.nth s (n + i)

/-- accept.rs:58-63, `peek`. -/
def Acc.peek (a : Acc) (s : Text) : Bool := a.nth s 0

/-- accept.rs:70-80, the default `accept`: peek, then `bump_expect` (a panic at the end). -/
def acceptDefault (a : Acc) (s : Text) : Except Fail (Bool × Text) :=
  if a.peek s then
    match s with
    | [] => .error .panic
    | _ :: cs => .ok (true, cs)
  else .ok (false, s)

/-- `while !l.is_eof() && f(l) {}` (combinators.rs:189), with fuel. -/
def whileLoop (f : Text → Except Fail (Bool × Text)) : Nat → Text → Except Fail Text
  | 0, _ => .error .fuel
  | n + 1, s =>
    if nthIsEof s 0 then .ok s
    else match f s with
      | .error e => .error e
      | .ok (true, s') => whileLoop f n s'
      | .ok (false, s') => .ok s'

/-- `for _ in 0..n { f(l); }` -/
def timesLoop (f : Text → Except Fail (Bool × Text)) : Nat → Text → Except Fail Text
  | 0, s => .ok s
  | n + 1, s => match f s with
    | .error e => .error e
    | .ok (_, s') => timesLoop f n s'

/-- `Accept::accept`: accept.rs:70-80, combinators.rs:26-35, 64-69, 103-106, 159-164, 184-192, 221-223,
248-257. -/
def Acc.accept : Acc → Text → Except Fail (Bool × Text)
  | .seq a b, s =>
    if (Acc.seq a b).peek s then do
      let (_, s) ← a.accept s
      let (_, s) ← b.accept s
      return (true, s)
    else .ok (false, s)
  | .or a b, s => do
    let (r, s) ← a.accept s
    if r then return (true, s) else b.accept s
  | .while a, s =>
    if nthIsEof s 0 && !a.peek s then .ok (false, s)
    else do
      let s ← whileLoop a.accept (s.length + 1) s
      return (true, s)
  | .until a, s =>
    -- `While(Not(a)).accept`; `Not` uses the default `accept`
    if nthIsEof s 0 && !(Acc.not a).peek s then .ok (false, s)
    else do
      let s ← whileLoop (acceptDefault (.not a)) (s.length + 1) s
      return (true, s)
  | .repeat a n, s =>
    if (Acc.repeat a n).peek s then do
      let s ← timesLoop a.accept n s
      return (true, s)
    else .ok (false, s)
  | a, s => acceptDefault a s

/-- `while self.0.accept(l) { count += 1 }` (combinators.rs:194-200), with fuel. -/
def countLoop (f : Text → Except Fail (Bool × Text)) : Nat → Nat → Text → Except Fail (Nat × Text)
  | 0, _, _ => .error .fuel
  | n + 1, k, s => match f s with
    | .error e => .error e
    | .ok (true, s') => countLoop f n (k + 1) s'
    | .ok (false, s') => .ok (k, s')

/-- `Accept::accept_count`: accept.rs:82-87, combinators.rs:194-200, 225-227. -/
def Acc.acceptCount : Acc → Text → Except Fail (Nat × Text)
  | .while a, s => countLoop a.accept (s.length + 1) 0 s
  | .until a, s => countLoop (acceptDefault (.not a)) (s.length + 1) 0 s
  | a, s => do
    let (r, s) ← a.accept s
    return (if r then 1 else 0, s)

end Accept
end Verif
