import Verif.Model.SyntaxKind

/-
Model of the classification of kinds in crates/parser/src/syntax_kind/generated.rs.
-/
namespace Verif.SyntaxKind

/-- generated.rs:134-160, `is_keyword`. -/
def isKeyword (k : SyntaxKind) : Bool :=
  k ∈ [functionKw, localKw, trueKw, falseKw, ifKw, thenKw, elseKw, elseifKw, whileKw, forKw, inKw, breakKw, doKw, gotoKw,
    andKw, orKw, notKw, returnKw, endKw, repeatKw, untilKw, nilKw]

/-- generated.rs:161-192, `is_punct`. -/
def isPunct (k : SyntaxKind) : Bool :=
  k ∈ [bang, hash, modulo, lParen, rParen, asterisk, plus, comma, minus, dot, doubleDot, tripleDot, slash, colon,
    doubleColon, semicolon, lt, ltEq, eq, eqEq, gt, gtEq, lBracket, rBracket, caret, lBrace, rBrace, notEq]

/-- generated.rs:193-195, `is_literal`. -/
def isLiteral (k : SyntaxKind) : Bool := k ∈ [number, str, trueLit, falseLit]

end Verif.SyntaxKind
