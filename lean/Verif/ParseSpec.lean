import Verif.ParseModel

/-!
# What the parser needs of the tokens

Conditions on the kinds of the tokens of a text under which the parser does not panic.
-/

namespace Verif.Parse

open Verif.Lex (Kind)

/-- Tokens a declaration head can start with: names and brackets. -/
def isHeadTok (k : Kind) : Bool := k.isNameTerminal || k = .openParen || k = .bracketOpen || k = .reservedOpen

/-- What follows a colon makes the parser lose tokens.  Directly after it: a backtick, or something that could be a
declaration head.  After white space or comments: another (single) colon.  `tr`: there was white space. -/
def colonBad : Bool → List Kind → Bool
  | _, [] => false
  | tr, k :: ks =>
    if k.isTrivial then colonBad true ks
    else if tr then k = .colon && ks.head? != some .colon
    else k = .backtick || isHeadTok k

/-- No colon is followed by something that makes the parser lose tokens, other than those of format specifications in
strings.  `p`: the token before was the target of an interpolation. -/
def ColonsOk : Bool → List Kind → Prop
  | _, [] => True
  | p, k :: ks =>
    (k = .colon → p = false → colonBad false ks = false) ∧ ColonsOk (k = .stringInterpolationTarget) ks

/-- The kind of token that ends a string pattern. -/
def patternEnd (k : Kind) : Option Kind :=
  if k = .stringPatternStart then some .stringPatternEnd
  else if k = .cStringPatternStart then some .cStringPatternEnd
  else if k = .rawStringPatternStart then some .rawStringPatternEnd
  else none

/-- The end of some string pattern. -/
def isPatternEnd (k : Kind) : Bool :=
  k = .stringPatternEnd || k = .cStringPatternEnd || k = .rawStringPatternEnd

/-- The tokens from inside a string pattern up to its end `e`; `true` inside an interpolation. -/
def strOk (e : Kind) : Bool → List Kind → Bool
  | _, [] => true
  | false, k :: ks =>
    if k = e then true
    else if k = .stringLiteralContent ∨ k = .stringEscapedOpen ∨ k = .stringEscapedClose then strOk e false ks
    else if k = .openBrace then strOk e true ks
    else false
  | true, k :: ks =>
    if k = e then true
    else if k = .closeBrace then strOk e false ks
    else if k = .stringLiteralContent ∨ isPatternEnd k = true then false
    else strOk e true ks

/-- All string patterns are well formed. -/
def StringsOk : List Kind → Prop
  | [] => True
  | k :: ks => (∀ e, patternEnd k = some e → strOk e false ks = true) ∧ StringsOk ks

/-- A bracket that applies what is before it. -/
def isApplyKind (k : Kind) : Bool := k = .openParenApply || k = .openBraceApply || k = .openSquareApply

/-- A call does not begin right after white space, a comment or a colon. -/
def AppliesOk : List Kind → Prop
  | [] => True
  | k :: ks =>
    (k.isTrivial = true ∨ k = .colon → ∀ k', ks.head? = some k' → isApplyKind k' = false) ∧ AppliesOk ks

mutual
/-- The tokens of a tree, left to right: their numbers and kinds. -/
def Tree.leaves : Tree → List (Nat × Kind)
  | .node _ cs => Tree.leavesL cs
  | .leaf k i => [(i, k)]
def Tree.leavesL : List Tree → List (Nat × Kind)
  | [] => []
  | t :: ts => t.leaves ++ Tree.leavesL ts
end

/-- The tokens of a text as the leaves of a tree should be. -/
def numbered (i : Nat) : List PTok → List (Nat × Kind)
  | [] => []
  | t :: ts => (i, t.kind) :: numbered (i + 1) ts

end Verif.Parse
