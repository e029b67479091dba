import Verif.LexModel
import Verif.EscapeModel

/-!
# What a string literal means

The string cases of `src/syntax/rowan/parse.rs`, `src/syntax/rowan/ast.rs` and `src/core/desugar/rowan_ast.rs`, over
the tokens of a source that is a single string literal.  Dotted references in interpolations are left out.
-/

namespace Verif.StrPat
open Verif.Lex

/-- What is in a string: a character, or an interpolation with its target and format. -/
inductive Piece where
  | ch (c : Char)
  | hole (target : List Char) (fmt : Option (List Char))
  deriving DecidableEq, Repr

/-- Where the parser is in a pattern. -/
inductive RSt where
  | text
  | target
  | after (t : List Char)
  | spec (t : List Char)
  /-- past what is understood; `c` tells whether a colon has been seen -/
  | stray (t : List Char) (f : Option (List Char)) (c : Bool)

/-- `parse_string_pattern` and `parse_string_interpolation_content`, parse.rs:916-1098, then `StringPattern::chunks`
and the values of the chunks, ast.rs:1161-1250, then the loop of `desugar_rowan_string_pattern`,
rowan_ast.rs:1946-2110: `lit` is the treatment of literal text, by mode.  `none` stands for an error. -/
def read (lit : List Char → Option (List Char)) : RSt → List (Kind × List Char) → Option (List Piece)
  | .text, [] => some []
  | _, [] => none
  | .text, (k, x) :: r =>
    match k with
    | .stringLiteralContent => do
      let cs ← lit x
      let ps ← read lit .text r
      some (cs.map .ch ++ ps)
    | .stringEscapedOpen => (read lit .text r).map (.ch '{' :: ·)
    | .stringEscapedClose => (read lit .text r).map (.ch '}' :: ·)
    | .openBrace => read lit .target r
    | _ => none
  | .target, (k, x) :: r =>
    match k with
    | .stringInterpolationTarget => read lit (.after x) r
    | .colon => read lit (.spec []) r
    | .closeBrace => (read lit .text r).map (.hole [] none :: ·)
    | .operatorIdentifier | .stringLiteralContent => none
    | _ => read lit (.stray [] none false) r
  | .after t, (k, _) :: r =>
    match k with
    | .colon => read lit (.spec t) r
    | .closeBrace => (read lit .text r).map (.hole t none :: ·)
    | .operatorIdentifier | .stringLiteralContent => none
    | _ => read lit (.stray t none false) r
  | .spec t, (k, x) :: r =>
    match k with
    | .stringFormatSpec => read lit (.stray t (some x) true) r
    | .closeBrace => (read lit .text r).map (.hole t none :: ·)
    | .stringLiteralContent => none
    | _ => read lit (.stray t none true) r
  | .stray t f c, (k, _) :: r =>
    match k with
    | .closeBrace => (read lit .text r).map (.hole t f :: ·)
    | .stringLiteralContent => none
    | .colon => read lit (.stray t f true) r
    | .operatorIdentifier => if c then read lit (.stray t f c) r else none
    | _ => read lit (.stray t f c) r

/-- `strip_suffix('"')`. -/
def stripQuote : List Char → Option (List Char)
  | [] => none
  | ['"'] => some []
  | [_] => none
  | c :: cs => (stripQuote cs).map (c :: ·)

/-- The literal text of c-strings, rowan_ast.rs:1953-1965. -/
def cLit (t : List Char) : Option (List Char) :=
  match Escape.decode t with
  | .ok out => some out
  | .error _ => none

/-- The pieces of a pattern between its delimiters. -/
def readPattern (lit : List Char → Option (List Char)) (e : Kind) (r : List (Kind × List Char)) : Option (List Piece) :=
  match r.getLast? with
  | some (k, _) => if k = e then read lit .text r.dropLast else none
  | none => none

/-- What a string literal means: `Str::value`, `CStr::raw_value`, `RawStr::value` (ast.rs:171-198), and patterns. -/
def meaning : List (Kind × List Char) → Option (List Piece)
  | [] => none
  | (k, x) :: r =>
    match k, x, r with
    | .string, '"' :: t, [] => (stripQuote t).map (·.map .ch)
    | .rawString, 'r' :: '"' :: t, [] => (stripQuote t).map (·.map .ch)
    | .cString, 'c' :: '"' :: t, [] => do
      let t ← stripQuote t
      let t ← cLit t
      some (t.map .ch)
    | .stringPatternStart, _, r => readPattern some .stringPatternEnd r
    | .rawStringPatternStart, _, r => readPattern some .rawStringPatternEnd r
    | .cStringPatternStart, _, r => readPattern cLit .cStringPatternEnd r
    | _, _, _ => none

end Verif.StrPat
