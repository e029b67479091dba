import Verif.FmtModel

/-!
# Specification of formatting
-/

namespace Verif.Fmt

open Verif.Lex

/-- The tokens of a text as their kinds and texts. -/
def pieces (src : List Char) (ts : List Tok) : List (Kind × List Char) :=
  ts.map fun t => (t.kind, (text src t).getD [])

/-- The texts put together. -/
def flat (ps : List (Kind × List Char)) : List Char := ps.flatMap Prod.snd

/-- What is not white space. -/
def solid (ps : List (Kind × List Char)) : List (Kind × List Char) := ps.filter fun p => p.1 ≠ .whitespace

/-- What the Unicode tables say of white space: it is no letter, digit, symbol or punctuation, and in ASCII it is one
of six characters. -/
structure Blanks (cc : CharClass) : Prop where
  newline : cc.whitespace '\n' = true
  space : cc.whitespace ' ' = true
  alphabetic : ∀ c, cc.whitespace c = true → cc.alphabetic c = false
  alphanumeric : ∀ c, cc.whitespace c = true → cc.alphanumeric c = false
  category : ∀ c, cc.whitespace c = true → cc.category c = .otherCategory
  ascii : ∀ c, cc.whitespace c = true → isAscii c = true → c ∈ ['\t', '\n', '\x0b', '\x0c', '\r', ' ']
  bullet : cc.whitespace '•' = false

/-- A C string, after its opening quote, is closed: there is a quote that is not escaped. -/
def cEnds : List Char → Bool
  | [] => false
  | '"' :: _ => true
  | ['\\'] => false
  | '\\' :: _ :: cs => cEnds cs
  | _ :: cs => cEnds cs

/-- A quoted token has its closing quote. -/
def closed (k : Kind) (t : List Char) : Bool :=
  match k with
  | .singleQuoteIdentifier => t.count '\'' = 2
  | .symbol => t.count '\'' ≠ 1
  | .string | .rawString | .tString | .sString => t.count '"' = 2
  | .cString => cEnds (t.drop 2)
  | _ => true

/-- The text with each tab replaced by blanks up to the next column that is a multiple of eight, `col` being the column
it begins at. -/
def expandTabs : Nat → List Char → List Char
  | _, [] => []
  | col, c :: cs =>
    if c = '\t' then List.replicate (8 - col % 8) ' ' ++ expandTabs (col + (8 - col % 8)) cs
    else c :: expandTabs (if c = '\n' then 0 else col + 1) cs

/-- The text ends with a newline, or is empty. -/
def Ended (src : List Char) : Prop := src = [] ∨ src.getLast? = some '\n'

/-- White space that is more than carriage returns. -/
def Kept (ps : List (Kind × List Char)) : Prop := ∀ p ∈ ps, p.1 = .whitespace → ∃ c ∈ p.2, c ≠ '\r'

/-- White space without tabs and carriage returns. -/
def Clean (ps : List (Kind × List Char)) : Prop := ∀ p ∈ ps, p.1 = .whitespace → ∀ c ∈ p.2, c ≠ '\t' ∧ c ≠ '\r'

/-- Texts that are formatted well: every character is in a token, no white space is carriage returns only, the last token
is closed, and the text parses (`ColonsOk`, no Unicode bracket: C44). -/
structure Fair (cc : CharClass) (src : List Char) (ts : List Tok) : Prop where
  toks : tokens cc src = some ts
  whole : flat (pieces src ts) = src
  kept : Kept (pieces src ts)
  last : ∀ p, (pieces src ts).getLast? = some p → closed p.1 p.2 = true
  colons : Verif.Parse.ColonsOk false (ts.map Tok.kind)
  brackets : .bracketOpen ∉ ts.map Tok.kind

end Verif.Fmt
