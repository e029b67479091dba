import Verif.ParseLex

/-!
# The formatter, in its conservative mode

Transcription of the default mode of `eu fmt`, `src/syntax/export/format.rs` and `src/driver/format.rs`.

Not modelled: the mode that prints everything anew (`--reformat`), the errors a parse collects (`format_source` refuses a
text with any), and the pretty printer, which gets the whole result as one piece of text (`RcDoc::text`) and writes it
as it is.
-/

namespace Verif.Fmt

open Verif.Lex (Kind CharClass Tok tokens text bytes)
open Verif.Parse (Tree Res parseUnit ptoks)

/-- `TAB_WIDTH`, format.rs:692. -/
def tabWidth : Nat := 8

/-- `next_tab_stop`, format.rs:703. -/
def tabStop (col : Nat) : Nat := (col / tabWidth + 1) * tabWidth

/-- `normalize_whitespace`, format.rs:687-731: `col` is the column reached. -/
def normalize : List Char → Nat → List Char
  | [], _ => []
  | c :: cs, col =>
    if c = '\n' then '\n' :: normalize cs 0
    else if c = '\t' then List.replicate (tabStop col - col) ' ' ++ normalize cs (tabStop col)
    else if c = ' ' then ' ' :: normalize cs (col + 1)
    else if c = '\r' then normalize cs col
    else c :: normalize cs (col + 1)

/-- The loops that count columns, format.rs:655-661, 675-681. -/
def advance : Nat → List Char → Nat
  | col, [] => col
  | col, c :: cs => advance (if c = '\n' then 0 else col + 1) cs

/-- `process_token_conservative`, format.rs:641-685: what is written for a token, and the column after it. -/
def token (k : Kind) (t : List Char) (col : Nat) : List Char × Nat :=
  if k = .whitespace then (normalize t col, advance col (normalize t col))
  else if k = .colon then (t, col + bytes t)
  else if k = .comma then (t, col + bytes t)
  else (t, advance col t)

mutual
/-- `process_node_conservative`, format.rs:623-639: what is written for a tree, and the column after it.  `txt` gives the
texts of the tokens. -/
def walk (txt : Nat → List Char) : Tree → Nat → List Char × Nat
  | .node _ cs, col => walkL txt cs col
  | .leaf k i, col => token k (txt i) col
def walkL (txt : Nat → List Char) : List Tree → Nat → List Char × Nat
  | [], col => ([], col)
  | t :: ts, col =>
    let r := walk txt t col
    let q := walkL txt ts r.2
    (r.1 ++ q.1, q.2)
end

/-- The end of `format_unit`, format.rs:69-72. -/
def endLine (out : List Char) : List Char :=
  if out ≠ [] ∧ out.getLast? ≠ some '\n' then out ++ ['\n'] else out

/-- The text of the `i`th token. -/
def tokText (src : List Char) (ts : List Tok) (i : Nat) : List Char := ((ts[i]?).bind (text src)).getD []

/-- `format_source`, format.rs:764-775, with `format_unit`, :66-74, and `fix_whitespace_violations`, :616-621.  `none`
where parsing panics.  The refusal of texts with errors is left out. -/
def format (cc : CharClass) (src : List Char) : Option (List Char) :=
  match tokens cc src with
  | none => none
  | some ts =>
    match parseUnit (ptoks src ts) with
    | .ok t => some (endLine (walk (tokText src ts) t 0).1)
    | _ => none

/-- `needs_formatting`, format.rs:778-781. -/
def needsFormatting (cc : CharClass) (src : List Char) : Option Bool :=
  (format cc src).map (fun out => out != src)

/-! ## What is checked of quotes -/

/-- The checks that quotes are closed, validate.rs:75-151, 202-210: whether a token is accepted.  (The rest of what
is checked of a `t"…"` is left out.) -/
def quotesOk (k : Kind) (t : List Char) : Bool :=
  let starts (p : List Char) : Bool := p.isPrefixOf t
  let ends (c : Char) : Bool := t.getLast? = some c
  match k with
  | .symbol => !(starts ['\''] && !ends '\'')
  | .string => !(starts ['"'] && !ends '"')
  | .cString => !(starts ['c', '"'] && !ends '"')
  | .rawString => !(starts ['r', '"'] && !ends '"')
  | .tString => !(starts ['t', '"'] && !ends '"')
  | .sString => !(starts ['s', '"'] && !ends '"')
  | .singleQuoteIdentifier => !(starts ['\''] && !ends '\'')
  | _ => true

end Verif.Fmt
