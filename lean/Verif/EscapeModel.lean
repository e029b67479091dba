/-!
# Escape sequences of c-strings

Transcription of `src/core/desugar/escape.rs`.  A Rust `char` is a Unicode scalar value, and so is a Lean
`Char`; `chars()` of a string is a list of them.
-/

namespace Verif.Escape

/-- `EscapeError`, escape.rs:12-25.  The text in `TruncatedEscape` is left out. -/
inductive Err where
  | invalidEscape (c : Char)
  | truncatedEscape
  | invalidHexDigit (c : Char)
  | invalidCodePoint (n : Nat)
  | unexpectedEnd
  deriving DecidableEq, Repr

/-- `char::is_ascii_hexdigit` with the value `from_str_radix(.., 16)` gives the digit (std). -/
def hexDigit (c : Char) : Option Nat :=
  if '0' ≤ c ∧ c ≤ '9' then some (c.toNat - '0'.toNat)
  else if 'a' ≤ c ∧ c ≤ 'f' then some (c.toNat - 'a'.toNat + 10)
  else if 'A' ≤ c ∧ c ≤ 'F' then some (c.toNat - 'A'.toNat + 10)
  else none

/-- `read_hex_digits`, escape.rs:95-114: the digits read and what is left. -/
def readHex : Nat → List Char → Except Err (List Char × List Char)
  | 0, cs => .ok ([], cs)
  | _ + 1, [] => .error .truncatedEscape
  | n + 1, c :: cs =>
    match hexDigit c with
    | none => .error (.invalidHexDigit c)
    | some _ => do
      let r ← readHex n cs
      .ok (c :: r.1, r.2)

/-- The loop of `uN::from_str_radix(.., 16)` (std), `bound` being `2^N`: `none` on overflow. -/
def fromStrRadix16 (bound : Nat) : Nat → List Char → Option Nat
  | acc, [] => some acc
  | acc, c :: cs =>
    match hexDigit c with
    | none => none
    | some d => if acc * 16 + d < bound then fromStrRadix16 bound (acc * 16 + d) cs else none

/-- `char::from_u32` (std). -/
def charFromU32 (n : Nat) : Option Char :=
  if h : n.isValidChar then some (Char.ofNatAux n h) else none

/-- `u8::from_str_radix` etc. with `map_err`, escape.rs:59-60, 66-67, 74-75. -/
def parseHex (bound : Nat) (ds : List Char) : Except Err Nat :=
  match fromStrRadix16 bound 0 ds with
  | some n => .ok n
  | none => .error .truncatedEscape

/-- `char_from_code_point`, escape.rs:117-119. -/
def charFromCodePoint (n : Nat) : Except Err Char :=
  match charFromU32 n with
  | some c => .ok c
  | none => .error (.invalidCodePoint n)

/-- The escape after a backslash, escape.rs:47-86: the character and what is left. -/
def escape1 : List Char → Except Err (Char × List Char)
  | 'n' :: cs => .ok ('\n', cs)
  | 'r' :: cs => .ok ('\r', cs)
  | 't' :: cs => .ok ('\t', cs)
  | '\\' :: cs => .ok ('\\', cs)
  | '"' :: cs => .ok ('"', cs)
  | '0' :: cs => .ok ('\x00', cs)
  | '{' :: cs => .ok ('{', cs)
  | '}' :: cs => .ok ('}', cs)
  | 'x' :: cs => do
    let (ds, cs) ← readHex 2 cs
    let byte ← parseHex 256 ds
    -- `byte as char`, defined for every byte
    let c ← charFromCodePoint byte
    .ok (c, cs)
  | 'u' :: cs => do
    let (ds, cs) ← readHex 4 cs
    let n ← parseHex (2 ^ 32) ds
    let c ← charFromCodePoint n
    .ok (c, cs)
  | 'U' :: cs => do
    let (ds, cs) ← readHex 8 cs
    let n ← parseHex (2 ^ 32) ds
    let c ← charFromCodePoint n
    .ok (c, cs)
  | c :: _ => .error (.invalidEscape c)
  | [] => .error .unexpectedEnd

/-- `process_escapes`, escape.rs:41-92.  The loop consumes at least one character each time round: `fuel`
is the number of characters left (see `decode`). -/
def loop : Nat → List Char → Except Err (List Char)
  | _, [] => .ok []
  | 0, _ :: _ => .ok []
  | fuel + 1, c :: cs =>
    if c = '\\' then do
      let (d, rest) ← escape1 cs
      let out ← loop fuel rest
      .ok (d :: out)
    else do
      let out ← loop fuel cs
      .ok (c :: out)

def decode (cs : List Char) : Except Err (List Char) := loop cs.length cs

/-! ## Specification -/

/-- The hexadecimal digits, in upper and lower case. -/
def lowerDigits : List Char := ['0', '1', '2', '3', '4', '5', '6', '7', '8', '9', 'a', 'b', 'c', 'd', 'e', 'f']
def upperDigits : List Char := ['0', '1', '2', '3', '4', '5', '6', '7', '8', '9', 'A', 'B', 'C', 'D', 'E', 'F']
def HexDigit (c : Char) (d : Nat) : Prop := lowerDigits[d]? = some c ∨ upperDigits[d]? = some c
instance (c : Char) (d : Nat) : Decidable (HexDigit c d) := inferInstanceAs (Decidable (_ ∨ _))

/-- The value of a number written in hexadecimal. -/
inductive HexNum : List Char → Nat → Prop
  | nil : HexNum [] 0
  | snoc {ds n c d} : HexNum ds n → HexDigit c d → HexNum (ds ++ [c]) (16 * n + d)

/-- The one-character escapes. -/
def simpleEscapes : List (Char × Char) :=
  [('n', '\n'), ('r', '\r'), ('t', '\t'), ('\\', '\\'), ('"', '"'), ('0', Char.ofNat 0), ('{', '{'), ('}', '}')]

/-- The escapes of a code point, with the number of digits. -/
def hexEscapes : List (Char × Nat) := [('x', 2), ('u', 4), ('U', 8)]

/-- The documented grammar of c-strings: `Denotes src out`. -/
inductive Denotes : List Char → List Char → Prop
  | nil : Denotes [] []
  | plain {c src out} : c ≠ '\\' → Denotes src out → Denotes (c :: src) (c :: out)
  | simple {k c src out} : (k, c) ∈ simpleEscapes → Denotes src out → Denotes ('\\' :: k :: src) (c :: out)
  | hex {k n ds c src out} : (k, n) ∈ hexEscapes → ds.length = n → HexNum ds c.toNat → Denotes src out →
      Denotes ('\\' :: k :: ds ++ src) (c :: out)

/-- What is wrong after the backslash of a malformed escape. -/
inductive Bad : List Char → Err → Prop
  | atEnd : Bad [] .unexpectedEnd
  | unknown {c rest} : (∀ p ∈ simpleEscapes, p.1 ≠ c) → (∀ p ∈ hexEscapes, p.1 ≠ c) → Bad (c :: rest) (.invalidEscape c)
  | short {k n ds} : (k, n) ∈ hexEscapes → ds.length < n → (∀ c ∈ ds, ∃ d, HexDigit c d) → Bad (k :: ds) .truncatedEscape
  | digit {k n ds c rest} : (k, n) ∈ hexEscapes → ds.length < n → (∀ c ∈ ds, ∃ d, HexDigit c d) →
      (∀ d, ¬ HexDigit c d) → Bad (k :: ds ++ c :: rest) (.invalidHexDigit c)
  | codePoint {k n ds m rest} : (k, n) ∈ hexEscapes → ds.length = n → HexNum ds m → (∀ c : Char, c.toNat ≠ m) →
      Bad (k :: ds ++ rest) (.invalidCodePoint m)

/-- Writing a character as `\U` and eight digits. -/
def hexChar (d : Nat) : Char := lowerDigits.getD d '0'
def longEscape (c : Char) : List Char :=
  '\\' :: 'U' :: [28, 24, 20, 16, 12, 8, 4, 0].map fun k => hexChar (c.toNat / 2 ^ k % 16)

end Verif.Escape
