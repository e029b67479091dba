import Verif.ArithModel

/-!
# Formatting values

Model of eval/stg/printf.rs and of the intrinsic FMT in eval/stg/string.rs, which `str.fmt` and
interpolations with a format (`{x:%05d}`) call, and of the base64 functions of eval/stg/encoding.rs.

Numbers are those of `Arith`. What Rust's formatting does with widths, signs and precisions is written
out (`pad`, `fixed`); the shortest digits of a double and its scientific notation are parameters.
Widths are natural numbers: in Rust they are machine words and are limited.
-/

namespace Verif.Printf

open Verif.Arith

abbrev Str := List Char

/-- `Flags`, eval/stg/printf.rs:22-62. -/
structure Flags where
  left : Bool := false
  plus : Bool := false
  space : Bool := false
  zero : Bool := false
  group : Bool := false
  alt : Bool := false
  deriving DecidableEq

/-- `Specifier`, eval/stg/printf.rs:87-110. The forms of a double that are all written alike are one
(eval/stg/printf.rs:363-369). -/
inductive Spec where
  | int | uint | octal | double | sci | upperSci | str | chr | hex | upperHex
  deriving DecidableEq

/-- `Argument`, eval/stg/printf.rs:113-119; the length is read and not used. -/
structure Arg where
  flags : Flags
  width : Nat
  precision : Option Nat
  spec : Spec
  deriving DecidableEq

/-- One flag, eval/stg/printf.rs:129-137. -/
def addFlag (f : Flags) (c : Char) : Option Flags :=
  if c = '-' then some { f with left := true }
  else if c = '+' then some { f with plus := true }
  else if c = ' ' then some { f with space := true }
  else if c = '0' then some { f with zero := true }
  else if c = '\'' then some { f with group := true }
  else if c = '#' then some { f with alt := true }
  else none

/-- `parse_flags`, eval/stg/printf.rs:126-141. -/
def parseFlags (f : Flags) : Str → Flags × Str
  | [] => (f, [])
  | c :: s => match addFlag f c with
    | some f' => parseFlags f' s
    | none => (f, c :: s)

/-- `parse_width`, eval/stg/printf.rs:147-158. -/
def parseWidth (w : Nat) : Str → Nat × Str
  | [] => (w, [])
  | c :: s => if c.isDigit then parseWidth (w * 10 + (c.toNat - 48)) s else (w, c :: s)

/-- `parse_precision`, eval/stg/printf.rs:164-172. -/
def parsePrecision : Str → Option Nat × Str
  | '.' :: s => let r := parseWidth 0 s; (some r.1, r.2)
  | s => (none, s)

/-- `parse_length`, eval/stg/printf.rs:192-206: what is left. -/
def parseLength : Str → Str
  | 'h' :: 'h' :: s => s
  | 'h' :: s => s
  | 'l' :: 'l' :: s => s
  | 'l' :: s => s
  | 'z' :: s => s
  | 't' :: s => s
  | s => s

/-- The specifier, eval/stg/printf.rs:223-256. -/
def specOf (c : Char) : Option Spec :=
  if c = 'd' ∨ c = 'i' then some .int
  else if c = 'x' then some .hex
  else if c = 'X' then some .upperHex
  else if c = 'u' then some .uint
  else if c = 'o' then some .octal
  else if c = 'e' then some .sci
  else if c = 'E' then some .upperSci
  else if c = 'f' ∨ c = 'F' ∨ c = 'g' ∨ c = 'G' ∨ c = 'a' ∨ c = 'A' then some .double
  else if c = 's' then some .str
  else if c = 'c' then some .chr
  else none

/-- `parse_format`, eval/stg/printf.rs:211-265. What comes after the specifier is not looked at. -/
def parseFormat : Str → Option Arg
  | '%' :: s =>
    let (f, s) := parseFlags {} s
    let (w, s) := parseWidth 0 s
    let (p, s) := parsePrecision s
    match parseLength s with
    | c :: _ => (specOf c).map fun k => ⟨f, w, p, k⟩
    | [] => none
  | _ => none

/-! ## Writing -/

/-- Text to a precision. -/
def cut (p : Option Nat) (s : Str) : Str := match p with | some n => s.take n | none => s

/-- `Formatter::pad` for text: `{string:width$.precision$}` and with `>`, as used by `write_str`,
eval/stg/printf.rs:278-291. The precision by default is the length in bytes, which is no less than
that in characters. -/
def writeStr (f : Flags) (w : Nat) (p : Option Nat) (s : Str) : Str :=
  let t := cut p s
  let fill := List.replicate (w - t.length) ' '
  if f.left then t ++ fill else fill ++ t

/-- Padding of numbers, `Formatter::pad_integral` and `pad_formatted_parts`: zeros go between the sign
and the digits. The choices are those at eval/stg/printf.rs:382-398. -/
def pad (f : Flags) (w : Nat) (sign body : Str) : Str :=
  let n := w - (sign.length + body.length)
  if f.left then sign ++ body ++ List.replicate n ' '
  else if f.zero then sign ++ List.replicate n '0' ++ body
  else List.replicate n ' ' ++ sign ++ body

/-- What Rust writes for a double that is not negative: the shortest digits that read as it, and the
scientific notation. -/
structure Digits where
  short : Nat → Str
  sci : Bool → Option Nat → Nat → Str

/-- The nearest whole number, ties to even. -/
def nearest (num den : Nat) : Nat :=
  let q := num / den
  let r := num % den
  if den < 2 * r ∨ (2 * r = den ∧ q % 2 = 1) then q + 1 else q

/-- Digits in a base, filled with zeros. -/
def fill (n : Nat) (s : Str) : Str := List.replicate (n - s.length) '0' ++ s

/-- `{:.p}` for a double. -/
def fixed (p a : Nat) : Str :=
  let m := nearest (a * 10 ^ p) unit
  Nat.toDigits 10 (m / 10 ^ p) ++
    (if p = 0 then [] else '.' :: fill p (Nat.toDigits 10 (m % 10 ^ p)))

/-- The sign of a double, `{:+}` or plain. -/
def signOf (f : Flags) (v : Int) : Str := if v < 0 then ['-'] else if f.plus then ['+'] else []

/-- `i64` as an unsigned word, as `{:x}` and `{:o}` have it. -/
def word (i : Int) : Nat := (i % 2 ^ 64).toNat

/-- `{}` and `{:.p}` for a double that is not negative, eval/stg/printf.rs:301-322. -/
def plainBody (d : Digits) (p : Option Nat) (a : Nat) : Str :=
  match p with | some p => fixed p a | none => d.short a

/-- `write_numeric`, eval/stg/printf.rs:293-399; `none` is `ConversionError`. Precisions count for
nothing with whole numbers. -/
def writeNum (d : Digits) (g : Arg) (n : Num) : Option Str :=
  let based (b : Nat) (up : Bool) : Option Str := (asI64 n).map fun i =>
    let ds := Nat.toDigits b (word i)
    pad g.flags g.width (if g.flags.plus then ['+'] else []) (if up then ds.map Char.toUpper else ds)
  let v := asF64 n
  match g.spec with
  | .octal => based 8 false
  | .hex => based 16 false
  | .upperHex => based 16 true
  | .sci => some (pad g.flags g.width (signOf g.flags v) (d.sci false g.precision v.natAbs))
  | .upperSci => some (pad g.flags g.width (signOf g.flags v) (d.sci true g.precision v.natAbs))
  | _ => some (pad g.flags g.width (signOf g.flags v) (plainBody d g.precision v.natAbs))

inductive Value where
  /-- a string or a symbol -/
  | text (s : Str)
  | num (n : Num)
  | bool (b : Bool)
  | unit
  /-- a date, with its text -/
  | date (s : Str)
  /-- an array, a set, a vector -/
  | other

inductive Failure where
  | badFormat
  | badNumber
  deriving DecidableEq

/-- The intrinsic FMT, eval/stg/string.rs:324-428, and `fmt`, eval/stg/printf.rs:402-484. -/
def fmt (d : Digits) (x : Value) (s : Str) : Except Failure Str :=
  match x with
  | .bool b => .ok (if b then "true".toList else "false".toList)
  | .unit => .ok "null".toList
  | _ => match parseFormat s with
    | none => .error .badFormat
    | some g => match x with
      | .text t => .ok (writeStr g.flags g.width g.precision t)
      | .num n => match writeNum d g n with
        | some t => .ok t
        | none => .error .badNumber
      | .date t => .ok t
      | _ => .error .badFormat

/-! ## Base64 -/

/-- The standard alphabet. -/
def alphabet : Str := "ABCDEFGHIJKLMNOPQRSTUVWXYZabcdefghijklmnopqrstuvwxyz0123456789+/".toList

def symbol (n : Nat) : Char := alphabet.getD n '='

/-- The value of a symbol. -/
def valueOf (c : Char) : Option Nat := alphabet.findIdx? (· == c)

/-- `STANDARD.encode`, eval/stg/encoding.rs:31: groups of three bytes, padded. -/
def encode : List Nat → Str
  | a :: b :: c :: r =>
    symbol (a / 4) :: symbol (a % 4 * 16 + b / 16) :: symbol (b % 16 * 4 + c / 64) :: symbol (c % 64) ::
      encode r
  | [a, b] => [symbol (a / 4), symbol (a % 4 * 16 + b / 16), symbol (b % 16 * 4), '=']
  | [a] => [symbol (a / 4), symbol (a % 4 * 16), '=', '=']
  | [] => []

/-- `STANDARD.decode`, eval/stg/encoding.rs:55: padding is required, and bits that are left over have
to be zero. -/
def decode : Str → Option (List Nat)
  | [] => some []
  | [w, x, '=', '='] => match valueOf w, valueOf x with
    | some w, some x => if x % 16 = 0 then some [w * 4 + x / 16] else none
    | _, _ => none
  | [w, x, y, '='] => match valueOf w, valueOf x, valueOf y with
    | some w, some x, some y =>
      if y % 4 = 0 then some [w * 4 + x / 16, x % 16 * 16 + y / 4] else none
    | _, _, _ => none
  | w :: x :: y :: z :: r => match valueOf w, valueOf x, valueOf y, valueOf z, decode r with
    | some w, some x, some y, some z, some r =>
      some ((w * 4 + x / 16) :: (x % 16 * 16 + y / 4) :: (y % 4 * 64 + z) :: r)
    | _, _, _, _, _ => none
  | _ => none

/-- `input.as_bytes()`. -/
noncomputable def bytesOf (s : Str) : List Nat := s.utf8Encode.data.toList.map UInt8.toNat

/-- `String::from_utf8`. -/
def textOf (l : List Nat) : Option Str :=
  (ByteArray.mk (l.map UInt8.ofNat).toArray).utf8Decode?.map Array.toList

inductive B64Failure where
  | notBase64
  | notText
  deriving DecidableEq

/-- BASE64_ENCODE, eval/stg/encoding.rs:23-33. -/
noncomputable def encodeText (s : Str) : Str := encode (bytesOf s)

/-- BASE64_DECODE, eval/stg/encoding.rs:46-93; all messages for texts that are not base64 are one. -/
def decodeText (t : Str) : Except B64Failure Str :=
  match decode t with
  | none => .error .notBase64
  | some l => match textOf l with
    | none => .error .notText
    | some s => .ok s

end Verif.Printf
