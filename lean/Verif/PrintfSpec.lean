import Verif.PrintfModel

/-!
# What formatted text and base64 are to be

Nothing here looks at how a format is read or how a value is written.
-/

namespace Verif.Printf

/-- The characters that are flags, each at any place among the flags and any number of times. -/
def flagChars : Str := "-+ 0'#".toList

/-- The lengths C has. -/
def lengths : List Str := [[], ['h'], ['h', 'h'], ['l'], ['l', 'l'], ['z'], ['t']]

/-- The specifiers there are. -/
def specChars : List (Char × Spec) :=
  [('d', .int), ('i', .int), ('x', .hex), ('X', .upperHex), ('u', .uint), ('o', .octal),
   ('e', .sci), ('E', .upperSci), ('f', .double), ('F', .double), ('g', .double), ('G', .double),
   ('a', .double), ('A', .double), ('s', .str), ('c', .chr)]

/-- The value of a digit. -/
def digit (c : Char) : Nat :=
  if c.isDigit then c.toNat - 48 else if c.isUpper then c.toNat - 55 else c.toNat - 87

/-- The value of digits in a base, the first digit being the highest. -/
def valueIn (b : Nat) : Str → Nat
  | [] => 0
  | c :: s => digit c * b ^ s.length + valueIn b s

/-- A directive: `%`, flags, a width that does not begin with zero, a dot and a precision, a length
and a specifier. -/
structure Directive where
  flags : Str
  width : Str
  precision : Option Str
  length : Str
  spec : Char

structure Directive.Ok (d : Directive) : Prop where
  flags : ∀ c ∈ d.flags, c ∈ flagChars
  width : ∀ c ∈ d.width, c.isDigit = true
  nonzero : d.width.head? ≠ some '0'
  precision : ∀ p, d.precision = some p → ∀ c ∈ p, c.isDigit = true
  length : d.length ∈ lengths

/-- A dot and a precision, or nothing. -/
def dotted : Option Str → Str
  | some p => '.' :: p
  | none => []

/-- Its text. -/
def Directive.text (d : Directive) : Str :=
  '%' :: (d.flags ++ (d.width ++
    (dotted d.precision ++ (d.length ++ [d.spec]))))

/-- What it asks for. -/
def Directive.asks (d : Directive) (k : Spec) : Arg :=
  { flags :=
      { left := '-' ∈ d.flags, plus := '+' ∈ d.flags, space := ' ' ∈ d.flags,
        zero := '0' ∈ d.flags, group := '\'' ∈ d.flags, alt := '#' ∈ d.flags }
    width := valueIn 10 d.width
    precision := d.precision.map (valueIn 10)
    spec := k }

/-- `o` is `t` made up to the width by blanks, on the side asked for. -/
def Padded (left : Bool) (w : Nat) (t o : Str) : Prop :=
  o.length = max w t.length ∧
    ∃ b : Str, (∀ c ∈ b, c = ' ') ∧ (if left = true then o = t ++ b else o = b ++ t)

/-- `o` is a number with its sign made up to the width: with zeros after the sign if they are asked for
and it is not to the left, or with blanks. -/
def PaddedNum (f : Flags) (w : Nat) (sign body o : Str) : Prop :=
  o.length = max w (sign.length + body.length) ∧
    if f.left = false ∧ f.zero = true then
      ∃ z : Str, (∀ c ∈ z, c = '0') ∧ o = sign ++ z ++ body
    else ∃ b : Str, (∀ c ∈ b, c = ' ') ∧
      (if f.left = true then o = sign ++ body ++ b else o = b ++ sign ++ body)

/-- `t` is the number `m / 10 ^ p` in decimal, with `p` digits after the point. -/
def Decimal (p m : Nat) (t : Str) : Prop :=
  ∃ whole frac : Str, whole ≠ [] ∧ (∀ c ∈ whole, c.isDigit = true) ∧ (∀ c ∈ frac, c.isDigit = true) ∧
    frac.length = p ∧ t = (if p = 0 then whole else whole ++ '.' :: frac) ∧
    m = valueIn 10 whole * 10 ^ p + valueIn 10 frac

/-! ## Base64 -/

/-- The lowest `k` bits of a number, the highest first. -/
def bits : Nat → Nat → List Bool
  | 0, _ => []
  | k + 1, n => bits k (n / 2) ++ [n % 2 == 1]

/-- The symbol for six bits: the letters, first upper and then lower case, the digits, plus and slash. -/
def sixBits (v : Nat) : Char :=
  if v < 26 then Char.ofNat ('A'.toNat + v)
  else if v < 52 then Char.ofNat ('a'.toNat + (v - 26))
  else if v < 62 then Char.ofNat ('0'.toNat + (v - 52))
  else if v = 62 then '+' else '/'

/-- `t` is the base64 of `bs` (RFC 4648, section 4): the bits of the bytes with zeros after them to fill
the last symbol, in sixes, each written as its symbol, and `=` to make
the length a multiple of four. -/
def IsBase64 (bs : List Nat) (t : Str) : Prop :=
  ∃ (vs : List Nat) (k e : Nat), (∀ v ∈ vs, v < 64) ∧ k < 6 ∧ e < 4 ∧
    vs.flatMap (bits 6) = bs.flatMap (bits 8) ++ List.replicate k false ∧
    t = vs.map sixBits ++ List.replicate e '=' ∧ t.length % 4 = 0

end Verif.Printf
