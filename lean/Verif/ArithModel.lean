/-!
# Numbers and arithmetic intrinsics

Transcription of the numeric part of `src/eval/stg/arith.rs` and of `num_eq` in
`src/eval/stg/eq.rs`.

Numbers are `serde_json::Number` without arbitrary precision: an unsigned 64-bit integer, a
negative signed 64-bit integer, or a finite double.  A double is represented by its value in
units of `2^-1074` (every finite double is such a multiple), so IEEE operations are exact
integer operations followed by rounding to 53 significant bits.  The sign of zero is not
represented.  `powf` is a parameter.  NdArray operands are not modelled.
-/

namespace Verif.Arith

/-- One, in units of `2^-1074`. -/
def unit : Nat := 2 ^ 1074

/-- `serde_json::Number` (serde_json 1.0.149, `N::{PosInt, NegInt, Float}`). -/
inductive Num where
  | pos (n : Nat)
  | neg (i : Int)
  | float (v : Int)
deriving DecidableEq, Repr

inductive Err where
  | divByZero
  | range
  | domain
deriving DecidableEq, Repr

inductive Res where
  | ok (n : Num)
  | err (e : Err)
deriving DecidableEq, Repr

def minI64 : Int := -(2 ^ 63)
def maxI64 : Int := 2 ^ 63 - 1

/-- `Number::from(i64)` and `Number::from(u64)`. -/
def ofInt (i : Int) : Num := if i < 0 then .neg i else .pos i.toNat

/-- `Number::as_i64`. -/
def asI64 : Num → Option Int
  | .pos n => if (n : Int) ≤ maxI64 then some n else none
  | .neg i => some i
  | .float _ => none

/-- `Number::as_u64`. -/
def asU64 : Num → Option Int
  | .pos n => some n
  | _ => none

/-- Round the non-negative rational `num / den` to 53 significant bits, ties to even, never
below the unit: IEEE round-to-nearest including subnormals, without upper bound. -/
def rnd (num den : Nat) : Nat :=
  let k := (num / den).log2 - 52
  let d := den * 2 ^ k
  let q := num / d
  let r := num % d
  (if d < 2 * r ∨ (2 * r = d ∧ q % 2 = 1) then q + 1 else q) * 2 ^ k

/-- The same for a signed numerator. -/
def rndInt (num : Int) (den : Nat) : Int :=
  if num < 0 then -(rnd num.natAbs den : Int) else (rnd num.natAbs den : Int)

/-- `Number::as_f64`: `as f64` casts round to nearest. -/
def asF64 : Num → Int
  | .pos n => rndInt ((n : Int) * unit) 1
  | .neg i => rndInt (i * unit) 1
  | .float v => v

/-- `Number::from_f64`: fails for infinities (`≥ 2^1024`). -/
def fromF64 (v : Int) : Option Num := if v.natAbs < 2 ^ 2098 then some (.float v) else none

/-- IEEE operations.  `fdiv` is used with non-zero divisors only. -/
def fadd (a b : Int) : Int := rndInt (a + b) 1
def fsub (a b : Int) : Int := rndInt (a - b) 1
def fmul (a b : Int) : Int := rndInt (a * b) unit
def fdiv (a b : Int) : Int :=
  if (a < 0) = (b < 0) then (rnd (a.natAbs * unit) b.natAbs : Int) else -(rnd (a.natAbs * unit) b.natAbs : Int)
/-- `f64::floor`, `f64::ceil`, `f64::trunc`, `%` are exact. -/
def ffloor (a : Int) : Int := Int.fdiv a unit * unit
def fceil (a : Int) : Int := -(Int.fdiv (-a) unit * unit)
def ftrunc (a : Int) : Int := Int.tdiv a unit * unit
def frem (a b : Int) : Int := Int.tmod a b

/-- `is_zero`, src/eval/stg/arith.rs:32-34. -/
def isZero (n : Num) : Bool := asI64 n == some 0 || asU64 n == some 0 || asF64 n == 0

def chkI (i : Int) : Option Int := if minI64 ≤ i ∧ i ≤ maxI64 then some i else none
def chkU (i : Int) : Option Int := if 0 ≤ i ∧ i < 2 ^ 64 then some i else none

/-- `i64::checked_div`, `i64::checked_rem`: truncating; `None` on zero and on `MIN / -1`. -/
def checkedDiv (a b : Int) : Option Int := if b = 0 ∨ (a = minI64 ∧ b = -1) then none else some (Int.tdiv a b)
def checkedRem (a b : Int) : Option Int := if b = 0 ∨ (a = minI64 ∧ b = -1) then none else some (Int.tmod a b)

/-- `(r ^ b) < 0` on `i64`. -/
def xorNeg (r b : Int) : Bool := (BitVec.ofInt 64 r ^^^ BitVec.ofInt 64 b).toInt < 0

/-- `floor_div_i64`, src/eval/stg/arith.rs:40-50. -/
def floorDiv (a b : Int) : Option Int := do
  let d ← checkedDiv a b
  let r ← checkedRem a b
  if r ≠ 0 ∧ xorNeg r b then some (d - 1) else some d

/-- `floor_mod_i64`, src/eval/stg/arith.rs:56-63. -/
def floorMod (a b : Int) : Option Int := do
  let r ← checkedRem a b
  if r ≠ 0 ∧ xorNeg r b then some (r + b) else some r

/-- `as i64` from a double: truncating, saturating. -/
def castI64 (v : Int) : Int := max minI64 (min maxI64 (Int.tdiv v unit))

/-- `i64 as f64`. -/
def castF64 (i : Int) : Int := rndInt (i * unit) 1

/-- `num_from_floored`, src/eval/stg/arith.rs:67-75. -/
def numFromFloored (v : Int) : Option Num :=
  if v.natAbs < 2 ^ 2098 ∧ castF64 minI64 ≤ v ∧ v ≤ castF64 maxI64 then
    if castF64 (castI64 v) = v then some (ofInt (castI64 v)) else fromF64 v
  else fromF64 v

def okOr (e : Err) : Option Num → Res
  | some n => .ok n
  | none => .err e

/-- The chain of representations tried by every binary operation: both `i64`, both `u64`,
both `f64`. -/
def chain (si : Int → Int → Option Int) (ui : Int → Int → Option Int) (fl : Int → Int → Option Num) (x y : Num) : Res :=
  match asI64 x, asI64 y with
  | some l, some r => okOr .range ((si l r).map ofInt)
  | _, _ =>
    match asU64 x, asU64 y with
    | some l, some r => okOr .range ((ui l r).map ofInt)
    | _, _ => okOr .domain (fl (asF64 x) (asF64 y))

/-- `Add`, src/eval/stg/arith.rs:89-138 (scalar part). -/
def add (x y : Num) : Res :=
  chain (fun l r => chkI (l + r)) (fun l r => chkU (l + r)) (fun l r => fromF64 (fadd l r)) x y

/-- `Sub`, src/eval/stg/arith.rs:154-203. -/
def sub (x y : Num) : Res :=
  chain (fun l r => chkI (l - r)) (fun l r => chkU (l - r)) (fun l r => fromF64 (fsub l r)) x y

/-- `Mul`, src/eval/stg/arith.rs:219-268. -/
def mul (x y : Num) : Res :=
  chain (fun l r => chkI (l * r)) (fun l r => chkU (l * r)) (fun l r => fromF64 (fmul l r)) x y

/-- `u64::checked_div`, `u64::checked_rem`. -/
def checkedDivU (a b : Int) : Option Int := if b = 0 then none else some (a / b)
def checkedRemU (a b : Int) : Option Int := if b = 0 then none else some (a % b)

/-- `Div`, src/eval/stg/arith.rs:284-348. -/
def div (x y : Num) : Res :=
  if isZero y then .err .divByZero
  else chain floorDiv checkedDivU (fun l r => numFromFloored (ffloor (fdiv l r))) x y

/-- `Mod`, src/eval/stg/arith.rs:354-408. -/
def mod (x y : Num) : Res :=
  if isZero y then .err .divByZero
  else chain floorMod checkedRemU (fun l r => fromF64 (fsub l (fmul r (ffloor (fdiv l r))))) x y

/-- `Quot`, src/eval/stg/arith.rs:871-928. -/
def quot (x y : Num) : Res :=
  if isZero y then .err .divByZero
  else chain checkedDiv checkedDivU (fun l r => numFromFloored (ftrunc (fdiv l r))) x y

/-- `Rem`, src/eval/stg/arith.rs:931-988. -/
def rem (x y : Num) : Res :=
  if isZero y then .err .divByZero
  else chain checkedRem checkedRemU (fun l r => fromF64 (frem l r)) x y

/-- `PreciseDiv`, src/eval/stg/arith.rs:826-866. -/
def pdiv (x y : Num) : Res :=
  if isZero y then .err .divByZero else okOr .domain (fromF64 (fdiv (asF64 x) (asF64 y)))

/-- `checked_int_pow` (arith.rs:816-821) and `u64::checked_pow`. -/
def checkedIntPow (b e : Int) : Option Int := if e > 2 ^ 32 - 1 then none else chkI (b ^ e.toNat)
def checkedPowU (b e : Int) : Option Int := chkU (b ^ (min e (2 ^ 32 - 1)).toNat)

/-- `Pow`, src/eval/stg/arith.rs:762-814.  `powf` gives a finite double or nothing; the two
error values it distinguishes are merged. -/
def pow (powf : Int → Int → Option Int) (x y : Num) : Res :=
  let float := okOr .domain ((powf (asF64 x) (asF64 y)).map .float)
  match asI64 x, asU64 y with
  | some b, some e => match checkedIntPow b e with | some r => .ok (ofInt r) | none => float
  | _, _ =>
    match asU64 x, asU64 y with
    | some b, some e => match checkedPowU b e with | some r => .ok (ofInt r) | none => float
    | _, _ => float

/-- `num_ord`, src/eval/stg/arith.rs:519-536.  Doubles are finite so `partial_cmp` succeeds. -/
def numOrd (x y : Num) : Ordering :=
  match asI64 x, asI64 y with
  | some l, some r => compare l r
  | _, _ =>
    match asU64 x, asU64 y with
    | some l, some r => compare l r
    | _, _ => compare (asF64 x) (asF64 y)

/-- `Gt`, `Gte`, `Lt`, `Lte` on numbers, src/eval/stg/arith.rs:577-671. -/
def gt (x y : Num) : Bool := (numOrd x y).isGT
def gte (x y : Num) : Bool := (numOrd x y).isGE
def lt (x y : Num) : Bool := (numOrd x y).isLT
def lte (x y : Num) : Bool := (numOrd x y).isLE

/-- `num_eq`, src/eval/stg/eq.rs:82-92. -/
def numEq (x y : Num) : Bool :=
  match asI64 x, asI64 y with
  | some l, some r => l == r
  | _, _ =>
    match asU64 x, asU64 y with
    | some l, some r => l == r
    | _, _ => asF64 x == asF64 y

/-- `Floor` and `Ceil`, src/eval/stg/arith.rs:684-752. -/
def floor (x : Num) : Res :=
  match x with
  | .float v => okOr .domain (fromF64 (ffloor v))
  | x => .ok x
def ceil (x : Num) : Res :=
  match x with
  | .float v => okOr .domain (fromF64 (fceil v))
  | x => .ok x

/-- `require_i64`, src/eval/stg/arith.rs:992-1020.  `fract() == 0.0` is divisibility by the
unit. -/
def requireI64 : Num → Option Int
  | .pos n => if (n : Int) ≤ maxI64 then some n else none
  | .neg i => some i
  | .float v => if v % unit = 0 ∧ castF64 minI64 ≤ v ∧ v ≤ castF64 maxI64 then some (castI64 v) else none

end Verif.Arith
