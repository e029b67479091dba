import Verif.ArithModel
/-!
# Random streams, shuffling and sampling

Transcription of `src/eval/stg/prng.rs`, `src/eval/stg/stream_prng.rs`, the `random` block of
`lib/prelude.eu` (lines 142-245) and the vec operations of `src/eval/stg/vec.rs` and
`src/eval/memory/vec.rs`.
-/

namespace Verif.Rand

open Verif.Arith (Num)

/-- `u64`: all its operations here are the wrapping ones. -/
abbrev Word := BitVec 64

/-- `GOLDEN`, prng.rs:6. -/
def golden : Word := 0x9e3779b97f4a7c15#64

/-- `splitmix64`, prng.rs:11-18: the next state and the output. -/
def splitmix64 (seed : Word) : Word × Word :=
  let state := seed + golden
  let z := state
  let z := (z ^^^ (z >>> 30)) * 0xbf58476d1ce4e5b9#64
  let z := (z ^^^ (z >>> 27)) * 0x94d049bb133111eb#64
  let z := z ^^^ (z >>> 31)
  (state, z)

/-- `seed_to_u64`, prng.rs:22-32.  `bits` stands for `f64::to_bits`. -/
def seedToU64 (bits : Int → Word) : Num → Word
  | .pos n => BitVec.ofNat 64 n
  | .neg i => BitVec.ofInt 64 i
  | .float v => bits v

/-- The `i64` cast of `machine_return_int_stream`, stream_prng.rs:103-113. -/
def asI64 (w : Word) : Int := w.toInt

/-- `(z >> 11) as f64 / ((1u64 << 53) as f64)`, stream_prng.rs:161, 223: in units of `2^-1074`. -/
def floatOf (z : Word) : Int :=
  Arith.fdiv (Arith.asF64 (.pos (z >>> 11).toNat)) (Arith.asF64 (.pos (2 ^ 53)))

/-- `STREAM_VALUE`, stream_prng.rs:159-168. -/
def streamValue (s : Word) : Int := floatOf (splitmix64 s).2

/-- `STREAM_ADVANCE`, stream_prng.rs:188-193. -/
def streamAdvance (s : Word) : Word := (splitmix64 s).1

/-- `STREAM_FLOAT`, stream_prng.rs:212-222. -/
def streamFloat (s : Word) : Int × Word :=
  let (next, z) := splitmix64 s
  (floatOf z, next)

/-- The bound: `n_num.as_u64().unwrap_or(1).max(1)`, stream_prng.rs:246. -/
def boundOf (n : Num) : Nat :=
  let m := match n with
    | .pos n => n
    | _ => 1
  max m 1

/-- `STREAM_INT`, stream_prng.rs:238-252. -/
def streamInt (n : Num) (s : Word) : Int × Word :=
  let n := BitVec.ofNat 64 (boundOf n)
  let (next, z) := splitmix64 s
  (asI64 (z % n), next)

/-- `STREAM_SPLIT`, stream_prng.rs:270-281. -/
def streamSplit (s : Word) : Word × Word :=
  let (next, z) := splitmix64 s
  (next, z)

/-! ## The prelude's random actions -/

/-- `stream-advance(n, s)`, lib/prelude.eu:149, with the intrinsic as a parameter. -/
def advanceBy {σ : Type} (advance : σ → σ) : Nat → σ → σ
  | 0, s => s
  | n + 1, s => advanceBy advance n (advance s)

def advanceN (n : Nat) (s : Word) : Word := advanceBy streamAdvance n s

/-- `random.as-list(s) take(n)`, lib/prelude.eu:169, 1385, with the intrinsics as parameters. -/
def takeBy {σ : Type} (value : σ → Int) (advance : σ → σ) : Nat → σ → List Int
  | 0, _ => []
  | n + 1, s => value s :: takeBy value advance n (advance s)

def takeFloats (n : Nat) (s : Word) : List Int := takeBy streamValue streamAdvance n s

/-- `drop(n, l)`, lib/prelude.eu:1390, with a possibly negative count: `none` when it runs off the
end of the list (`tail` of an empty list is an error). -/
def dropI {α : Type} (n : Int) (l : List α) : Option (List α) :=
  if n = 0 then some l
  else match l with
    | [] => none
    | _ :: l => dropI (n - 1) l

/-- `take(n, l)`, lib/prelude.eu:1385. -/
def takeI {α : Type} (n : Int) (l : List α) : List α :=
  match l with
  | [] => []
  | x :: l => if n = 0 then [] else x :: takeI (n - 1) l

/-- `shuffle-impl` and `shuffle-step` of `random.shuffle`, lib/prelude.eu:206-221, with the
`int` action as a parameter.  `none` is an error raised by `head` or `tail` of an empty list. -/
def shuffleImpl {α σ : Type} (int : Nat → σ → Int × σ) (remaining : List α) (n : Nat) (acc : List α) (stream : σ) :
    Option (List α × σ) :=
  match n with
  | 0 => some (acc, stream)
  | n + 1 =>
    match dropI (int (n + 1) stream).1 remaining with
    | some (picked :: _) =>
      match dropI ((int (n + 1) stream).1 + 1) remaining with
      | some rest =>
        shuffleImpl int (takeI (int (n + 1) stream).1 remaining ++ rest) n (picked :: acc) (int (n + 1) stream).2
      | none => none
    | _ => none

/-- `random.shuffle(lst)`, lib/prelude.eu:206-221. -/
def shuffle {α : Type} (lst : List α) (stream : Word) : Option (List α × Word) :=
  shuffleImpl (fun n s => streamInt (.pos n) s) lst lst.length [] stream

/-- `random.sample(n, lst)`, lib/prelude.eu:225-229. -/
def sample {α : Type} (n : Nat) (lst : List α) (stream : Word) : Option (List α × Word) :=
  (shuffle lst stream).map fun r => (takeI n r.1, r.2)

/-- `nth(n, l)`, lib/prelude.eu:1442-1447: `none` is the panic. -/
def nthI {α : Type} (n : Int) (l : List α) : Option α :=
  match l with
  | [] => none
  | x :: l => if n = 0 then some x else nthI (n - 1) l

/-- `random.choice(lst)`, lib/prelude.eu:197-202. -/
def choice {α : Type} (lst : List α) (stream : Word) : Option (α × Word) :=
  let r := streamInt (.pos lst.length) stream
  (nthI r.1 lst).map fun x => (x, r.2)

/-! ## Vecs -/

/-- `f as usize`: saturating, towards zero. -/
def toUsize (v : Int) : Nat := min (Int.tdiv v Arith.unit).toNat (2 ^ 64 - 1)

/-- `slice::swap`: `none` is the index panic. -/
def swap {α : Type} (xs : Array α) (i j : Nat) : Option (Array α) :=
  if h : i < xs.size ∧ j < xs.size then some (xs.swap i j h.1 h.2) else none

/-- The loop of `VEC.SAMPLE` and `SET.SAMPLE`, vec.rs:263-267, set.rs:446-450, from step `i`. -/
def sampleLoop (len : Nat) : List Int → Nat → Array Nat → Option (Array Nat)
  | [], _, idx => some idx
  | f :: fs, i, idx =>
    let remaining := len - i
    let j := i + toUsize (Arith.fmul f (Arith.asF64 (.pos remaining))) % remaining
    match swap idx i j with
    | some idx => sampleLoop len fs (i + 1) idx
    | none => none

/-- `VEC.SAMPLE`, vec.rs:248-275. -/
def vecSample {α : Type} (floats : List Int) (v : Array α) : Option (List α) :=
  let len := v.size
  let count := min floats.length len
  (sampleLoop len (floats.take count) 0 (Array.range len)).map fun idx =>
    (idx.toList.take count).filterMap fun i => v[i]?

/-- The loop of `VEC.SHUFFLE`, vec.rs:316-323, from step `step`.  `len - 1 - step` is a `usize`
subtraction: `none` when it underflows or the swap is out of bounds. -/
def shuffleLoop {α : Type} (len : Nat) : List Int → Nat → Array α → Option (Array α)
  | [], _, xs => some xs
  | f :: fs, step, xs =>
    if len < 1 + step then none
    else
      let i := len - 1 - step
      if i = 0 then some xs
      else
        let j := toUsize (Arith.fmul f (Arith.asF64 (.pos (i + 1)))) % (i + 1)
        match swap xs i j with
        | some xs => shuffleLoop len fs (step + 1) xs
        | none => none

/-- `VEC.SHUFFLE`, vec.rs:304-329. -/
def vecShuffle {α : Type} (floats : List Int) (v : Array α) : Option (Array α) :=
  shuffleLoop v.size floats 0 v

/-- `vec.shuffle(v, stream)`, lib/prelude.eu:2078-2083, for a non-empty vec: for an empty one
`needed` is -1 and `take` never stops. -/
def preludeVecShuffle {α : Type} (v : Array α) (stream : Word) : Option (Array α × Word) :=
  let needed := v.size - 1
  (vecShuffle (takeFloats needed stream) v).map fun r => (r, advanceN needed stream)

/-- `vec.sample(n, v, stream)`, lib/prelude.eu:2067-2071. -/
def preludeVecSample {α : Type} (n : Nat) (v : Array α) (stream : Word) : Option (List α × Word) :=
  (vecSample (takeFloats n stream) v).map fun r => (r, advanceN n stream)

/-- An index argument: `as_u64`, else the double cast, vec.rs:116-122, 184-190. -/
def indexOf : Num → Nat
  | .pos n => n
  | n => toUsize (Arith.asF64 n)

/-- `VEC.NTH`, vec.rs:109-157: `none` is the out of bounds error. -/
def vecNth {α : Type} (n : Num) (v : Array α) : Option α := v[indexOf n]?

/-- `&v[from..to]`: `none` is the slice index panic. -/
def range {α : Type} (v : Array α) (frm to : Nat) : Option (Array α) :=
  if frm ≤ to ∧ to ≤ v.size then some (v.extract frm to) else none

/-- `HeapVec::slice`, src/eval/memory/vec.rs:53-59. -/
def heapSlice {α : Type} (v : Array α) (frm to : Nat) : Option (Array α) :=
  let frm := min frm v.size
  let to := max (min to v.size) frm
  range v frm to

/-- `VEC.SLICE`, vec.rs:176-214. -/
def vecSlice {α : Type} (frm to : Num) (v : Array α) : Option (Array α) := heapSlice v (indexOf frm) (indexOf to)

end Verif.Rand
