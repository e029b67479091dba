import Mathlib.Algebra.BigOperators.Group.List.Basic

/-!
# Arrays

Transcription of `src/eval/memory/ndarray.rs`, `src/eval/stg/array.rs`, the rendering of arrays in `src/eval/stg/emit.rs`
and the functions `arr.…` of `lib/prelude.eu`.

The crate `ndarray` is not part of the repository.  An `ArrayD` is modelled by what its documentation says it is: a shape,
and the elements in the order in which `iter` gives them, by row.  The limit on the size of an array is left out.

The elements are doubles: any type, with operations and a test for being finite (`Floats`).  The numbers given for shapes,
coordinates and offsets are integers; doubles that are not are cut off in the code.  How lists are forced is left out.
-/

namespace Verif.Arr

/-- What is needed of doubles. -/
structure Floats where
  V : Type
  zero : V
  one : V
  finite : V → Bool
  add : V → V → V
  sub : V → V → V
  mul : V → V → V
  div : V → V → V

/-- `HeapNdArray`, ndarray.rs:15-18: the shape, and the elements by row. -/
structure Nd (V : Type) where
  shape : List Nat
  elems : List V
  deriving DecidableEq

/-- The errors, array.rs: `ArrayNegativeIndex`, `ArrayNdIndexOutOfBounds`, `ArrayShapeMismatch`. -/
inductive Err where
  | negative | bounds | shape
  deriving DecidableEq, Repr

abbrev Res (α : Type) := Except Err α

instance {α : Type} [DecidableEq α] : DecidableEq (Res α) := fun a b =>
  match a, b with
  | .ok x, .ok y => if h : x = y then isTrue (by rw [h]) else isFalse (by intro he; cases he; exact h rfl)
  | .error x, .error y => if h : x = y then isTrue (by rw [h]) else isFalse (by intro he; cases he; exact h rfl)
  | .ok _, .error _ => isFalse (by intro h; cases h)
  | .error _, .ok _ => isFalse (by intro h; cases h)

/-! ## The crate `ndarray` -/

/-- Where the element at some coordinates is, in the order by row; nothing outside the array. -/
def offset : List Nat → List Nat → Option Nat
  | [], [] => some 0
  | d :: ds, c :: cs => if c < d then (offset ds cs).map (c * ds.prod + ·) else none
  | _, _ => none

/-- `ArrayD::get`, as `HeapNdArray::get`, ndarray.rs:74-76. -/
def Nd.get {V : Type} (a : Nd V) (coords : List Nat) : Option V := (offset a.shape coords).bind (a.elems[·]?)

/-- The coordinates in the order of `iter`. -/
def positions : List Nat → List (List Nat)
  | [] => [[]]
  | d :: ds => (List.range d).flatMap fun c => (positions ds).map (c :: ·)

/-- The array of a shape with elements given by coordinates: what `to_owned` makes of a view. -/
def view {V : Type} (shape : List Nat) (f : List Nat → Option V) : Nd V := ⟨shape, (positions shape).filterMap f⟩

/-! ## ndarray.rs -/

/-- `zeros`, `filled`, ndarray.rs:28-40. -/
def filled {V : Type} (shape : List Nat) (v : V) : Nd V := ⟨shape, List.replicate shape.prod v⟩

/-- `from_flat`, ndarray.rs:43-47; `ArrayD::from_shape_vec`. -/
def fromFlatN {V : Type} (shape : List Nat) (values : List V) : Option (Nd V) :=
  if values.length = shape.prod then some ⟨shape, values⟩ else none

/-- `with_set`, ndarray.rs:79-84. -/
def Nd.withSet {V : Type} (a : Nd V) (coords : List Nat) (v : V) : Option (Nd V) :=
  (offset a.shape coords).bind fun i => if i < a.elems.length then some { a with elems := a.elems.set i v } else none

/-- `reshape`, ndarray.rs:87-90. -/
def Nd.reshape {V : Type} (a : Nd V) (shape : List Nat) : Option (Nd V) := fromFlatN shape a.elems

/-- `transpose`, ndarray.rs:93-99. -/
def Nd.transpose {V : Type} (a : Nd V) : Nd V := view a.shape.reverse fun c => a.get c.reverse

/-- `slice_along`, ndarray.rs:103-111. -/
def Nd.sliceAlong {V : Type} (a : Nd V) (axis index : Nat) : Option (Nd V) :=
  match a.shape[axis]? with
  | none => none
  | some d => if d ≤ index then none else some (view (a.shape.eraseIdx axis) fun c => a.get (c.insertIdx axis index))

/-- The strides, ndarray.rs:128-131. -/
def strides : List Nat → List Nat
  | [] => []
  | [_] => [1]
  | _ :: e :: ds =>
    match strides (e :: ds) with
    | s :: ss => s * e :: s :: ss
    | [] => []

/-- `indices`, ndarray.rs:122-141. -/
def Nd.indices {V : Type} (a : Nd V) : List (List Nat) :=
  if a.shape = [] then [[]]
  else (List.range a.elems.length).map fun flat => List.zipWith (fun d s => flat / s % d) a.shape (strides a.shape)

/-- A `usize` as an `i64`. -/
def asI64 (n : Nat) : Int := if n < 2 ^ 63 then n else n - 2 ^ 64

/-- Addition of `i64` as it is without checks for overflow. -/
def addI64 (a b : Int) : Int := (a + b).bmod (2 ^ 64)

/-- One coordinate of a neighbour, ndarray.rs:159-166. -/
def step (c : Nat) (o : Int) (dim : Nat) : Option Nat :=
  if addI64 (asI64 c) o < 0 ∨ asI64 dim ≤ addI64 (asI64 c) o then none else some (addI64 (asI64 c) o).toNat

/-- `map(…).collect::<Option<Vec<usize>>>()` over the three zipped, ndarray.rs:156-167. -/
def steps : List Nat → List Int → List Nat → Option (List Nat)
  | c :: cs, o :: os, d :: ds =>
    match step c o d with
    | none => none
    | some n => (steps cs os ds).map (n :: ·)
  | _, _, _ => some []

/-- `neighbours_values`, ndarray.rs:148-172. -/
def Nd.neighbours {V : Type} (a : Nd V) (coords : List Nat) (offsets : List (List Int)) : List V :=
  offsets.filterMap fun o =>
    if o.length ≠ coords.length then none
    else (steps coords o a.shape).bind a.get

/-- `zip_with`, ndarray.rs:182-190. -/
def Nd.zipWith {V : Type} (f : V → V → V) (a b : Nd V) : Option (Nd V) :=
  if a.shape ≠ b.shape then none else some ⟨a.shape, List.zipWith f a.elems b.elems⟩

/-- `scalar_op`, ndarray.rs:193-197. -/
def Nd.scalarOp {V : Type} (f : V → V → V) (a : Nd V) (s : V) : Nd V := ⟨a.shape, a.elems.map (f · s)⟩

/-! ## array.rs -/

/-- The greatest `usize`. -/
def usizeMax : Nat := 2 ^ 64 - 1

/-- A double as `usize`: cut off at both ends. -/
def asUsize (n : Int) : Nat := min n.toNat usizeMax

/-- A double as `i64`: cut off at both ends. -/
def satI64 (n : Int) : Int := max (-2 ^ 63) (min n (2 ^ 63 - 1))

/-- `num_list_to_usize_vec`, array.rs:756-774. -/
def toUsizes : List Int → Res (List Nat)
  | [] => .ok []
  | n :: ns => if n < 0 then .error .negative else (toUsizes ns).map (asUsize n :: ·)

variable (F : Floats)

/-- A double as a number of the language: `Number::from_f64(…).unwrap_or_else(|| Number::from(0))`. -/
def read (v : F.V) : F.V := if F.finite v then v else F.zero

/-- `ARRAY.FILL` and `ARRAY.ZEROS`, array.rs:69-71, 113-116. -/
def fill (shape : List Int) (v : F.V) : Res (Nd F.V) := (toUsizes shape).map (filled · v)
def zeros (shape : List Int) : Res (Nd F.V) := fill F shape F.zero

/-- `ARRAY.FROM_FLAT`, array.rs:148-166. -/
def fromFlat (shape : List Int) (values : List F.V) : Res (Nd F.V) := do
  let shape ← toUsizes shape
  match fromFlatN shape values with
  | some a => .ok a
  | none => .error .shape

/-- `ARRAY.GET`, array.rs:212-230. -/
def get (coords : List Int) (a : Nd F.V) : Res F.V := do
  let coords ← toUsizes coords
  match a.get coords with
  | some v => .ok (read F v)
  | none => .error .bounds

/-- `ARRAY.SET`, array.rs:277-293. -/
def set (coords : List Int) (v : F.V) (a : Nd F.V) : Res (Nd F.V) := do
  let coords ← toUsizes coords
  match a.withSet coords v with
  | some b => .ok b
  | none => .error .bounds

/-- `ARRAY.SHAPE`, `ARRAY.RANK`, `ARRAY.LENGTH`, `ARRAY.TO_LIST`, array.rs:306-385. -/
def shape (a : Nd F.V) : List Int := a.shape.map Int.ofNat
def rank (a : Nd F.V) : Int := a.shape.length
def length (a : Nd F.V) : Int := a.elems.length
def toList (a : Nd F.V) : List F.V := a.elems.map (read F)

/-- `ARRAY.RESHAPE`, array.rs:466-491. -/
def reshape (shape : List Int) (a : Nd F.V) : Res (Nd F.V) := do
  let shape ← toUsizes shape
  match a.reshape shape with
  | some b => .ok b
  | none => .error .shape

/-- `ARRAY.SLICE`, array.rs:504-526, and `arr.slice`, prelude.eu. -/
def slice (axis idx : Int) (a : Nd F.V) : Res (Nd F.V) :=
  match a.sliceAlong (asUsize axis) (asUsize idx) with
  | some b => .ok b
  | none => .error .shape

/-- The operand of an operation: an array or a number. -/
inductive Operand (V : Type) where
  | array (a : Nd V)
  | number (v : V)

/-- `array_binop`, array.rs:794-831. -/
def binop (f : F.V → F.V → F.V) : Operand F.V → Operand F.V → Res (Nd F.V)
  | .array a, .array b =>
    match a.zipWith f b with
    | some c => .ok c
    | none => .error .shape
  | .array a, .number n => .ok (a.scalarOp f n)
  | .number n, .array b => .ok (b.scalarOp (fun x s => f s x) n)
  | .number _, .number _ => .error .shape

/-- `ARRAY_INDICES`, array.rs:626-640. -/
def indices (a : Nd F.V) : List (List Int) := a.indices.map (·.map Int.ofNat)

/-- `chunks`, of the standard library: parts of the length given, the last of which may be shorter. -/
def chunks {α : Type} (n : Nat) : Nat → List α → List (List α)
  | 0, _ => []
  | _ + 1, [] => []
  | fuel + 1, x :: xs => (x :: xs).take n :: chunks n fuel ((x :: xs).drop n)

/-- `ARRAY_NEIGHBOURS`, array.rs:704-727, and `arr.neighbours`, prelude.eu. -/
def neighbours (coords : List Int) (offsets : List (List Int)) (a : Nd F.V) : Res (List F.V) := do
  let coords ← toUsizes coords
  let flat := offsets.flatten.map satI64
  let rank := asUsize (rank F a)
  let offsets := if rank = 0 ∨ flat = [] then [] else chunks rank flat.length flat
  .ok ((a.neighbours coords offsets).map (read F))

/-! ## prelude.eu -/

/-- `arr.map`. -/
def map (f : F.V → F.V) (a : Nd F.V) : Res (Nd F.V) := fromFlat F (shape F a) ((toList F a).map f)

/-- `arr.map-indexed`. -/
def mapIndexed (f : List Int → F.V → F.V) (a : Nd F.V) : Res (Nd F.V) :=
  fromFlat F (shape F a) ((List.zip (indices F a) (toList F a)).map fun p => f p.1 p.2)

/-- `arr.fold`. -/
def fold {β : Type} (f : β → F.V → β) (init : β) (a : Nd F.V) : β := (toList F a).foldl f init

/-- `mapM` of a list, as `<$>` with a function that can fail. -/
def mapRes {α β : Type} (f : α → Res β) : List α → Res (List β)
  | [] => .ok []
  | x :: xs => do
    let y ← f x
    let ys ← mapRes f xs
    .ok (y :: ys)

/-- `arr.unit-arrays`. -/
def unitArrays (shape : List Int) : Res (List (Nd F.V)) := do
  let z ← zeros F shape
  mapRes (fun coords => do
    let z ← zeros F shape
    set F coords F.one z) (indices F z)

/-! ## emit.rs -/

/-- What is written out: numbers and sequences. -/
inductive Out (V : Type) where
  | num (v : V)
  | seq (items : List (Out V))

/-- `emit_ndarray_data`, emit.rs:130-176.  `depth` is the rank. -/
def emitN : Nat → Nd F.V → Out F.V
  | 0, a => .num (read F ((a.get []).getD F.zero))
  | 1, a => .seq ((List.range (a.shape.headD 0)).map fun i => .num (read F ((a.get [i]).getD F.zero)))
  | depth + 2, a => .seq ((List.range (a.shape.headD 0)).filterMap fun i => (a.sliceAlong 0 i).map (emitN (depth + 1)))

def emit (a : Nd F.V) : Out F.V := emitN F a.shape.length a

end Verif.Arr
