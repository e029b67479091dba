/-!
# Environment frames

`src/eval/machine/env.rs` and the frame building of `src/eval/bytecode/machine.rs`.

Frames are never changed after they are made: only the cells of their arrays are.  A pointer to a frame is therefore
modelled by the list of the frames from it down the `next` links, and arrays by numbers into a store.  Moving objects
(collection) is the subject of `GcModel`.
-/

namespace Verif.Env

/-- The cells of each array, by array. -/
abbrev Store (C : Type) := List (List C)

variable {C : Type}

/-- `Array`, memory/array.rs:147-152: a handle with its own length on shared data. -/
structure Arr where
  id : Nat
  len : Nat
  deriving DecidableEq, Repr

/-- `EnvironmentFrame`, env.rs:314-333, without `next`.  `remap` holds the `remap_len` first entries. -/
structure Frame where
  bindings : Arr
  remap : List Nat
  annotation : Nat
  deriving DecidableEq, Repr

/-- A frame and those it links to. -/
abbrev Chain := List Frame

/-- `Array::get`, array.rs:253-259. -/
def Arr.get (σ : Store C) (a : Arr) (i : Nat) : Option C :=
  if a.len > i then (σ[a.id]?).bind (·[i]?) else none

/-- `Array::set`, array.rs:262-271. -/
def Arr.set (σ : Store C) (a : Arr) (i : Nat) (v : C) : Option (Store C) :=
  if i ≥ a.len then none else some (σ.modify a.id (·.set i v))

/-- `EnvironmentFrame::new`, env.rs:352-361. -/
def Frame.new (bindings : Arr) (annotation : Nat) : Frame := ⟨bindings, [], annotation⟩

/-- `EnvironmentFrame::new_remapped`, env.rs:371-388. -/
def Frame.newRemapped (bindings : Arr) (remap : List Nat) (annotation : Nat) : Frame := ⟨bindings, remap, annotation⟩

/-- `logical_len`, env.rs:397-403. -/
def Frame.logicalLen (f : Frame) : Nat := if f.remap.length > 0 then f.remap.length else f.bindings.len

/-- `physical_index`, env.rs:411-417. -/
def Frame.physicalIndex (f : Frame) (logical : Nat) : Nat := if f.remap.length > 0 then f.remap[logical]?.getD 0 else logical

/-- `cell`, env.rs:454-464. -/
def cell : Chain → Nat → Option (Arr × Nat)
  | [], _ => none
  | f :: next, idx =>
    let len := f.logicalLen
    if idx < len then some (f.bindings, f.physicalIndex idx) else cell next (idx - len)

/-- `get`, env.rs:537-545. -/
def get (σ : Store C) (ch : Chain) (idx : Nat) : Option C :=
  match cell ch idx with
  | some (arr, i) => arr.get σ i
  | none => none

/-- `update`, env.rs:548-560; `none` is an error. -/
def update (σ : Store C) (ch : Chain) (idx : Nat) (v : C) : Option (Store C) :=
  match cell ch idx with
  | some (arr, i) => arr.set σ i v
  | none => none

/-- `annotation_trace`, env.rs:568-584, 0 being the default. -/
def annotationTrace : Chain → List Nat
  | [] => []
  | f :: next => if f.annotation ≠ 0 then f.annotation :: annotationTrace next else annotationTrace next

/-- A reference in a constructor's arguments; constants are natives. -/
inductive Arg where
  | loc (i : Nat)
  | glob (i : Nat)
  | val (k : Nat)
  deriving DecidableEq, Repr

/-- `BcArgPattern`, machine.rs:753-763. -/
inductive Pattern where
  | sequential
  | remapped (remap : List Nat)
  | copy
  deriving DecidableEq, Repr

/-- The loop of `bc_classify_args`, machine.rs:778-796: the physical indices, unless a copy is needed. -/
def physicals (f : Frame) : List Arg → Option (List Nat)
  | [] => some []
  | .loc i :: as =>
    if i < f.logicalLen then
      let phys := f.physicalIndex i
      if phys > 255 then none else (physicals f as).map (phys :: ·)
    else none
  | _ :: _ => none

/-- `bc_classify_args`, machine.rs:768-804. -/
def classify (args : List Arg) (f : Frame) : Pattern :=
  if args.length > 4 then .copy
  else
    match physicals f args with
    | none => .copy
    | some remap =>
      if remap = List.range remap.length ∧ args.length = f.bindings.len then .sequential else .remapped remap

/-- What the machine has at hand: the globals' frame and the constants. -/
structure Ctx (C : Type) where
  globals : Chain
  consts : List C

/-- `resolve_ref`, machine.rs:108-131. -/
def resolve (σ : Store C) (cx : Ctx C) (ch : Chain) : Arg → Option C
  | .loc i => get σ ch i
  | .glob i => get σ cx.globals i
  | .val k => cx.consts[k]?

/-- Allocation of a fresh array: `Array::with_capacity` and `push`, or `from_slice`. -/
def allocArray (σ : Store C) (vs : List C) : Store C × Arr := (σ ++ [vs], ⟨σ.length, vs.length⟩)

/-- `env_from_data_args_copy`, machine.rs:859-900. -/
def copyArgs (σ : Store C) (cx : Ctx C) (cons : Chain) (args : List Arg) (annotation : Nat) (next : Chain) :
    Option (Store C × Chain) := do
  let vs ← args.mapM (resolve σ cx cons)
  let (σ', a) := allocArray σ vs
  some (σ', Frame.new a annotation :: next)

/-- `env_from_data_args`, machine.rs:809-853: `cons` is the environment of the constructor. -/
def envFromDataArgs (σ : Store C) (cx : Ctx C) (cons : Chain) (args : List Arg) (annotation : Nat) (next : Chain) :
    Option (Store C × Chain) :=
  match cons with
  | [] => none
  | f :: _ =>
    match classify args f with
    | .sequential => some (σ, Frame.new f.bindings annotation :: next)
    | .remapped remap => some (σ, Frame.newRemapped f.bindings remap annotation :: next)
    | .copy => copyArgs σ cx cons args annotation next

/-- The environment of a branch: `return_data`, machine.rs:1062-1067. -/
def branchEnv (σ : Store C) (cx : Ctx C) (cons : Chain) (args : List Arg) (annotation : Nat) (next : Chain) :
    Option (Store C × Chain) :=
  if args.isEmpty then some (σ, next) else envFromDataArgs σ cx cons args annotation next

/-- `from_value`, bytecode/env_builder.rs:78-87. -/
def fromValue (σ : Store C) (v : C) (annotation : Nat) (next : Chain) : Store C × Chain :=
  let (σ', a) := allocArray σ [v]
  (σ', Frame.new a annotation :: next)

/-- `from_saturation` of a fresh array, bytecode/env_builder.rs:67-76 (with `saturate`, 103-110). -/
def saturate (σ : Store C) (vs : List C) (annotation : Nat) (next : Chain) : Store C × Chain :=
  let (σ', a) := allocArray σ vs
  (σ', Frame.new a annotation :: next)

end Verif.Env
