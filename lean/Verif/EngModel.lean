import Verif.BcModel

/-!
# The two ways the machine reads its program (src/eval/bytecode/{machine,predecode}.rs)

The machine either reads the bytes of a node each time it executes it, or decodes the whole program once into a list of
instructions.  `Engine` is what execution sees of a program either way.

Left out: the table of source locations by instruction (`smids`), which only feeds error messages.
-/

namespace Verif.Eng
open Verif.Bc

/-- A binding: is it updated with its value, its number of parameters, its body. -/
structure Bind (C : Type) where
  upd : Bool
  arity : Nat
  body : C
  deriving DecidableEq, Repr

/-- A node with its children named by `C`.  Atoms that are only ever looked into (arguments of constructors and
intrinsics, both parts of metadata) are given by their reference. -/
inductive View (C : Type) where
  | atom (r : DRef)
  | case (scr : C) (lo : Nat) (table : List (Option C)) (fb : Option C)
  | cons (tag : Nat) (args : List DRef)
  | app (eager : Bool) (f : DRef) (args : List C)
  | dapp (eager : Bool) (f : DRef) (args : List C)
  | bif (i : Nat) (args : List DRef)
  | let_ (hs : List (Bind C)) (body : C)
  | letrec (hs : List (Bind C)) (body : C)
  | ann (body : C)
  | metaOf (m b : DRef)
  | demeta (scr handler orElse : C)
  | seq (scr body : C)
  | lookup (key obj : DRef) (dflt : C)
  | fused (id : Nat) (left right : C)
  | hole
  deriving DecidableEq, Repr

/-- What execution reads: a node, and the reference of an argument without executing it. -/
structure Engine (C : Type) where
  view : C → Option (View C)
  ref : C → Option DRef

/-- `form_info`, machine.rs:1933-1945: kind and number of parameters of a binding, without its source location. -/
def formInfo (h : Header) : Bind Nat :=
  if h.kind = 0x01 then ⟨true, 0, h.body⟩ else if h.kind = 0x00 then ⟨false, h.arity, h.body⟩ else ⟨false, 0, h.body⟩

/-! ## Reading bytes -/

/-- `arg_ref` on each offset. -/
def argRefs (code : List Nat) : List Nat → Option (List DRef)
  | [] => some []
  | o :: os => do
    let d ← argRef code o
    let ds ← argRefs code os
    some (d :: ds)

/-- The operands `handle_op` takes from a node, machine.rs:2066-2440. -/
def ofNode (code : List Nat) : Node → Option (View Nat)
  | .atom r => some (.atom r)
  | .case scr lo table fb => some (.case scr lo table fb)
  | .cons tag args => do some (.cons tag (← argRefs code args))
  | .app eager f args => some (.app eager f args)
  | .dapp eager _ f args => some (.dapp eager f args)
  | .bif i args => do some (.bif i (← argRefs code args))
  | .let_ hs body => some (.let_ (hs.map formInfo) body)
  | .letrec hs body => some (.letrec (hs.map formInfo) body)
  | .ann _ body => some (.ann body)
  | .metaOf m b => do some (.metaOf (← argRef code m) (← argRef code b))
  | .demeta scr handler orElse => some (.demeta scr handler orElse)
  | .seq scr body => some (.seq scr body)
  | .lookup _ key obj dflt => some (.lookup key obj dflt)
  | .fused id left right => some (.fused id left right)
  | .hole => some .hole

/-- Execution from the bytes: `handle_op`. -/
def byteEngine (code : List Nat) : Engine Nat where
  view off := do ofNode code (← readNode code off)
  ref := argRef code

/-! ## Decoded instructions -/

/-- `Instr`, predecode.rs:58-78. -/
structure Instr where
  op : Op
  flags : Nat
  len : Nat
  a : Nat
  b : Nat
  c : Nat
  deriving DecidableEq, Repr

/-- `ref_tag`, predecode.rs:90-97. -/
def refTag : DRef → Nat
  | .loc _ => 0
  | .glob _ => 1
  | .val _ => 2

/-- `ref_payload`, predecode.rs:99-104. -/
def refPayload : DRef → Nat
  | .loc p => p
  | .glob p => p
  | .val p => p

/-- `make_ref`, predecode.rs:106-113. -/
def makeRef (tag payload : Nat) : DRef :=
  if tag % 4 = 0 then .loc payload else if tag % 4 = 1 then .glob payload else .val payload

/-- `atom_ref`, predecode.rs:119-121. -/
def Instr.atomRef (i : Instr) : DRef := makeRef i.flags i.a
/-- `eager`, predecode.rs:125-127. -/
def Instr.eager (i : Instr) : Bool := i.flags % 2 = 1
/-- `callable_ref`, predecode.rs:132-134. -/
def Instr.callableRef (i : Instr) : DRef := makeRef (i.flags / 2) i.a
/-- `first_ref`, predecode.rs:139-141. -/
def Instr.firstRef (i : Instr) : DRef := makeRef i.flags i.a
/-- `second_ref`, predecode.rs:143-145. -/
def Instr.secondRef (i : Instr) : DRef := makeRef (i.flags / 4) i.b
/-- `tag_byte`, predecode.rs:149-151. -/
def Instr.tagByte (i : Instr) : Nat := i.a % 256

/-- The side pools. -/
structure Pools where
  refs : List DRef
  offsets : List Nat
  headers : List Header
  branches : List Nat

/-- `Decoder`, predecode.rs:254-269.  The front of `queue` is the end of the Rust vector. -/
structure Dec extends Pools where
  ordOf : Nat → Option Nat
  offOf : List Nat
  instrs : List (Option Instr)
  queue : List (Nat × Nat)

/-- `Decoder::new`, predecode.rs:272-285. -/
def Dec.new : Dec := ⟨⟨[], [], [], []⟩, fun _ => none, [], [], []⟩

/-- `HashMap::insert` on `ord_of`. -/
def Dec.alias (d : Dec) (off ord : Nat) : Dec := { d with ordOf := fun o => if o = off then some ord else d.ordOf o }

/-- The last part of `ordinal_for`, predecode.rs:318-325: a new ordinal. -/
def Dec.assign (d : Dec) (off : Nat) : Dec × Nat :=
  let ord := d.instrs.length
  ({ d.alias off ord with
      offOf := d.offOf ++ [off], instrs := d.instrs ++ [none], queue := (off, ord) :: d.queue }, ord)

/-- `ordinal_for`, predecode.rs:302-326.  `fuel` bounds the recursion through annotations; `none` is a panic. -/
def ordinalFor (code : List Nat) : Nat → Dec → Nat → Option (Dec × Nat)
  | 0, _, _ => none
  | fuel + 1, d, off =>
    match d.ordOf off with
    | some ord => some (d, ord)
    | none =>
      match code[off]? with
      | none => none
      | some b =>
        if b = Op.ann.byte then
          match readU32 code (off + 1) with
          | none => none
          | some (_, pc) =>
            match readU32 code pc with
            | none => none
            | some (body, _) =>
              match ordinalFor code fuel d body with
              | none => none
              | some (d, ord) => some (d.alias off ord, ord)
        else some (d.assign off)

/-- `ordinal_for` on several offsets in turn. -/
def ordinalsFor (code : List Nat) (fuel : Nat) : Dec → List Nat → Option (Dec × List Nat)
  | d, [] => some (d, [])
  | d, o :: os => do
    let (d, k) ← ordinalFor code fuel d o
    let (d, ks) ← ordinalsFor code fuel d os
    some (d, k :: ks)

/-- The entries of a branch table, predecode.rs:379-387: `NO_BRANCH` is kept. -/
def branchesFor (code : List Nat) (fuel : Nat) : Dec → List (Option Nat) → Option (Dec × List Nat)
  | d, [] => some (d, [])
  | d, none :: es => do
    let (d, ks) ← branchesFor code fuel d es
    some (d, noBranch :: ks)
  | d, some o :: es => do
    let (d, k) ← ordinalFor code fuel d o
    let (d, ks) ← branchesFor code fuel d es
    some (d, k :: ks)

/-- The headers of a group, predecode.rs:485-489. -/
def headersFor (code : List Nat) (fuel : Nat) : Dec → List Header → Option (Dec × List Header)
  | d, [] => some (d, [])
  | d, h :: hs => do
    let (d, k) ← ordinalFor code fuel d h.body
    let (d, ks) ← headersFor code fuel d hs
    some (d, { h with body := k } :: ks)

/-- `push_refs`, predecode.rs:548-555. -/
def pushRefs (code : List Nat) (d : Dec) (offs : List Nat) : Option (Dec × Nat × Nat) := do
  let rs ← argRefs code offs
  some ({ d with refs := d.refs ++ rs }, d.refs.length, offs.length % 65536)

/-- `push_offsets`, predecode.rs:559-566. -/
def pushOffsets (code : List Nat) (fuel : Nat) (d : Dec) (offs : List Nat) : Option (Dec × Nat × Nat) := do
  let start := d.offsets.length
  let (d, ks) ← ordinalsFor code fuel d offs
  some ({ d with offsets := d.offsets ++ ks }, start, offs.length % 65536)

/-- The fallback of a case, predecode.rs:388-393. -/
def fallbackFor (code : List Nat) (fuel : Nat) (d : Dec) : Option Nat → Option (Dec × Nat)
  | none => some (d, noBranch)
  | some o => ordinalFor code fuel d o

/-- `decode_node`, predecode.rs:330-543, on a node whose operands have been read.  Pool positions are not cut to 32 bits:
each entry of a pool comes from four bytes of its own in the code. -/
def decodeNode (code : List Nat) (fuel : Nat) (d : Dec) : Node → Option (Dec × Instr)
  | .atom r => some (d, ⟨.atom, refTag r, 0, refPayload r, 0, 0⟩)
  | .cons tag args => do
    let (d, start, len) ← pushRefs code d args
    some (d, ⟨.cons, 0, len, tag, 0, start⟩)
  | .bif i args => do
    let (d, start, len) ← pushRefs code d args
    some (d, ⟨.bif, 0, len, i, 0, start⟩)
  | .case scr lo table fb => do
    let (d, s) ← ordinalFor code fuel d scr
    let start := d.branches.length
    let (d, ks) ← branchesFor code fuel d table
    let (d, f) ← fallbackFor code fuel { d with branches := d.branches ++ ks } fb
    some (d, ⟨.case, lo, table.length % 65536, s, f, start⟩)
  | .seq scr body => do
    let (d, s) ← ordinalFor code fuel d scr
    let (d, b) ← ordinalFor code fuel d body
    some (d, ⟨.seq, 0, 0, s, b, 0⟩)
  | .ann _ _ => none
  | .fused id left right => do
    let (d, l) ← ordinalFor code fuel d left
    let (d, r) ← ordinalFor code fuel d right
    some (d, ⟨.fusedPrimop, id, 0, l, r, 0⟩)
  | .hole => some (d, ⟨.blackHole, 0, 0, 0, 0, 0⟩)
  | .app eager f args => do
    let (d, start, len) ← pushOffsets code fuel d args
    some (d, ⟨.app, eager.toNat + 2 * refTag f, len, refPayload f, 0, start⟩)
  | .dapp eager _ f args => do
    let (d, start, len) ← pushOffsets code fuel d args
    some (d, ⟨.directApp, eager.toNat + 2 * refTag f, len, refPayload f, 0, start⟩)
  | .let_ hs body => do
    let start := d.headers.length
    let (d, ks) ← headersFor code fuel d hs
    let (d, b) ← ordinalFor code fuel { d with headers := d.headers ++ ks } body
    some (d, ⟨.let_, 0, 0, b, hs.length, start⟩)
  | .letrec hs body => do
    let start := d.headers.length
    let (d, ks) ← headersFor code fuel d hs
    let (d, b) ← ordinalFor code fuel { d with headers := d.headers ++ ks } body
    some (d, ⟨.letRec, 0, 0, b, hs.length, start⟩)
  | .metaOf m b => do
    let mr ← argRef code m
    let br ← argRef code b
    some (d, ⟨.metaOf, refTag mr + 4 * refTag br, 0, refPayload mr, refPayload br, 0⟩)
  | .demeta scr handler orElse => do
    let (d, s) ← ordinalFor code fuel d scr
    let (d, h) ← ordinalFor code fuel d handler
    let (d, o) ← ordinalFor code fuel d orElse
    some (d, ⟨.deMeta, 0, 0, s, h, o⟩)
  | .lookup _ key obj dflt => do
    let (d, o) ← ordinalFor code fuel d dflt
    some (d, ⟨.lookupLit, refTag key + 4 * refTag obj, 0, refPayload key, refPayload obj, o⟩)

/-- One round of `run`, predecode.rs:570-573: reading fails where `decode_node` panics or reports an error. -/
def decodeStep (code : List Nat) (fuel : Nat) (d : Dec) (off ord : Nat) : Option Dec :=
  match readNode code off with
  | none => none
  | some n =>
    match decodeNode code fuel d n with
    | none => none
    | some (d, i) => if ord < d.instrs.length then some { d with instrs := d.instrs.set ord (some i) } else none

/-- `run`, predecode.rs:569-575.  `n` bounds the number of rounds. -/
def drain (code : List Nat) (fuel : Nat) : Nat → Dec → Option Dec
  | 0, _ => none
  | n + 1, d =>
    match d.queue with
    | [] => some d
    | (off, ord) :: q =>
      match decodeStep code fuel { d with queue := q } off ord with
      | none => none
      | some d => drain code fuel n d

/-- `DecodedProgram`, predecode.rs:183-232. -/
structure Decoded extends Pools where
  instrs : List Instr
  root : Nat
  globals : List Nat
  /-- `templates`, `blackhole`, `meta_template`, `apply1_template`, `apply2_template`, `producer_tail_template`, `pap`, in
  the order of `Prog.fixtures` -/
  fixtures : List Nat
  offOf : List Nat
  ordOf : Nat → Option Nat

/-- Every slot must be filled: the `expect` in predecode.rs:616-620. -/
def allSome : List (Option Instr) → Option (List Instr)
  | [] => some []
  | none :: _ => none
  | some i :: is => (allSome is).map (i :: ·)

/-- `decode_program`, predecode.rs:591-641.  The fixtures are numbered in the order of `Prog.fixtures` instead of the
order of the fields. -/
def decodeProgram {K : Type} (fuel n : Nat) (p : Prog K) (root : Nat) : Option Decoded := do
  let (d, r) ← ordinalFor p.code fuel Dec.new root
  let (d, gs) ← ordinalsFor p.code fuel d (p.globals.map (·.body))
  let (d, fs) ← ordinalsFor p.code fuel d p.fixtures
  let d ← drain p.code fuel n d
  let is ← allSome d.instrs
  some ⟨d.toPools, is, r, gs, fs, d.offOf, d.ordOf⟩

/-- A run of a pool. -/
def run {α : Type} (pool : List α) (start len : Nat) : Option (List α) :=
  if start + len ≤ pool.length then some ((pool.drop start).take len) else none

/-- `NO_BRANCH` stands for no branch: `branch_pool_match`, machine.rs:2535-2553, and the fallback, machine.rs:1108-1119. -/
def entry (k : Nat) : Option Nat := if k = noBranch then none else some k

/-- The operands `handle_op_predecoded` takes from an instruction, machine.rs:2600-2900. -/
def ofInstr (p : Pools) (i : Instr) : Option (View Nat) :=
  match i.op with
  | .atom => some (.atom i.atomRef)
  | .cons => do some (.cons i.tagByte (← run p.refs i.c i.len))
  | .bif => do some (.bif i.tagByte (← run p.refs i.c i.len))
  | .case => do some (.case i.a i.flags ((← run p.branches i.c i.len).map entry) (entry i.b))
  | .seq => some (.seq i.a i.b)
  | .ann => none
  | .fusedPrimop => some (.fused i.flags i.a i.b)
  | .blackHole => some .hole
  | .app => do some (.app i.eager i.callableRef (← run p.offsets i.c i.len))
  | .directApp => do some (.dapp i.eager i.callableRef (← run p.offsets i.c i.len))
  | .let_ => do some (.let_ ((← run p.headers i.c i.b).map formInfo) i.a)
  | .letRec => do some (.letrec ((← run p.headers i.c i.b).map formInfo) i.a)
  | .metaOf => some (.metaOf i.firstRef i.secondRef)
  | .deMeta => some (.demeta i.a i.b i.c)
  | .lookupLit => some (.lookup i.firstRef i.secondRef i.c)

/-- Execution from the instructions: `handle_op_predecoded`. -/
def decodedEngine (p : Decoded) : Engine Nat where
  view k := do ofInstr p.toPools (← p.instrs[k]?)
  ref k := (p.instrs[k]?).map Instr.atomRef

end Verif.Eng
