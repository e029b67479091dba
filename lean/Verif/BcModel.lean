/-!
# Bytecode: encoding and reading

`src/eval/bytecode/{opcode,program,encode}.rs` and the reading functions of `src/eval/bytecode/machine.rs`.

Bytes are natural numbers below 256.  Conversions that truncate in the program (`as u8`, `as u32`) truncate here.
`K` is the type of native constants.
-/

namespace Verif.Bc

/-! ## STG syntax -/

/-- `Ref`, stg/syntax.rs:60-115: a local index, a global slot or a native. -/
inductive Ref (K : Type) where
  | l (i : Nat)
  | g (i : Nat)
  | v (n : K)
  deriving DecidableEq, Repr

/-- The kind of a `LambdaForm`, stg/syntax.rs:331-343. -/
inductive Head where
  | lambda (bound : Nat) (smid : Nat)
  | thunk
  | value
  deriving DecidableEq, Repr

mutual
/-- `StgSyn`, stg/syntax.rs:118-219.  The `inner` of `FusedPrimop`, which the encoder ignores, is left out.  A source
location (`Smid`) is the number it converts to, 0 being the invalid one (common/sourcemap.rs:45-62). -/
inductive Syn (K : Type) where
  | atom (r : Ref K)
  | case (scr : Syn K) (bs : Brs K) (fb : Fb K)
  | cons (tag : Nat) (args : List (Ref K))
  | app (f : Ref K) (args : List (Ref K)) (eager : Bool)
  | dapp (smid : Nat) (f : Ref K) (args : List (Ref K)) (eager : Bool)
  | bif (i : Nat) (args : List (Ref K))
  | let_ (fs : Forms K) (body : Syn K)
  | letrec (fs : Forms K) (body : Syn K)
  | ann (smid : Nat) (body : Syn K)
  | metaOf (m b : Ref K)
  | demeta (scr handler orElse : Syn K)
  | seq (scr body : Syn K)
  | lookup (smid : Nat) (key obj dflt : Ref K)
  | fused (id : Nat) (left right : Ref K)
  | hole
/-- `Vec<(Tag, Rc<StgSyn>)>`. -/
inductive Brs (K : Type) where
  | nil
  | cons (tag : Nat) (body : Syn K) (rest : Brs K)
/-- `Option<Rc<StgSyn>>`. -/
inductive Fb (K : Type) where
  | none
  | some (body : Syn K)
/-- `Vec<LambdaForm>`. -/
inductive Forms (K : Type) where
  | nil
  | cons (h : Head) (body : Syn K) (rest : Forms K)
end

/-- `LambdaForm`. -/
structure Form (K : Type) where
  head : Head
  body : Syn K

/-! ## Encoding -/

def u32 : Nat := 4294967296
/-- `NO_BRANCH`, opcode.rs:84. -/
def noBranch : Nat := u32 - 1

/-- `Encoder`, encode.rs:52-55. -/
structure Enc (K : Type) where
  code : List Nat
  consts : List K

variable {K : Type}

/-- `emit_u8`, encode.rs:68-70. -/
def Enc.u8 (e : Enc K) (v : Nat) : Enc K := { e with code := e.code ++ [v % 256] }

/-- `u32::to_le_bytes` of `v as u32`. -/
def le4 (v : Nat) : List Nat := [v % 256, v / 256 % 256, v / 65536 % 256, v / 16777216 % 256]

/-- `emit_u32`, encode.rs:72-74. -/
def Enc.u32 (e : Enc K) (v : Nat) : Enc K := { e with code := e.code ++ le4 v }

/-- `here`, encode.rs:460-462. -/
def Enc.here (e : Enc K) : Nat := e.code.length % Bc.u32

/-- `Op`, opcode.rs:9-34. -/
inductive Op where
  | atom | case | cons | app | directApp | bif | let_ | letRec | ann | metaOf | deMeta | seq | lookupLit | blackHole
  | fusedPrimop
  deriving DecidableEq, Repr

def Op.byte : Op → Nat
  | .atom => 0x01 | .case => 0x02 | .cons => 0x03 | .app => 0x04 | .directApp => 0x05 | .bif => 0x06 | .let_ => 0x07
  | .letRec => 0x08 | .ann => 0x09 | .metaOf => 0x0A | .deMeta => 0x0B | .seq => 0x0C | .lookupLit => 0x0D
  | .blackHole => 0x0E | .fusedPrimop => 0x0F

/-- `Op::from_u8`, opcode.rs:38-57. -/
def Op.ofByte (b : Nat) : Option Op :=
  if b = 0x01 then some .atom else if b = 0x02 then some .case else if b = 0x03 then some .cons
  else if b = 0x04 then some .app else if b = 0x05 then some .directApp else if b = 0x06 then some .bif
  else if b = 0x07 then some .let_ else if b = 0x08 then some .letRec else if b = 0x09 then some .ann
  else if b = 0x0A then some .metaOf else if b = 0x0B then some .deMeta else if b = 0x0C then some .seq
  else if b = 0x0D then some .lookupLit else if b = 0x0E then some .blackHole
  else if b = 0x0F then some .fusedPrimop else none

/-- `emit_op`, encode.rs:76-78. -/
def Enc.op (e : Enc K) (o : Op) : Enc K := e.u8 o.byte

/-- `emit_ref` and `add_constant`, encode.rs:84-107. -/
def Enc.ref (e : Enc K) : Ref K → Enc K
  | .l i => (e.u8 0).u32 i
  | .g i => (e.u8 1).u32 i
  | .v n =>
    let e1 := e.u8 2
    { e1 with consts := e1.consts ++ [n] }.u32 e1.consts.length

/-- `emit_atom`, encode.rs:111-116. -/
def Enc.atom (e : Enc K) (r : Ref K) : Enc K × Nat := ((e.op .atom).ref r, e.here)

/-- `emit_fused_primop_refs`, encode.rs:132-141. -/
def Enc.fused (e : Enc K) (id : Nat) (l r : Ref K) : Enc K × Nat :=
  let (e, lo) := e.atom l
  let (e, ro) := e.atom r
  ((((e.op .fusedPrimop).u8 id).u32 lo).u32 ro, e.here)

/-- `emit_arg_atoms`, encode.rs:145-147. -/
def Enc.atoms (e : Enc K) : List (Ref K) → Enc K × List Nat
  | [] => (e, [])
  | r :: rs =>
    let (e, o) := e.atom r
    let (e, os) := e.atoms rs
    (e, o :: os)

/-- The loop of `emit_arg_offsets`, encode.rs:152-154. -/
def Enc.u32s (e : Enc K) : List Nat → Enc K
  | [] => e
  | o :: os => (e.u32 o).u32s os

/-- `emit_arg_offsets`, encode.rs:150-155. -/
def Enc.args (e : Enc K) (os : List Nat) : Enc K := (e.u8 os.length).u32s os

/-- `classify_lambda_form`, encode.rs:500-508, with stg/syntax.rs:374-396. -/
def classify : Head → Nat × Nat × Nat
  | .thunk => (0x01, 0, 0)
  | .value => (0x02, 0, 0)
  | .lambda bound smid => if bound = 0 then (0x02, 0, smid) else (0x00, bound, smid)

/-- `emit_form_header`, encode.rs:158-164. -/
def Enc.header (e : Enc K) (h : Head) (body : Nat) : Enc K :=
  let (kind, arity, smid) := classify h
  (((e.u8 kind).u8 arity).u32 smid).u32 body

/-- The loop over the headers, encode.rs:260-262: `zip`. -/
def Enc.headers (e : Enc K) : Forms K → List Nat → Enc K
  | .cons h _ fs, o :: os => (e.header h o).headers fs os
  | _, _ => e

/-- The lowest and the highest tag, encode.rs:399-400. -/
def minTag : List (Nat × Nat) → Nat
  | [] => 0
  | [(t, _)] => t
  | (t, _) :: bs => min t (minTag bs)
def maxTag : List (Nat × Nat) → Nat
  | [] => 0
  | (t, _) :: bs => max t (maxTag bs)

/-- Filling the table, encode.rs:402-405. -/
def fillTable (lo : Nat) : List (Nat × Nat) → List Nat → List Nat
  | [], table => table
  | (t, o) :: bs, table => fillTable lo bs (table.set (t - lo) o)

/-- `emit_dense_branch_table`, encode.rs:393-411. -/
def Enc.table (e : Enc K) (bs : List (Nat × Nat)) : Enc K :=
  match bs with
  | [] => (e.u8 0).u8 0
  | bs =>
    let lo := minTag bs
    let len := maxTag bs - lo + 1
    ((e.u8 lo).u8 len).u32s (fillTable lo bs (List.replicate len noBranch))

/-- `FLAG_EAGER`. -/
def eagerFlag (eager : Bool) : Nat := if eager then 1 else 0

mutual
/-- `encode_node`, encode.rs:169-389. -/
def Enc.node (e : Enc K) : Syn K → Enc K × Nat
  | .atom r => e.atom r
  | .case scr bs fb =>
    let (e, so) := e.node scr
    let (e, bos) := e.branches bs
    let (e, fo) := e.fallback fb
    let e1 := ((e.op .case).u32 so).table bos
    (match fo with
      | some o => (e1.u8 1).u32 o
      | none => e1.u8 0, e.here)
  | .cons tag args =>
    let (e, os) := e.atoms args
    (((e.op .cons).u8 tag).args os, e.here)
  | .app f args eager =>
    let (e, os) := e.atoms args
    ((((e.op .app).u8 (eagerFlag eager)).ref f).args os, e.here)
  | .dapp smid f args eager =>
    let (e, os) := e.atoms args
    (((((e.op .directApp).u8 (eagerFlag eager)).u32 smid).ref f).args os, e.here)
  | .bif i args =>
    let (e, os) := e.atoms args
    (((e.op .bif).u8 i).args os, e.here)
  | .let_ fs body =>
    let (e, os) := e.bodies fs
    let (e, bo) := e.node body
    ((((e.op .let_).u32 os.length).headers fs os).u32 bo, e.here)
  | .letrec fs body =>
    let (e, os) := e.bodies fs
    let (e, bo) := e.node body
    ((((e.op .letRec).u32 os.length).headers fs os).u32 bo, e.here)
  | .ann smid body =>
    let (e, bo) := e.node body
    (((e.op .ann).u32 smid).u32 bo, e.here)
  | .metaOf m b =>
    let (e, mo) := e.atom m
    let (e, bo) := e.atom b
    (((e.op .metaOf).u32 mo).u32 bo, e.here)
  | .demeta scr handler orElse =>
    let (e, so) := e.node scr
    let (e, ho) := e.node handler
    let (e, oo) := e.node orElse
    ((((e.op .deMeta).u32 so).u32 ho).u32 oo, e.here)
  | .seq scr body =>
    let (e, so) := e.node scr
    let (e, bo) := e.node body
    (((e.op .seq).u32 so).u32 bo, e.here)
  | .lookup smid key obj dflt =>
    let (e, o) := e.atom dflt
    (((((e.op .lookupLit).u32 smid).ref key).ref obj).u32 o, e.here)
  | .fused id left right => e.fused id left right
  | .hole => (e.op .blackHole, e.here)
/-- encode.rs:180-183 -/
def Enc.branches (e : Enc K) : Brs K → Enc K × List (Nat × Nat)
  | .nil => (e, [])
  | .cons tag body bs =>
    let (e, o) := e.node body
    let (e, os) := e.branches bs
    (e, (tag, o) :: os)
/-- encode.rs:184 -/
def Enc.fallback (e : Enc K) : Fb K → Enc K × Option Nat
  | .none => (e, none)
  | .some body =>
    let (e, o) := e.node body
    (e, some o)
/-- encode.rs:245-248 -/
def Enc.bodies (e : Enc K) : Forms K → Enc K × List Nat
  | .nil => (e, [])
  | .cons _ body fs =>
    let (e, o) := e.node body
    let (e, os) := e.bodies fs
    (e, o :: os)
end

/-! ## Reading -/

/-- `read_u8`, program.rs:123-127.  `none` stands for a panic or an error. -/
def readU8 (code : List Nat) (pc : Nat) : Option (Nat × Nat) := (code[pc]?).map (·, pc + 1)

/-- `read_u32`, program.rs:139-143. -/
def readU32 (code : List Nat) (pc : Nat) : Option (Nat × Nat) := do
  let a ← code[pc]?
  let b ← code[pc + 1]?
  let c ← code[pc + 2]?
  let d ← code[pc + 3]?
  some (a + 256 * b + 65536 * c + 16777216 * d, pc + 4)

/-- `DecodedRef`, machine.rs:73-81. -/
inductive DRef where
  | loc (i : Nat)
  | glob (i : Nat)
  | val (i : Nat)
  deriving DecidableEq, Repr

/-- `read_ref`, machine.rs:85-97. -/
def readRef (code : List Nat) (pc : Nat) : Option (DRef × Nat) := do
  let (tag, pc) ← readU8 code pc
  let (p, pc) ← readU32 code pc
  if tag = 0 then some (.loc p, pc) else if tag = 1 then some (.glob p, pc) else if tag = 2 then some (.val p, pc) else none

def readU32s (code : List Nat) : Nat → Nat → Option (List Nat × Nat)
  | 0, pc => some ([], pc)
  | n + 1, pc => do
    let (x, pc) ← readU32 code pc
    let (xs, pc) ← readU32s code n pc
    some (x :: xs, pc)

/-- `read_arg_offsets`, machine.rs:166-169. -/
def readArgs (code : List Nat) (pc : Nat) : Option (List Nat × Nat) := do
  let (n, pc) ← readU8 code pc
  readU32s code n pc

/-- `FormHeader`, machine.rs:173-178. -/
structure Header where
  kind : Nat
  arity : Nat
  smid : Nat
  body : Nat
  deriving DecidableEq, Repr

/-- `read_form_header`, machine.rs:181-192. -/
def readHeader (code : List Nat) (pc : Nat) : Option (Header × Nat) := do
  let (kind, pc) ← readU8 code pc
  let (arity, pc) ← readU8 code pc
  let (smid, pc) ← readU32 code pc
  let (body, pc) ← readU32 code pc
  some (⟨kind, arity, smid, body⟩, pc)

def readHeaders (code : List Nat) : Nat → Nat → Option (List Header × Nat)
  | 0, pc => some ([], pc)
  | n + 1, pc => do
    let (h, pc) ← readHeader code pc
    let (hs, pc) ← readHeaders code n pc
    some (h :: hs, pc)

/-- `arg_ref`: the reference in the atom at an offset; the opcode is skipped unread (predecode.rs:561-564). -/
def argRef (code : List Nat) (off : Nat) : Option DRef := (readRef code (off + 1)).map (·.1)

/-- A node as the machine reads it, machine.rs `handle_op`, 2066-2440. -/
inductive Node where
  | atom (r : DRef)
  | case (scr lo : Nat) (table : List (Option Nat)) (fb : Option Nat)
  | cons (tag : Nat) (args : List Nat)
  | app (eager : Bool) (f : DRef) (args : List Nat)
  | dapp (eager : Bool) (smid : Nat) (f : DRef) (args : List Nat)
  | bif (i : Nat) (args : List Nat)
  | let_ (hs : List Header) (body : Nat)
  | letrec (hs : List Header) (body : Nat)
  | ann (smid body : Nat)
  | metaOf (m b : Nat)
  | demeta (scr handler orElse : Nat)
  | seq (scr body : Nat)
  | lookup (smid : Nat) (key obj : DRef) (dflt : Nat)
  | fused (id left right : Nat)
  | hole
  deriving DecidableEq, Repr

/-- The operands of a node, after its opcode. -/
def readOperands (code : List Nat) (pc : Nat) : Op → Option Node
  | .atom => do
    let (r, _) ← readRef code pc
    some (.atom r)
  | .case => do
    let (scr, pc) ← readU32 code pc
    let (lo, pc) ← readU8 code pc
    let (len, pc) ← readU8 code pc
    let (es, pc) ← readU32s code len pc
    let (has, pc) ← readU8 code pc
    let table := es.map fun e => if e = noBranch then none else some e
    if has = 1 then do
      let (fb, _) ← readU32 code pc
      some (.case scr lo table (some fb))
    else some (.case scr lo table none)
  | .cons => do
    let (tag, pc) ← readU8 code pc
    let (args, _) ← readArgs code pc
    some (.cons tag args)
  | .app => do
    let (flags, pc) ← readU8 code pc
    let (f, pc) ← readRef code pc
    let (args, _) ← readArgs code pc
    some (.app (flags % 2 = 1) f args)
  | .directApp => do
    let (flags, pc) ← readU8 code pc
    let (smid, pc) ← readU32 code pc
    let (f, pc) ← readRef code pc
    let (args, _) ← readArgs code pc
    some (.dapp (flags % 2 = 1) smid f args)
  | .bif => do
    let (i, pc) ← readU8 code pc
    let (args, _) ← readArgs code pc
    some (.bif i args)
  | .let_ => do
    let (n, pc) ← readU32 code pc
    let (hs, pc) ← readHeaders code n pc
    let (body, _) ← readU32 code pc
    some (.let_ hs body)
  | .letRec => do
    let (n, pc) ← readU32 code pc
    let (hs, pc) ← readHeaders code n pc
    let (body, _) ← readU32 code pc
    some (.letrec hs body)
  | .ann => do
    let (smid, pc) ← readU32 code pc
    let (body, _) ← readU32 code pc
    some (.ann smid body)
  | .metaOf => do
    let (m, pc) ← readU32 code pc
    let (b, _) ← readU32 code pc
    some (.metaOf m b)
  | .deMeta => do
    let (scr, pc) ← readU32 code pc
    let (handler, pc) ← readU32 code pc
    let (orElse, _) ← readU32 code pc
    some (.demeta scr handler orElse)
  | .seq => do
    let (scr, pc) ← readU32 code pc
    let (body, _) ← readU32 code pc
    some (.seq scr body)
  | .lookupLit => do
    let (smid, pc) ← readU32 code pc
    let (key, pc) ← readRef code pc
    let (obj, pc) ← readRef code pc
    let (dflt, _) ← readU32 code pc
    some (.lookup smid key obj dflt)
  | .fusedPrimop => do
    let (id, pc) ← readU8 code pc
    let (left, pc) ← readU32 code pc
    let (right, _) ← readU32 code pc
    some (.fused id left right)
  | .blackHole => some .hole

/-- The node at an offset. -/
def readNode (code : List Nat) (off : Nat) : Option Node := do
  let (b, pc) ← readU8 code off
  let op ← Op.ofByte b
  readOperands code pc op

/-- Branch selection on the table of a case: the arm of `return_data` for `Branch`, machine.rs:1060-1085. -/
def selectEntry (lo : Nat) (table : List (Option Nat)) (tag : Nat) : Option Nat :=
  if tag < lo then none else (table[tag - lo]?).join

/-! ## Programs -/

/-- `GlobalForm`, encode.rs:43-48: entries of the globals. -/
structure Prog (K : Type) where
  code : List Nat
  consts : List K
  /-- `global_forms`, with their entries -/
  globals : List Header
  /-- `templates`, `blackhole`, `meta_template`, `pap`, `apply1_template`, `apply2_template`, `producer_tail_template` -/
  fixtures : List Nat

/-- Encoding a list of trees, keeping their offsets. -/
def Enc.nodes (e : Enc K) : List (Syn K) → Enc K × List Nat
  | [] => (e, [])
  | t :: ts =>
    let (e, o) := e.node t
    let (e, os) := e.nodes ts
    (e, o :: os)

/-- Arities of the data constructors by tag, stg/tags.rs:80-101. -/
def arities : List Nat := [0, 0, 0, 1, 1, 1, 0, 2, 2, 2, 2, 1, 2, 3, 2, 2, 2, 1]

/-- `encode_templates`, encode.rs:417-431. -/
def templateTrees : List (Syn K) :=
  arities.zipIdx.map fun (a, tag) => .cons tag ((List.range a).map .l)

/-- `encode_pap_templates`, encode.rs:439-456, `PAP_MAX_ARITY` = 16. -/
def papTrees : List (Syn K) :=
  (List.range 16).flatMap fun s => (List.range 16).map fun p =>
    let supplied := s + 1
    let pending := p + 1
    .app (.l pending) ((List.range supplied).map (fun i => .l (pending + i + 1)) ++ (List.range pending).map .l) false

/-- The fixed trees, in the order of `emit_fixtures_and_globals`, encode.rs:527-548. -/
def fixtureTrees (producerNext : Nat) : List (Syn K) :=
  templateTrees ++ [.hole, .metaOf (.l 0) (.l 1)] ++ papTrees ++
    [.app (.l 0) [.l 1] false, .app (.l 0) [.l 1, .l 2] false, .bif producerNext [.l 0]]

/-- `is_fusible_primop_body`, stg/syntax.rs:234-240, and `is_fusible_shape`, encode.rs:495-497. -/
def fusibleShape (f : Form K) : Bool :=
  match f.head, f.body with
  | .lambda 2 _, .case (.atom (.l 0)) _ _ => true
  | _, _ => false

/-- The loop over the globals, encode.rs:550-574: `fusible i` tells whether slot `i` is a fusible intrinsic. -/
def Enc.globals (e : Enc K) (fusible : Nat → Bool) : Nat → List (Form K) → Enc K × List Header
  | _, [] => (e, [])
  | i, f :: fs =>
    let (e, entry) := if fusible i && fusibleShape f then e.fused i (.l 0) (.l 1) else e.node f.body
    let (e, hs) := e.globals fusible (i + 1) fs
    let (kind, arity, smid) := classify f.head
    (e, ⟨kind, arity, smid, entry⟩ :: hs)

/-- `encode_prelude`, encode.rs:657-662 (with 525-592). -/
def encodePrelude (pn : Nat) (fusible : Nat → Bool) (globals : List (Form K)) : Prog K :=
  let (e, fx) := (Enc.mk [] []).nodes (fixtureTrees pn)
  let (e, hs) := e.globals fusible 0 globals
  ⟨e.code, e.consts, hs, fx⟩

/-- `encode`, encode.rs:635-644. -/
def encode (pn : Nat) (fusible : Nat → Bool) (root : Syn K) (globals : List (Form K)) : Prog K × Nat :=
  let (e, fx) := (Enc.mk [] []).nodes (fixtureTrees pn)
  let (e, hs) := e.globals fusible 0 globals
  let (e, ro) := e.node root
  (⟨e.code, e.consts, hs, fx⟩, ro)

/-- `encode_root_onto`, encode.rs:672-691. -/
def encodeRootOnto (base : Prog K) (root : Syn K) : Prog K × Nat :=
  let (e, ro) := (Enc.mk base.code base.consts).node root
  ({ base with code := e.code, consts := e.consts }, ro)

/-- The loop of `encode_overrides_and_root`, encode.rs:713-729. -/
def Enc.overrides (e : Enc K) (hs : List Header) : List (Nat × Form K) → Enc K × List Header
  | [] => (e, hs)
  | (slot, f) :: os =>
    let (e, entry) := e.node f.body
    let (kind, arity, smid) := classify f.head
    e.overrides (hs.set slot ⟨kind, arity, smid, entry⟩) os

/-- `encode_overrides_and_root`, encode.rs:703-744. -/
def encodeOverridesAndRoot (base : Prog K) (overrides : List (Nat × Form K)) (root : Syn K) : Prog K × Nat :=
  let (e, hs) := (Enc.mk base.code base.consts).overrides base.globals overrides
  let (e, ro) := e.node root
  ({ base with code := e.code, consts := e.consts, globals := hs }, ro)

/-- `ensure_code_fits`, encode.rs:610-622. -/
def codeFits (p : Prog K) : Bool := p.code.length ≤ u32 - 1

end Verif.Bc
