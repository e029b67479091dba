/-!
# Copying values between processes, and the parallel map

`src/eval/stg/parallel/serialise.rs`, `arena.rs`, `driver.rs`, `fork.rs`, `roots.rs`, together with what they use of the
machine (`src/eval/bytecode/machine.rs`).

A value not yet evaluated is what its evaluation will do: give a value, carry metadata, have an intrinsic force another value
on the way, read from a stream, or fail.  Anything that evaluates may collect garbage, after which a handle that was not in the
root set is stale; to use one is the fault `stale`.

Simplifications.  Values whose evaluation does not end are left out: the structure is finite.  A symbol is its name, so
interning is the identity.  The text of a date-time is the library's, `Host.print` and `Host.parse`.  A handle to an alias of a
value is the value.  Fuel counts the calls; running out of it is the fault `fuel`.
-/

namespace Verif.Par

abbrev Bytes := List UInt8

/-- `serde_json::Number`: an integer of 64 bits, a negative one (its bits), or the bits of a double. -/
inductive Num where
  | pos (n : UInt64)
  | neg (n : UInt64)
  | flt (n : UInt64)
deriving DecidableEq

/-- `Native`, `src/eval/memory/syntax.rs`; a date-time is known by a number, everything refused (serialise.rs:363-368) is
`closed`. -/
inductive Native where
  | num (n : Num)
  | str (s : String)
  | sym (s : String)
  | zdt (z : Nat)
  | closed
deriving DecidableEq

/-- The boxes, `src/eval/stg/tags.rs`. -/
inductive Box where
  | number | symbol | string | zdt | typeData
deriving DecidableEq

/-- A value, evaluated or not. -/
inductive Clo where
  | nat (n : Native)
  | fn (i : Nat)
  | unit
  | tt
  | ff
  | box (k : Box) (payload : Clo)
  | nil
  | cons (h t : Clo)
  | block (kvs : Clo)
  /-- `BlockPair`: a key and a value. -/
  | pair (k v : Clo)
  /-- `BlockKvList`: a list whose first two items are a key and a value, `src/eval/stg/block.rs:88-125`. -/
  | kvlist (l : Clo)
  /-- An IO action or a clause, tags.rs. -/
  | other (i : Nat)
  | ann (m b : Clo)
  /-- An intrinsic forces `inner`, and the value is `rest`. -/
  | run (inner rest : Clo)
  /-- A stream is read, and the value is `rest`. -/
  | pull (rest : Clo)
  | fail (e : Nat)
deriving DecidableEq

/-- `ExecutionError`, what may be raised here; and using a handle that the collector has left behind, reading a root that is not
there, and running out of fuel. -/
inductive Fault where
  | user (e : Nat)
  | impure
  | notSerialisable
  | corrupt
  | notList
  | overflow
  | forkPath
  | stale
  | badRoot
  | fuel
deriving DecidableEq

/-! ## The machine -/

/-- What happens while a value is evaluated with nothing waiting for it: `return_meta`, machine.rs:1709-1732, notes metadata that
nothing consumes; an intrinsic on the way forces a value, which first forgets what was noted (`enter_whnf_subrun`, 603-615),
and what that leaves is not taken back (`exit_whnf_subrun`, 632-650); a worker may not read a stream, stream.rs:141-143. -/
def eval (worker : Bool) : Clo → Option Clo → Except Fault Clo × Option Clo
  | .ann m b, _ => eval worker b (some m)
  | .run inner rest, _ => match eval worker inner none with
    | (.ok _, r) => eval worker rest r
    | (.error e, r) => (.error e, r)
  | .pull rest, r => if worker then (.error .impure, r) else eval worker rest r
  | .fail e, r => (.error (.user e), r)
  | c, r => (.ok c, r)

/-- The machine as the driver sees it: how often handles may have moved, the root set, the metadata noted last
(`stripped_meta`), and whether this is a worker. -/
structure M where
  epoch : Nat
  roots : List Clo
  reg : Option Clo
  worker : Bool

/-- `AbiClosure` on the Rust stack: a value, and when the handle was good. -/
structure H where
  born : Nat
  clo : Clo

/-- What the driver does: it may fail, and the machine is changed either way. -/
def P (α : Type) := M → Except Fault α × M

instance : Monad P where
  pure a := fun m => (.ok a, m)
  bind x f := fun m => match x m with
    | (.ok a, m) => f a m
    | (.error e, m) => (.error e, m)

/-- `Err(..)`. -/
def throw {α : Type} (e : Fault) : P α := fun m => (.error e, m)

/-- The value behind a handle. -/
def deref (h : H) : P Clo := fun m => if h.born = m.epoch then (.ok h.clo, m) else (.error .stale, m)

/-- A handle to a value just made or found. -/
def handle (c : Clo) : P H := fun m => (.ok ⟨m.epoch, c⟩, m)

/-- `force`, machine.rs:4713-4727: a native is there already; anything else is run, and the collector may run with it. -/
def force (h : H) : P H := fun m => if h.born = m.epoch then
    match h.clo with
    | .nat _ => (.ok h, { m with reg := none })
    | c => match eval m.worker c none with
      | (.ok v, r) => (.ok ⟨m.epoch + 1, v⟩, { m with epoch := m.epoch + 1, reg := r })
      | (.error e, r) => (.error e, { m with epoch := m.epoch + 1, reg := r })
  else (.error .stale, m)

/-- `gc_root_len`, machine.rs:4729. -/
def rootLen : P Nat := fun m => (.ok m.roots.length, m)

/-- `gc_root_push`, machine.rs:4733. -/
def rootPush (h : H) : P Nat := fun m => if h.born = m.epoch then
    (.ok m.roots.length, { m with roots := m.roots ++ [h.clo] })
  else (.error .stale, m)

/-- `gc_root_get`, machine.rs:4738. -/
def rootGet (i : Nat) : P H := fun m => match m.roots[i]? with
  | some c => (.ok ⟨m.epoch, c⟩, m)
  | none => (.error .badRoot, m)

/-- `gc_root_set`, machine.rs:4742. -/
def rootSet (i : Nat) (h : H) : P Unit := fun m => if h.born = m.epoch then
    if i < m.roots.length then (.ok (), { m with roots := m.roots.set i h.clo }) else (.error .badRoot, m)
  else (.error .stale, m)

/-- `gc_root_truncate`, machine.rs:4746. -/
def rootTruncate (len : Nat) : P Unit := fun m => (.ok (), { m with roots := m.roots.take len })

/-- `take_stripped_meta`, machine.rs:4750. -/
def takeMeta : P (Option H) := fun m => (.ok (m.reg.map (⟨m.epoch, ·⟩)), { m with reg := none })

/-- `with_roots`, roots.rs:27-35: the root set is put back however `body` ends. -/
def withRoots {α : Type} (body : P α) : P α := fun m => match body m with
  | (r, m') => (r, { m' with roots := m'.roots.take m.roots.length })

/-- `data_field`, machine.rs:4790-4801, of an evaluated value. -/
def field : Clo → Nat → Option Clo
  | .box _ p, 0 => some p
  | .cons h _, 0 => some h
  | .cons _ t, 1 => some t
  | .block kvs, 0 => some kvs
  | .pair k _, 0 => some k
  | .pair _ v, 1 => some v
  | .kvlist l, 0 => some l
  | _, _ => none

/-- `native_from_value`, machine.rs:4346-4382. -/
def asNative : Clo → Option Native
  | .nat n => some n
  | _ => none

/-- `value_native`, machine.rs:4813-4823. -/
def valueNative (c : Clo) : Option Native := match asNative c with
  | some n => some n
  | none => (field c 0).bind asNative

/-! ## The bytes -/

/-- `to_le_bytes`: `k` bytes, the lowest first; what does not fit is cut off, as by `as u32`. -/
def le : Nat → Nat → Bytes
  | 0, _ => []
  | k + 1, n => UInt8.ofNat n :: le k (n / 256)

/-- `from_le_bytes`. -/
def unLe : Bytes → Nat
  | [] => 0
  | b :: bs => b.toNat + 256 * unLe bs

/-- `as_bytes`. -/
def utf8 (s : String) : Bytes := s.toUTF8.data.toList

/-- `write_len_bytes`, serialise.rs:99-102. -/
def lenBytes (s : String) : Bytes := le 4 (utf8 s).length ++ utf8 s

/-- `encode_number`, serialise.rs:104-118. -/
def encNum : Num → Bytes
  | .pos n => [3, 0] ++ le 8 n.toNat
  | .neg n => [3, 1] ++ le 8 n.toNat
  | .flt n => [3, 2] ++ le 8 n.toNat

/-- The library and the platform: how a date-time is written and read, and see below. -/
structure Texts where
  print : Nat → String
  parse : String → Option Nat

/-- `encode_scalar`, serialise.rs:329-370. -/
def encScalar (τ : Texts) : Native → Except Fault Bytes
  | .num n => .ok (encNum n)
  | .str s => .ok (5 :: lenBytes s)
  | .sym s => .ok (4 :: lenBytes s)
  | .zdt z => .ok (6 :: lenBytes (τ.print z))
  | .closed => .error .notSerialisable

/-- A result that is only computed. -/
def lift {α : Type} (r : Except Fault α) : P α := fun m => (r, m)

/-- An absent field. -/
def orElse {α : Type} (e : Fault) : Option α → Except Fault α
  | some a => .ok a
  | none => .error e

/-- `copy_from_slice` at a place kept for it, serialise.rs:417 and 478. -/
def patch (out : Bytes) (pos : Nat) (bs : Bytes) : Bytes := out.take pos ++ bs ++ out.drop (pos + bs.length)

mutual
/-- `force_and_serialise`, serialise.rs:168-179. -/
def forceSer (τ : Texts) : Nat → H → Bytes → P Bytes
  | 0, _, _ => throw .fuel
  | n + 1, h, out => withRoots do
      let slot ← rootPush h
      slotSer τ n slot out

/-- `force_slot_and_serialise`, serialise.rs:183-215. -/
def slotSer (τ : Texts) : Nat → Nat → Bytes → P Bytes
  | 0, _, _ => throw .fuel
  | n + 1, slot, out => do
      let h ← rootGet slot
      let forced ← force h
      rootSet slot forced
      match ← takeMeta with
      | none => forcedSer τ n slot out
      | some m => do
          let out ← withRoots do
            let metaSlot ← rootPush m
            slotSer τ n metaSlot (out ++ [9])
          forcedSer τ n slot out

/-- `serialise_forced`, serialise.rs:218-327. -/
def forcedSer (τ : Texts) : Nat → Nat → Bytes → P Bytes
  | 0, _, _ => throw .fuel
  | n + 1, slot, out => do
      let h ← rootGet slot
      match ← deref h with
      | .nat x => do
          let bs ← lift (encScalar τ x)
          pure (out ++ bs)
      | .unit => pure (out ++ [0])
      | .tt => pure (out ++ [1])
      | .ff => pure (out ++ [2])
      | .box .typeData p => do
          let p ← handle p
          let p ← force p
          match valueNative (← deref p) with
          | some (.str s) => pure (out ++ 10 :: lenBytes s)
          | _ => throw .notSerialisable
      | .box _ p => do
          let p ← handle p
          let p ← force p
          match valueNative (← deref p) with
          | some x => do
              let bs ← lift (encScalar τ x)
              pure (out ++ bs)
          | none => throw .notSerialisable
      | .nil => pure (out ++ 7 :: le 4 0)
      | .cons _ _ => listSer τ n slot out
      | .block _ => blockSer τ n slot out
      | _ => throw .notSerialisable

/-- `serialise_list`, serialise.rs:376-419. -/
def listSer (τ : Texts) : Nat → Nat → Bytes → P Bytes
  | 0, _, _ => throw .fuel
  | n + 1, slot, out => do
      let at_ := out.length + 1
      let (out, count) ← withRoots do
        let h ← rootGet slot
        let cur ← rootPush h
        itemsSer τ n cur (out ++ 7 :: le 4 0) 0
      pure (patch out at_ (le 4 count))

/-- The loop, serialise.rs:392-414. -/
def itemsSer (τ : Texts) : Nat → Nat → Bytes → Nat → P (Bytes × Nat)
  | 0, _, _, _ => throw .fuel
  | n + 1, cur, out, count => do
      let c ← rootGet cur
      match ← deref c with
      | .nil => pure (out, count)
      | .cons h t => do
          let head ← handle h
          let tail ← handle t
          rootSet cur tail
          let out ← forceSer τ n head out
          let tail ← rootGet cur
          let tail ← force tail
          rootSet cur tail
          itemsSer τ n cur out (count + 1)
      | _ => throw .notSerialisable

/-- `serialise_block`, serialise.rs:422-480. -/
def blockSer (τ : Texts) : Nat → Nat → Bytes → P Bytes
  | 0, _, _ => throw .fuel
  | n + 1, slot, out => do
      let at_ := out.length + 1
      let (out, count) ← withRoots do
        let h ← rootGet slot
        let kvs ← lift (orElse .corrupt (field (← deref h) 0))
        let kvs ← handle kvs
        let cur ← rootPush kvs
        let c ← rootGet cur
        let c ← force c
        rootSet cur c
        pairsSer τ n cur (out ++ 8 :: le 4 0) 0
      pure (patch out at_ (le 4 count))

/-- The loop, serialise.rs:442-475. -/
def pairsSer (τ : Texts) : Nat → Nat → Bytes → Nat → P (Bytes × Nat)
  | 0, _, _, _ => throw .fuel
  | n + 1, cur, out, count => do
      let c ← rootGet cur
      match ← deref c with
      | .nil => pure (out, count)
      | .cons p t => do
          let p ← handle p
          let tail ← handle t
          rootSet cur tail
          let p ← force p
          let pairSlot ← rootPush p
          let p ← rootGet pairSlot
          let key ← lift (orElse .notSerialisable ((field (← deref p) 0).bind asNative))
          let bs ← lift (encScalar τ key)
          let p ← rootGet pairSlot
          let v ← lift (orElse .corrupt (field (← deref p) 1))
          let v ← handle v
          let out ← forceSer τ n v (out ++ bs)
          rootTruncate pairSlot
          let tail ← rootGet cur
          let tail ← force tail
          rootSet cur tail
          pairsSer τ n cur out (count + 1)
      | _ => throw .notSerialisable
end

/-- `take`, serialise.rs:120-127. -/
def take (n : Nat) (bs : Bytes) : Except Fault (Bytes × Bytes) :=
  if bs.length < n then .error .corrupt else .ok (bs.take n, bs.drop n)

/-- `read_u8`, `read_u32`, `read_u64`, serialise.rs:129-141. -/
def readLe (k : Nat) (bs : Bytes) : Except Fault (Nat × Bytes) := do
  let (b, bs) ← take k bs
  .ok (unLe b, bs)

/-- `read_str`, serialise.rs:143-153. -/
def readStr (bs : Bytes) : Except Fault (String × Bytes) := do
  let (len, bs) ← readLe 4 bs
  let (b, bs) ← take len bs
  match String.fromUTF8? ⟨b.toArray⟩ with
  | some s => .ok (s, bs)
  | none => .error .corrupt

/-- A double that is a number: the exponent is not all ones. -/
def finite (n : Nat) : Bool := n / 2 ^ 52 % 2 ^ 11 != 2047

/-- `decode_number`, serialise.rs:155-165; `Number::from` an `i64` that is not negative gives the positive kind. -/
def decNum (bs : Bytes) : Except Fault (Num × Bytes) := do
  let (kind, bs) ← readLe 1 bs
  match kind with
  | 0 => do
      let (n, bs) ← readLe 8 bs
      .ok (.pos (.ofNat n), bs)
  | 1 => do
      let (n, bs) ← readLe 8 bs
      .ok (if n < 2 ^ 63 then .pos (.ofNat n) else .neg (.ofNat n), bs)
  | 2 => do
      let (n, bs) ← readLe 8 bs
      if finite n then .ok (.flt (.ofNat n), bs) else .error .corrupt
  | _ => .error .corrupt

/-- `deserialise_key_native`, serialise.rs:564-585. -/
def decKey (bs : Bytes) : Except Fault (Clo × Bytes) := do
  let (tag, bs) ← readLe 1 bs
  match tag with
  | 4 => do
      let (s, bs) ← readStr bs
      .ok (.nat (.sym s), bs)
  | 5 => do
      let (s, bs) ← readStr bs
      .ok (.nat (.str s), bs)
  | _ => .error .corrupt

/-- `build_list`, serialise.rs:588-598. -/
def buildList (items : List Clo) : Clo := items.foldr .cons .nil

mutual
/-- `deserialise_value`, serialise.rs:486-560.  It only makes values, so nothing moves. -/
def dec (τ : Texts) : Nat → Bytes → Except Fault (Clo × Bytes)
  | 0, _ => .error .fuel
  | n + 1, bs => do
      let (tag, bs) ← readLe 1 bs
      match tag with
      | 0 => .ok (.unit, bs)
      | 1 => .ok (.tt, bs)
      | 2 => .ok (.ff, bs)
      | 3 => do
          let (x, bs) ← decNum bs
          .ok (.box .number (.nat (.num x)), bs)
      | 4 => do
          let (s, bs) ← readStr bs
          .ok (.box .symbol (.nat (.sym s)), bs)
      | 5 => do
          let (s, bs) ← readStr bs
          .ok (.box .string (.nat (.str s)), bs)
      | 6 => do
          let (s, bs) ← readStr bs
          match τ.parse s with
          | some z => .ok (.box .zdt (.nat (.zdt z)), bs)
          | none => .error .corrupt
      | 7 => do
          let (count, bs) ← readLe 4 bs
          let (items, bs) ← decItems τ n count bs
          .ok (buildList items, bs)
      | 8 => do
          let (count, bs) ← readLe 4 bs
          let (pairs, bs) ← decPairs τ n count bs
          .ok (.block (buildList pairs), bs)
      | 9 => do
          let (m, bs) ← dec τ n bs
          let (b, bs) ← dec τ n bs
          .ok (.ann m b, bs)
      | 10 => do
          let (s, bs) ← readStr bs
          .ok (.box .typeData (.nat (.str s)), bs)
      | _ => .error .corrupt

/-- The loop over the items, serialise.rs:525-531. -/
def decItems (τ : Texts) : Nat → Nat → Bytes → Except Fault (List Clo × Bytes)
  | 0, _, _ => .error .fuel
  | _ + 1, 0, bs => .ok ([], bs)
  | n + 1, k + 1, bs => do
      let (x, bs) ← dec τ n bs
      let (xs, bs) ← decItems τ n k bs
      .ok (x :: xs, bs)

/-- The loop over the pairs, serialise.rs:533-543. -/
def decPairs (τ : Texts) : Nat → Nat → Bytes → Except Fault (List Clo × Bytes)
  | 0, _, _ => .error .fuel
  | _ + 1, 0, bs => .ok ([], bs)
  | n + 1, k + 1, bs => do
      let (key, bs) ← decKey bs
      let (v, bs) ← dec τ n bs
      let (xs, bs) ← decPairs τ n k bs
      .ok (.pair key v :: xs, bs)
end

/-! ## The arena -/

/-- The shared memory. -/
abbrev Mem := Nat → UInt8

/-- One write: where, and what. -/
structure Write where
  at_ : Nat
  bytes : Bytes

/-- `write_bytes`, arena.rs:163-169. -/
def Mem.write (mem : Mem) (w : Write) : Mem := fun i =>
  if w.at_ ≤ i then (w.bytes[i - w.at_]?).getD (mem i) else mem i

/-- `read_slice`, arena.rs:171-175. -/
def Mem.slice (mem : Mem) (at_ len : Nat) : Bytes := (List.range len).map fun i => mem (at_ + i)

/-- `read_u64`, arena.rs:157-161. -/
def Mem.u64 (mem : Mem) (at_ : Nat) : Nat := unLe (mem.slice at_ 8)

/-- `Arena::new`, arena.rs:66-69: the size of a segment. -/
def segmentSize (size workers : Nat) : Nat := max ((size + workers - 1) / workers) 16

/-- `SegmentWriter`, arena.rs:187-193: the cursor, the end, the count; and what has been written. -/
structure Writer where
  cursor : Nat
  last : Nat
  base : Nat
  count : Nat
  log : List Write

/-- `Arena::writer`, arena.rs:109-119. -/
def writer (seg w : Nat) : Writer := ⟨w * seg + 8, w * seg + seg, w * seg, 0, []⟩

/-- `SegmentWriter::push`, arena.rs:198-208. -/
def Writer.push (w : Writer) (bs : Bytes) : Option Writer :=
  if w.cursor + (8 + bs.length) > w.last then none else
    some { w with cursor := w.cursor + (8 + bs.length), count := w.count + 1,
                  log := w.log ++ [⟨w.cursor, le 8 bs.length⟩, ⟨w.cursor + 8, bs⟩] }

/-- `SegmentWriter::finish`, arena.rs:212-214. -/
def Writer.finish (w : Writer) : List Write := w.log ++ [⟨w.base, le 8 w.count⟩]

/-- `SegmentReader::next`, arena.rs:245-272, until it stops: where each record lies. -/
def records (mem : Mem) (last : Nat) : Nat → Nat → List (Nat × Nat)
  | 0, _ => []
  | remaining + 1, cursor =>
      if cursor + 8 > last then [] else
        let len := mem.u64 cursor
        if len > last - (cursor + 8) then [] else (cursor + 8, len) :: records mem last remaining (cursor + 8 + len)

/-- `Arena::reader`, arena.rs:129-147: the records of a segment. -/
def reader (mem : Mem) (seg w : Nat) : List (Nat × Nat) :=
  records mem (w * seg + seg) (min (mem.u64 (w * seg)) ((seg - 8) / 8)) (w * seg + 8)

/-! ## The driver -/

/-- `chunk_bounds`, driver.rs:321-327. -/
def chunkBounds (n w i : Nat) : Nat × Nat :=
  let start := i * (n / w) + min i (n % w)
  (start, start + (n / w + if i < n % w then 1 else 0))

/-- What becomes of a worker's process: it runs to its end, or something ends it after some of its writes. -/
inductive Fate where
  | runs
  | dies (after : Nat)
deriving DecidableEq

/-- Where this happens: how many workers are wanted (`decide_workers`, driver.rs:139-149), whether the process may fork
(fork.rs:164-193), whether the mapping succeeds (driver.rs:354-357), whether every `fork` and every wait succeeds, what becomes of each worker, and `EU_PP_STRICT`. -/
structure Host extends Texts where
  workers : Nat → Nat
  forkSafe : Bool
  arena : Bool
  forks : Bool
  fate : Nat → Fate
  strict : Bool

/-- `collect_spine`'s loop, driver.rs:236-271. -/
def spineLoop : Nat → Nat → Nat → P Nat
  | 0, _, _ => throw .fuel
  | n + 1, cur, count => do
      let c ← rootGet cur
      let c ← force c
      rootSet cur c
      let c ← rootGet cur
      match ← deref c with
      | .nil => pure count
      | .cons h t => do
          let head ← handle h
          let tail ← handle t
          rootSet cur tail
          let _ ← rootPush head
          spineLoop n cur (count + 1)
      | _ => throw .notList

/-- `collect_spine`, driver.rs:222-273: the first root of the elements, and how many there are. -/
def collectSpine (n : Nat) (xs : Clo) : P (Nat × Nat) := do
  let start ← handle xs
  let cur ← rootPush start
  let count ← spineLoop n cur 0
  pure (cur + 1, count)

/-- `apply1_thunk`, machine.rs:4889-4907: `f` of an element, not evaluated. -/
def apply1 (ap : Clo → Clo → Clo) (f x : H) : P H := do
  let f ← deref f
  let x ← deref x
  handle (ap f x)

/-- `map_element`, driver.rs:278-294. -/
def mapElement (τ : Texts) (ap : Clo → Clo → Clo) (n : Nat) (f x : H) : P H := withRoots do
  let thunk ← apply1 ap f x
  let buf ← forceSer τ n thunk []
  let (v, _) ← lift (dec τ (buf.length + 1) buf)
  handle v

/-- The loop of `sequential_map`, driver.rs:307-312; it gives the roots of the results. -/
def seqLoop (τ : Texts) (ap : Clo → Clo → Clo) (n fSlot : Nat) : List Nat → P (List Nat)
  | [] => pure []
  | i :: is => do
      let f ← rootGet fSlot
      let x ← rootGet i
      let v ← mapElement τ ap n f x
      let slot ← rootPush v
      let slots ← seqLoop τ ap n fSlot is
      pure (slot :: slots)

/-- Reading the results back, driver.rs:315-318 and 423-426. -/
def gather : List Nat → P (List Clo)
  | [] => pure []
  | i :: is => do
      let v ← deref (← rootGet i)
      let vs ← gather is
      pure (v :: vs)

/-- `sequential_map`, driver.rs:298-320. -/
def sequentialMap (τ : Texts) (ap : Clo → Clo → Clo) (n fSlot base count : Nat) : P Clo := do
  let slots ← seqLoop τ ap n fSlot ((List.range count).map (base + ·))
  let vs ← gather slots
  pure (buildList vs)

/-- The loop of a worker, driver.rs:374-383. -/
def workLoop (τ : Texts) (ap : Clo → Clo → Clo) (n fSlot : Nat) : List Nat → Writer → P Writer
  | [], w => pure w
  | i :: is, w => do
      let f ← rootGet fSlot
      let x ← rootGet i
      let thunk ← apply1 ap f x
      let buf ← forceSer τ n thunk []
      match w.push buf with
      | none => throw .overflow
      | some w => workLoop τ ap n fSlot is w

/-- The worker, driver.rs:361-386, in its own copy of the machine: what it has written, and whether it ends well
(fork.rs:219-227).  What a failing worker has written is not looked at, and is left out. -/
def work (h : Host) (ap : Clo → Clo → Clo) (n fSlot base count w seg : Nat) (m : M) (i : Nat) : List Write × Bool :=
  let (a, b) := chunkBounds count w i
  let r := workLoop h.toTexts ap n fSlot ((List.range (b - a)).map (base + a + ·)) (writer seg i) { m with worker := true }
  match r.1, h.fate i with
  | .ok wr, .runs => (wr.finish, true)
  | .ok wr, .dies k => (wr.finish.take k, false)
  | .error _, _ => ([], false)

/-- The writes of all workers, in some order that keeps each worker's own. -/
inductive Interleave : List (List Write) → List Write → Prop where
  | done {ls} : (∀ l ∈ ls, l = []) → Interleave ls []
  | step {ls rest i w l} : ls[i]? = some (w :: l) → Interleave (ls.set i l) rest → Interleave ls (w :: rest)

/-- The records of one segment rebuilt, driver.rs:404-414; each is put into the root set. -/
def rebuild (τ : Texts) (mem : Mem) : List (Nat × Nat) → P (Option (List Nat))
  | [] => pure (some [])
  | (at_, len) :: rs => match dec τ (len + 1) (mem.slice at_ len) with
    | .error _ => pure none
    | .ok (v, _) => do
        let slot ← rootPush (← handle v)
        match ← rebuild τ mem rs with
        | none => pure none
        | some slots => pure (some (slot :: slots))

/-- Over all segments, with the number of records checked, driver.rs:399-421. -/
def reassemble (τ : Texts) (mem : Mem) (count w seg : Nat) : List Nat → P (Option (List Nat))
  | [] => pure (some [])
  | i :: is => do
      let (a, b) := chunkBounds count w i
      match ← rebuild τ mem (reader mem seg i) with
      | none => pure none
      | some slots => do
          if slots.length ≠ b - a then pure none
          else match ← reassemble τ mem count w seg is with
            | none => pure none
            | some more => pure (some (slots ++ more))

/-- `fork_fault`, driver.rs:109-127. -/
def forkFault (h : Host) : P (Option Clo) := if h.strict then throw .forkPath else pure none

/-- `try_parallel`, driver.rs:334-431, once the workers' writes have reached the memory. -/
def finishParallel (h : Host) (mem : Mem) (count w seg : Nat) : P (Option Clo) := do
  match ← reassemble h.toTexts mem count w seg (List.range w) with
  | none => forkFault h
  | some slots => do
      let vs ← gather slots
      pure (some (buildList vs))

/-- The size asked for, driver.rs:349-353, with `PER_ELEM_CAP` and `ARENA_MAX`, 69-73. -/
def arenaSize (count w : Nat) : Nat := min (max (count * 4096) (min (w * 80) (256 * 2 ^ 20))) (256 * 2 ^ 20)

/-- `try_parallel`, driver.rs:334-431: the workers run, each in its own copy; on any failure the answer is to be found another
way.  The memory is zero to begin with. -/
inductive TryParallel (h : Host) (ap : Clo → Clo → Clo) (n fSlot base count w : Nat) (m : M) :
    Except Fault (Option Clo) × M → Prop where
  | noArena : h.arena = false → TryParallel h ap n fSlot base count w m (forkFault h m)
  | noFork : h.arena = true → h.forks = false → TryParallel h ap n fSlot base count w m (forkFault h m)
  | failed {i} : h.arena = true → i < w →
      (work h ap n fSlot base count w (segmentSize (arenaSize count w) w) m i).2 = false →
      TryParallel h ap n fSlot base count w m (forkFault h m)
  | joined {log} : h.arena = true → h.forks = true →
      (∀ i < w, (work h ap n fSlot base count w (segmentSize (arenaSize count w) w) m i).2 = true) →
      Interleave ((List.range w).map fun i =>
        (work h ap n fSlot base count w (segmentSize (arenaSize count w) w) m i).1) log →
      TryParallel h ap n fSlot base count w m
        (finishParallel h (log.foldl Mem.write fun _ => 0) count w (segmentSize (arenaSize count w) w) m)

/-- What comes after the elements are collected, driver.rs:171-200. -/
inductive Choose (h : Host) (ap : Clo → Clo → Clo) (n fSlot base count : Nat) (m : M) : Except Fault Clo × M → Prop where
  | few : h.workers count < 2 → Choose h ap n fSlot base count m (sequentialMap h.toTexts ap n fSlot base count m)
  | unvouched : h.forkSafe = false → Choose h ap n fSlot base count m (sequentialMap h.toTexts ap n fSlot base count m)
  | parallel {v m'} : 2 ≤ h.workers count → h.forkSafe = true →
      TryParallel h ap n fSlot base count (h.workers count) m (.ok (some v), m') → Choose h ap n fSlot base count m (.ok v, m')
  | declined {m'} : 2 ≤ h.workers count → h.forkSafe = true →
      TryParallel h ap n fSlot base count (h.workers count) m (.ok none, m') →
      Choose h ap n fSlot base count m (sequentialMap h.toTexts ap n fSlot base count m')
  | raised {e m'} : 2 ≤ h.workers count → h.forkSafe = true →
      TryParallel h ap n fSlot base count (h.workers count) m (.error e, m') → Choose h ap n fSlot base count m (.error e, m')

/-- The function and the elements put into the root set, driver.rs:168-170. -/
def prepare (n : Nat) (f xs : Clo) : P (Nat × Nat × Nat) := do
  let slot ← rootPush (← handle f)
  let (base, count) ← collectSpine n xs
  pure (slot, base, count)

/-- `par_map`, driver.rs:159-204. -/
inductive ParMap (h : Host) (ap : Clo → Clo → Clo) (n : Nat) (f xs : Clo) (m : M) : Except Fault Clo × M → Prop where
  | bad {e m'} : prepare n f xs m = (.error e, m') →
      ParMap h ap n f xs m (.error e, { m' with roots := m'.roots.take m.roots.length })
  | good {slot base count m' r m''} : prepare n f xs m = (.ok (slot, base, count), m') →
      Choose h ap n slot base count m' (r, m'') →
      ParMap h ap n f xs m (r, { m'' with roots := m''.roots.take m.roots.length })

end Verif.Par
