/-!
# The prelude cache: freshness and serialisation

Models src/eval/stg/wire_format.rs, the decision taken by build.rs, and
src/common/serde_sorted.rs.  SHA-256 is a parameter: any function from byte
strings to 32-byte strings.  The postcard library is not part of the
repository; its wire format (variable-length integers, length-prefixed strings
and maps) is modelled from its documentation.
-/

namespace Verif.Cache

abbrev Bytes := List UInt8

/-! ## Freshness -/

/-- `to_le_bytes` of a `k`-byte unsigned integer. -/
def leBytes : Nat → Nat → Bytes
  | 0, _ => []
  | k + 1, n => UInt8.ofNat (n % 256) :: leBytes k (n / 256)

/-- What `absorb` feeds the hasher, wire_format.rs:135-140. -/
def absorb (tag bytes : Bytes) : Bytes :=
  leBytes 8 tag.length ++ tag ++ (leBytes 8 bytes.length ++ bytes)

/-- `b"wire-format-version"`. -/
def tagVersion : Bytes :=
  [119, 105, 114, 101, 45, 102, 111, 114, 109, 97, 116, 45, 118, 101, 114, 115, 105, 111, 110]
/-- `b"prelude-source"`. -/
def tagPrelude : Bytes := [112, 114, 101, 108, 117, 100, 101, 45, 115, 111, 117, 114, 99, 101]
/-- `b"intrinsic-table"`. -/
def tagTable : Bytes :=
  [105, 110, 116, 114, 105, 110, 115, 105, 99, 45, 116, 97, 98, 108, 101]

/-- Everything a prelude image is built from. -/
structure Inputs where
  version : UInt32
  prelude : Bytes
  table : Bytes
  deriving DecidableEq

/-- The bytes `blob_source_hash` feeds the hasher, wire_format.rs:153-163. -/
def hashed (i : Inputs) : Bytes :=
  absorb tagVersion (leBytes 4 i.version.toNat) ++ (absorb tagPrelude i.prelude
    ++ absorb tagTable i.table)

/-- `blob_source_hash`, the hash function being `sha`. -/
def sourceHash (sha : Bytes → Bytes) (i : Inputs) : Bytes := sha (hashed i)

/-- `read_blob_source_hash`, wire_format.rs:173-176. -/
def readHash (blob : Bytes) : Option Bytes :=
  if blob.length < 32 then none else some (blob.take 32)

/-- `BlobFreshness`, wire_format.rs:180-190. -/
inductive Freshness
  | fresh | missing | unparseable | stale
  deriving DecidableEq, Repr

/-- `classify_blob`, wire_format.rs:217-226. -/
def classify (blob : Option Bytes) (expected : Bytes) : Freshness :=
  match blob with
  | none => .missing
  | some bytes =>
    match readHash bytes with
    | none => .unparseable
    | some found => if found = expected then .fresh else .stale

/-- `PreludeBlob::to_bytes`: postcard writes the first field, a fixed array, as
its bytes, and then `payload`, the rest of the fields. -/
def stamp (sha : Bytes → Bytes) (i : Inputs) (payload : Bytes) : Bytes :=
  sourceHash sha i ++ payload

/-- `verify_prelude_blob`, build.rs:51-75: whether `cfg(prelude_blob_ok)` is
set.  `none` is a file that cannot be read. -/
def verify (sha : Bytes → Bytes) (version : UInt32) (prelude table blob : Option Bytes) : Bool :=
  match prelude, table with
  | some p, some t => classify blob (sourceHash sha ⟨version, p, t⟩) = .fresh
  | _, _ => false

/-! ## Sorted serialisation -/

/-- postcard `varint(usize)`: seven bits at a time, low first, the high bit
marking that more follow.  The first argument bounds the number of bytes. -/
def varint : Nat → Nat → Bytes
  | 0, _ => []
  | k + 1, n =>
    if n < 128 then [UInt8.ofNat n]
    else UInt8.ofNat (n % 128 + 128) :: varint k (n / 128)

/-- `usize` takes at most ten bytes. -/
def putLen (n : Nat) : Bytes := varint 10 n

/-- postcard `try_take_varint_u64`: at most ten bytes, the tenth at most 1. -/
def takeVarint : Nat → Bytes → Option (Nat × Bytes)
  | 0, _ => none
  | _, [] => none
  | k + 1, b :: bs =>
    if b.toNat < 128 then
      if k = 0 ∧ 1 < b.toNat then none else some (b.toNat, bs)
    else
      match takeVarint k bs with
      | none => none
      | some (n, rest) => some (b.toNat - 128 + 128 * n, rest)

def takeLen (bs : Bytes) : Option (Nat × Bytes) := takeVarint 10 bs

/-- A `String`'s bytes, length first. -/
def putStr (s : Bytes) : Bytes := putLen s.length ++ s

def takeStr (bs : Bytes) : Option (Bytes × Bytes) :=
  match takeLen bs with
  | none => none
  | some (n, rest) => if rest.length < n then none else some (rest.take n, rest.drop n)

/-- `Ord for str`: by bytes. -/
def ltBytes : Bytes → Bytes → Bool
  | _, [] => false
  | [], _ :: _ => true
  | a :: as, b :: bs => a < b || (a == b && ltBytes as bs)

/-- `BTreeMap::insert` on the ordered list of a map's entries. -/
def insertKey {V} (k : Bytes) (v : V) : List (Bytes × V) → List (Bytes × V)
  | [] => [(k, v)]
  | (k', v') :: m =>
    if ltBytes k k' then (k, v) :: (k', v') :: m
    else if ltBytes k' k then (k', v') :: insertKey k v m
    else (k, v) :: m

/-- `map.iter().collect::<BTreeMap<_, _>>()`, `m` being the entries in the
order the hash map happens to yield them. -/
def toBTree {V} (m : List (Bytes × V)) : List (Bytes × V) :=
  m.foldl (fun t e => insertKey e.1 e.2 t) []

/-- postcard on a sequence of entries. -/
def putEntries {V} (put : V → Bytes) : List (Bytes × V) → Bytes
  | [] => []
  | (k, v) :: m => putStr k ++ (put v ++ putEntries put m)

/-- `serde_sorted::serialize`, serde_sorted.rs:21-31. -/
def serialize {V} (put : V → Bytes) (m : List (Bytes × V)) : Bytes :=
  putLen m.length ++ putEntries put (toBTree m)

/-- A `HashMap` being filled: a partial function. -/
abbrev Map (V : Type) := Bytes → Option V

def Map.insert {V} (m : Map V) (k : Bytes) (v : V) : Map V :=
  fun k' => if k' = k then some v else m k'

/-- `HashMap::deserialize`: read that many entries, inserting each. -/
def takeEntries {V} (take : Bytes → Option (V × Bytes)) : Nat → Bytes → Map V →
    Option (Map V × Bytes)
  | 0, bs, m => some (m, bs)
  | n + 1, bs, m =>
    match takeStr bs with
    | none => none
    | some (k, bs1) =>
      match take bs1 with
      | none => none
      | some (v, bs2) => takeEntries take n bs2 (m.insert k v)

/-- `serde_sorted::deserialize`, serde_sorted.rs:34-41. -/
def deserialize {V} (take : Bytes → Option (V × Bytes)) (bs : Bytes) : Option (Map V × Bytes) :=
  match takeLen bs with
  | none => none
  | some (n, rest) => takeEntries take n rest fun _ => none

end Verif.Cache
