import Verif.ArithModel
/-!
# Data values: equality, blocks, lookup and merging

Transcription of the wrappers and intrinsics in `src/eval/stg/eq.rs` and
`src/eval/stg/block.rs`.  They are small STG programs over data constructors
(`src/eval/stg/tags.rs`); each `case`/`switch` becomes a match.  Values are fully evaluated
and finite, so laziness plays no part.  Metadata is kept only where the code treats it
(merging).  Block elements that are lists have at least two items the first of which is a
symbol; the code reports others as errors when they are used.
-/

namespace Verif.Data

open Verif.Arith (Num numEq)

/-- `Native`, src/eval/memory/syntax.rs:33-54.  Strings and symbols by content, datetimes by
instant; sets, arrays, vecs, PRNG states and producers (compared by identity) are `ref`s. -/
inductive Atom where
  | num (n : Num)
  | str (s : String)
  | sym (s : String)
  | zdt (t : Int)
  | ref (kind : Nat) (id : Nat)
deriving DecidableEq, Repr

/-- The boxing constructors, src/eval/stg/tags.rs:12-50. -/
inductive Box where
  | num | str | sym | zdt | typeData
deriving DecidableEq, Repr

mutual
/-- A value. -/
inductive Data where
  | unit
  | bool (b : Bool)
  | native (a : Atom)
  | boxed (b : Box) (a : Atom)
  | list (l : DList)
  | block (es : Elems)
/-- `ListNil` and `ListCons`. -/
inductive DList where
  | nil
  | cons (h : Data) (t : DList)
/-- `BlockPair`, and `BlockKvList` with its list `[k, v, more…]`; the key of the latter is a
boxed or a native symbol. -/
inductive Elem where
  | pair (k : String) (v : Data)
  | kvl (boxedKey : Bool) (k : String) (v : Data) (more : DList)
/-- The element list of a block. -/
inductive Elems where
  | nil
  | cons (e : Elem) (es : Elems)
end

/-- `Eq::execute` on natives, src/eval/stg/eq.rs:274-279, with `PartialEq for Native`,
src/eval/memory/syntax.rs:56-73. -/
def atomEq : Atom → Atom → Bool
  | .num x, .num y => numEq x y
  | .str x, .str y => x == y
  | .sym x, .sym y => x == y
  | .zdt x, .zdt y => x == y
  | .ref k x, .ref k' y => k == k' && x == y
  | _, _ => false

mutual
/-- `Eq::wrapper`, src/eval/stg/eq.rs:108-252.  The intrinsic returns false if an argument is
not native (eq.rs:266-273). -/
def eqData : Data → Data → Bool
  | .unit, .unit => true
  | .unit, _ => false
  | .bool b, .bool c => b == c
  | .bool _, _ => false
  -- unary_branch, eq.rs:40-58
  | .boxed b x, .boxed c y => if b = c then atomEq x y else false
  | .boxed _ x, .native y => atomEq x y
  | .boxed _ _, _ => false
  -- native x, eq.rs:206-250
  | .native x, .boxed _ y => atomEq x y
  | .native x, .native y => atomEq x y
  | .native _, _ => false
  | .list l, .list m => eqList l m
  | .list _, _ => false
  | .block es, .block fs => eqElems es fs
  | .block _, _ => false
termination_by x y => sizeOf x + sizeOf y

/-- `nullary_branch` and `binary_branch`, eq.rs:36-38, 60-79. -/
def eqList : DList → DList → Bool
  | .nil, .nil => true
  | .nil, .cons .. => false
  | .cons h t, .cons h' t' => eqData h h' && eqList t t'
  | .cons .., .nil => false
termination_by x y => sizeOf x + sizeOf y

/-- The list of elements is compared with the list branches. -/
def eqElems : Elems → Elems → Bool
  | .nil, .nil => true
  | .nil, .cons .. => false
  | .cons h t, .cons h' t' => eqElem h h' && eqElems t t'
  | .cons .., .nil => false
termination_by x y => sizeOf x + sizeOf y

/-- The `BlockPair` and `BlockKvList` branches, eq.rs:138-201, with `ExtractKey` and
`ExtractValue` (block.rs:275-376): a pair against a list compares the first two items of the
list, with the list's on the left; two lists are compared as lists.  Keys are symbols, boxed or
not; in all four combinations they are compared by name. -/
def eqElem : Elem → Elem → Bool
  | .pair k v, .pair k' v' => (k == k') && eqData v v'
  | .pair k v, .kvl _ k' v' _ => (k' == k) && eqData v' v
  | .kvl _ k v _, .pair k' v' => (k == k') && eqData v v'
  | .kvl _ k v m, .kvl _ k' v' m' => (k == k') && (eqData v v' && eqList m m')
termination_by x y => sizeOf x + sizeOf y
end

/-! ## Blocks -/

/-- `ExtractKey`, `ExtractValue`: block.rs:275-376. -/
def Elem.key : Elem → String
  | .pair k _ => k
  | .kvl _ k _ _ => k

def Elem.val : Elem → Data
  | .pair _ v => v
  | .kvl _ _ v _ => v

def Elems.toList : Elems → List Elem
  | .nil => []
  | .cons e es => e :: es.toList

def Elems.ofList : List Elem → Elems
  | [] => .nil
  | e :: es => .cons e (ofList es)

/-- `IndexMap::insert`: replaces the value in place, or appends. -/
def insert {α : Type} (k : String) (v : α) : List (String × α) → List (String × α)
  | [] => [(k, v)]
  | (k', v') :: m => if k' = k then (k', v) :: m else (k', v') :: insert k v m

def insertAll {α : Type} (m : List (String × α)) (es : List (String × α)) : List (String × α) :=
  es.foldl (fun m e => insert e.1 e.2 m) m

/-- `PackPair` on all elements: block.rs:378-399, 1026-1046. -/
def pack (es : Elems) : List (String × Elem) := es.toList.map (fun e => (e.key, e))

/-- `BlockPair` on all elements: block.rs:402-456, 1167-1187. -/
def pairs (es : Elems) : List (String × Data) := es.toList.map (fun e => (e.key, e.val))

/-- `machine_return_block_pair_closure_list`. -/
def ofPairs (m : List (String × Data)) : Elems := .ofList (m.map (fun p => .pair p.1 p.2))

/-- `Merge`, block.rs:963-1150: `none` is the error raised for a non-block. -/
def merge : Data → Data → Option Data
  | .block l, .block r => some (.block (.ofList ((insertAll (insertAll [] (pack l)) (pack r)).map (·.2))))
  | _, _ => none

/-- A value with optional metadata. -/
structure WithMeta where
  info : Option Data
  body : Data

/-- The metadata part of the `Merge` wrapper, block.rs:1088-1128. -/
def mergeMeta (l r : WithMeta) : Option WithMeta :=
  match l.info, r.info with
  | some _, some rm => (merge l.body r.body).map (⟨some rm, ·⟩)
  | some lm, none => (merge l.body r.body).map (⟨some lm, ·⟩)
  | none, some rm => (merge l.body r.body).map (⟨some rm, ·⟩)
  | none, none => (merge l.body r.body).map (⟨none, ·⟩)

/-- One step of the second loop of `MergeWith::execute`, block.rs:1250-1258. -/
def upsert {α : Type} (f : α → α) (k : String) (v : α) : List (String × α) → List (String × α)
  | [] => [(k, v)]
  | (k', v') :: m => if k' = k then (k', f v') :: m else (k', v') :: upsert f k v m

/-- `MergeWith`, block.rs:1156-1263. -/
def mergeWith (f : Data → Data → Data) : Data → Data → Option Data
  | .block l, .block r =>
    some (.block (ofPairs ((pairs r).foldl (fun m e => upsert (fun ov => f ov e.2) e.1 e.2 m) (insertAll [] (pairs l)))))
  | _, _ => none

mutual
/-- `DeepMerge`, block.rs:1272-1355: `MergeWith` with itself as the function (inlined here). -/
def deepMerge (l : Data) : Data → Data
  | .block r =>
    match l with
    | .block l => .block (ofPairs (deepElems (insertAll [] (pairs l)) r))
    | _ => .block r
  | r => r
def deepElems (m : List (String × Data)) : Elems → List (String × Data)
  | .nil => m
  | .cons e es => deepElems (deepElem m e) es
def deepElem (m : List (String × Data)) : Elem → List (String × Data)
  | .pair k v => upsert (fun ov => deepMerge ov v) k v m
  | .kvl _ k v _ => upsert (fun ov => deepMerge ov v) k v m
end

/-- The `find` loop of `LookupOr` and `SafeLookup`, block.rs:484-512, 647-676, with
`MatchesKey` (block.rs:231-270). -/
def findKey (k : String) : Elems → Option Data
  | .nil => none
  | .cons e es => if e.key = k then some e.val else findKey k es

inductive Found where
  | value (d : Data)
  | notBlock
  | keyNotFound

/-- `LookupOr`, block.rs:467-614. -/
def lookupOr (k : String) (d : Data) : Data → Found
  | .block es => .value ((findKey k es).getD d)
  | _ => .notBlock

/-- `Lookup`, block.rs:768-792: the default raises the error. -/
def lookup (k : String) : Data → Found
  | .block es => match findKey k es with | some v => .value v | none => .keyNotFound
  | _ => .notBlock

/-- `SafeLookup`, block.rs:625-765. -/
def safeLookup (obj : Data) (k : String) : Data :=
  match obj with
  | .block es => (findKey k es).getD .unit
  | _ => .unit

end Verif.Data
