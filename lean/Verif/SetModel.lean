import Verif.ArithModel
/-!
# Sets

Transcription of `src/eval/memory/set.rs` and `src/eval/stg/set.rs`.  A `HashSet` is a list
without repetitions in some unspecified order; every function of the model is given the elements
in whatever order the hash table has them.
-/

namespace Verif.Sets

open Verif.Arith (Num asF64 fromF64)

/-- `Primitive`, src/eval/memory/set.rs:19-24.  Numbers are doubles (in units of `2^-1074`),
symbols are interned ids. -/
inductive Prim where
  | num (v : Int)
  | str (s : String)
  | sym (id : Nat)
deriving DecidableEq, Repr

/-- The native values that can be elements. -/
inductive Nat' where
  | num (n : Num)
  | str (s : String)
  | sym (id : Nat)
  | other
deriving DecidableEq, Repr

/-- `native_to_set_primitive`, src/eval/stg/support.rs:471-490, with `Primitive::from_number`,
set.rs:38-42: `none` is the type error. -/
def toPrim : Nat' → Option Prim
  | .num n => some (.num (asF64 n))
  | .str s => some (.str s)
  | .sym i => some (.sym i)
  | .other => none

/-- `set_primitive_to_native`, support.rs:493-511. -/
def ofPrim : Prim → Nat'
  | .num v => .num ((fromF64 v).getD (.pos 0))
  | .str s => .str s
  | .sym i => .sym i

/-- `Ord for Primitive`, set.rs:59-73: `a ≤ b`.  Strings compare bytewise, which for UTF-8 is by
code points. -/
def le : Prim → Prim → Bool
  | .num a, .num b => decide (a ≤ b)
  | .str a, .str b => decide (a ≤ b)
  | .sym a, .sym b => decide (a ≤ b)
  | .num _, _ => true
  | _, .num _ => false
  | .str _, .sym _ => true
  | .sym _, .str _ => false

/-- `HashSet<Primitive>`. -/
abbrev HeapSet := List Prim

/-- `HashSet::insert`. -/
def insert (s : HeapSet) (p : Prim) : HeapSet := if s.contains p then s else p :: s

/-- `HeapSet::from_primitives`, set.rs:96-100. -/
def fromPrims (ps : List Prim) : HeapSet := ps.foldl insert []

/-- `with_added`, set.rs:103-107. -/
def withAdded (s : HeapSet) (p : Prim) : HeapSet := insert s p
/-- `with_removed`, set.rs:110-114. -/
def withRemoved (s : HeapSet) (p : Prim) : HeapSet := s.filter (· ≠ p)
/-- `contains`, set.rs:117-119. -/
def contains (s : HeapSet) (p : Prim) : Bool := s.elem p
/-- `union`, set.rs:132-136: the first set, then what the second adds. -/
def union (a b : HeapSet) : HeapSet := fromPrims (a ++ b.filter (fun p => !a.elem p))
/-- `intersect`, set.rs:139-147. -/
def intersect (a b : HeapSet) : HeapSet := fromPrims (a.filter (fun p => b.elem p))
/-- `diff`, set.rs:150-154. -/
def diff (a b : HeapSet) : HeapSet := fromPrims (a.filter (fun p => !b.elem p))
/-- `sorted_elements`, set.rs:157-161. -/
def sortedElements (s : HeapSet) : List Prim := s.mergeSort le

/-! ## The intrinsics (src/eval/stg/set.rs) -/

/-- `SET.FROM_LIST`, set.rs:115-143. -/
def fromList (xs : List Nat') : Option HeapSet := (xs.mapM toPrim).map fromPrims
/-- `SET.TO_LIST`, set.rs:155-186. -/
def toList (s : HeapSet) : List Nat' := (sortedElements s).map ofPrim
/-- `SET.ADD`, set.rs:203-215. -/
def setAdd (x : Nat') (s : HeapSet) : Option HeapSet := (toPrim x).map (withAdded s)
/-- `SET.REMOVE`, set.rs:232-244. -/
def setRemove (x : Nat') (s : HeapSet) : Option HeapSet := (toPrim x).map (withRemoved s)
/-- `SET.CONTAINS`, set.rs:265-285. -/
def setContains (x : Nat') (s : HeapSet) : Bool :=
  match toPrim x with
  | some p => contains s p
  | none => false
/-- `SET.SIZE`, set.rs:297-309. -/
def setSize (s : HeapSet) : Nat := s.length
/-- `SET.UNION`, `SET.INTERSECT`, `SET.DIFF`, set.rs:313-385: the second argument is the left
operand. -/
def setUnion (b a : HeapSet) : HeapSet := union a b
def setIntersect (b a : HeapSet) : HeapSet := intersect a b
def setDiff (b a : HeapSet) : HeapSet := diff a b

end Verif.Sets
