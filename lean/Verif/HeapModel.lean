/-!
# The heap: bump blocks, line marks, allocation, collection

Transcription of the space management of `src/eval/memory/bump.rs`,
`src/eval/memory/heap.rs` and `src/eval/memory/collect.rs`: where objects are put, which
lines are marked, which blocks are reused.  Object contents and the reachability trace are
modelled elsewhere (`MarkModel`, `EvacModel`); here a collection is given the set of objects
the trace visits, in any order, and for each whether it is evacuated.

Blocks are identified by a number (in the code: their base address).  The lists of
`HeapState` hold block identities, and `Heap.blk` the contents, so that
`mark_region_in_block`, which searches all lists for the block with a given base address, is
an update at that identity.
-/

namespace Verif.Heap

/-- src/eval/memory/bump.rs:39-48. -/
def blockSize : Nat := 32768
def lineSize : Nat := 128

/-- The mutable part of a `BumpBlock`, src/eval/memory/bump.rs:192-202.  The line map is a
function on line numbers (in the code: a bitmap with 256 entries). -/
structure Block where
  lower : Nat
  cursor : Nat
  marks : Nat → Bool

/-- `BumpBlock::new`, src/eval/memory/bump.rs:283-291. -/
def Block.fresh : Block := ⟨0, blockSize, fun _ => false⟩

/-- The check for a sufficient hole, occurring twice in `find_hole`,
src/eval/memory/bump.rs:101-121 and 130-148. -/
def holeOf (count : Nat) (upper : Option Nat) (lower : Nat) : Option (Nat × Nat) :=
  match upper with
  | none => none
  | some hu =>
    if count > 1 then
      let cu := if hu > lower + 1 then hu - 1 else hu
      if cu > lower then some (lower * lineSize, cu * lineSize) else none
    else none

/-- The loop of `find_hole` over the lines below `n`, downwards,
src/eval/memory/bump.rs:90-127. -/
def scanLines (marks : Nat → Bool) : Nat → Nat → Option Nat → Nat → Option (Nat × Nat)
  | 0, count, upper, lower => holeOf count upper lower
  | n + 1, count, upper, lower =>
    if marks n then
      match holeOf count upper lower with
      | some r => some r
      | none => scanLines marks n 0 none lower
    else
      scanLines marks n (count + 1)
        (match upper with | none => some (n + (count + 1)) | some u => some u) n

/-- `LineMap::find_hole`, src/eval/memory/bump.rs:84-155. -/
def findHole (marks : Nat → Bool) (below : Nat) : Option (Nat × Nat) :=
  scanLines marks (below / lineSize) 0 none below

/-- Invariant of the scan, needed to see that `bump` terminates. -/
theorem scanLines_spec (marks : Nat → Bool) : ∀ n count upper lower N lo hi,
    (∀ hu, upper = some hu → lower = n ∧ hu = n + count ∧ hu ≤ N ∧ ∀ l, n ≤ l → l < hu → marks l = false) →
    (upper = none → count = 0) → n ≤ N →
    scanLines marks n count upper lower = some (lo, hi) →
    ∃ a b, lo = a * lineSize ∧ hi = b * lineSize ∧ a < b ∧ b < N ∧
      ∀ l, a ≤ l → l < b → marks l = false := by
  intro n
  have hole : ∀ n count upper lower N lo hi,
      (∀ hu, upper = some hu → lower = n ∧ hu = n + count ∧ hu ≤ N ∧ ∀ l, n ≤ l → l < hu → marks l = false) →
      holeOf count upper lower = some (lo, hi) →
      ∃ a b, lo = a * lineSize ∧ hi = b * lineSize ∧ a < b ∧ b < N ∧
        ∀ l, a ≤ l → l < b → marks l = false := by
    intro n count upper lower N lo hi hu h
    unfold holeOf at h
    split at h
    · simp at h
    · rename_i u
      obtain ⟨h1, h2, h3, h4⟩ := hu u rfl
      split at h
      · have : u > lower + 1 := by omega
        simp only [this, if_true] at h
        split at h
        · simp at h
          exact ⟨lower, u - 1, h.1.symm, h.2.symm, by omega, by omega, fun l hl hl' => h4 l (by omega) (by omega)⟩
        · simp at h
      · simp at h
  induction n with
  | zero => intro count upper lower N lo hi hu hn hN h; exact hole 0 count upper lower N lo hi hu h
  | succ n ih =>
    intro count upper lower N lo hi hu hn hN h
    unfold scanLines at h
    split at h
    · split at h
      · rename_i r hr
        simp at h; subst h
        exact hole (n + 1) count upper lower N lo hi hu hr
      · exact ih 0 none lower N lo hi (by simp) (by simp) (by omega) h
    · rename_i hm
      refine ih _ _ _ N lo hi ?_ ?_ (by omega) h
      · intro u hu'
        cases upper with
        | none =>
          have := hn rfl; subst this
          simp at hu'; subst hu'
          refine ⟨rfl, by omega, by omega, fun l hl hl' => ?_⟩
          have : l = n := by omega
          subst this; simpa using hm
        | some v =>
          simp at hu'; subst hu'
          obtain ⟨_, h2, h3, h4⟩ := hu v rfl
          refine ⟨rfl, by omega, h3, fun l hl hl' => ?_⟩
          by_cases hln : l = n
          · subst hln; simpa using hm
          · exact h4 l (by omega) hl'
      · intro hnone; cases upper <;> simp at hnone

/-- What a found hole is: at least one line, entirely below the limit, all lines unmarked. -/
theorem findHole_spec {marks below lo hi} (h : findHole marks below = some (lo, hi)) :
    ∃ a b, lo = a * lineSize ∧ hi = b * lineSize ∧ a < b ∧ b < below / lineSize ∧
      ∀ l, a ≤ l → l < b → marks l = false :=
  scanLines_spec marks _ 0 none below _ lo hi (by simp) (by simp) (Nat.le_refl _) h

theorem findHole_lt {marks below lo hi} (h : findHole marks below = some (lo, hi)) : hi < below := by
  obtain ⟨a, b, _, h2, _, h4, _⟩ := findHole_spec h
  unfold lineSize at *
  omega

/-- `BumpBlock::bump`, src/eval/memory/bump.rs:293-333.  The offset of the space, if any; the
block is changed even when there is none. -/
def bump (b : Block) (size : Nat) : Block × Option Nat :=
  if size > b.cursor then (b, none)
  else
    let next := b.cursor - size
    if next < b.lower then
      match _h : findHole b.marks b.cursor with
      | some (lower, cursor) => bump { b with lower := lower, cursor := cursor } size
      | none => (b, none)
    else ({ b with cursor := next }, some next)
termination_by b.cursor
decreasing_by exact findHole_lt _h

/-- `BumpBlock::recycle`, src/eval/memory/bump.rs:370-390. -/
def recycle (b : Block) : Block × Bool :=
  match findHole b.marks blockSize with
  | some (lower, cursor) => ({ b with lower := lower, cursor := cursor }, true)
  | none => ({ b with lower := 0, cursor := 0 }, false)

/-- `BumpBlock::mark_region`, src/eval/memory/bump.rs:414-444. -/
def markRegion (b : Block) (offset bytes : Nat) : Block :=
  let first := offset / lineSize
  let last := (offset + (bytes - 1)) / lineSize + 1
  { b with marks := fun l => (decide (first ≤ l) && decide (l < last)) || b.marks l }

/-- `HeapState`, src/eval/memory/heap.rs:358-385 (without counters).  `lobs` counts the large
object blocks handed out; `recycled_lobs` is never filled by the collector, so each large
object gets a block of its own. -/
structure Heap where
  blk : Nat → Block
  next : Nat
  head : Option Nat
  overflow : Option Nat
  recycled : List Nat
  rest : List Nat
  unswept : List Nat
  target : Option Nat
  filled : List Nat
  lobs : Nat

/-- `HeapState::new`, src/eval/memory/heap.rs:420-435. -/
def Heap.empty : Heap := ⟨fun _ => .fresh, 0, none, none, [], [], [], none, [], 0⟩

def Heap.setBlk (h : Heap) (i : Nat) (b : Block) : Heap :=
  { h with blk := fun j => if j = i then b else h.blk j }

/-- `Block::new` for a bump block: memory at an address not in use. -/
def Heap.newBlock (h : Heap) : Heap × Nat :=
  ({ h.setBlk h.next .fresh with next := h.next + 1 }, h.next)

/-- `HeapState::head`, src/eval/memory/heap.rs:437-443. -/
def ensureHead (h : Heap) : Heap × Nat :=
  match h.head with
  | some i => (h, i)
  | none => let (h, i) := h.newBlock; ({ h with head := some i }, i)

/-- `HeapState::overflow`, src/eval/memory/heap.rs:446-452. -/
def ensureOverflow (h : Heap) : Heap × Nat :=
  match h.overflow with
  | some i => (h, i)
  | none => let (h, i) := h.newBlock; ({ h with overflow := some i }, i)

/-- `lazy_sweep_next`, src/eval/memory/heap.rs:680-692, over the queue `unswept`. -/
def lazySweepNext : List Nat → Heap → Heap
  | [], h => { h with unswept := [] }
  | i :: us, h =>
    let (b, ok) := recycle (h.blk i)
    let h := h.setBlk i b
    if ok then { h with unswept := us, recycled := h.recycled ++ [i] }
    else lazySweepNext us { h with unswept := us, rest := h.rest ++ [i] }

/-- `replace_head_targeted`, src/eval/memory/heap.rs:472-498.  Which recycled block is taken
(`find_best_recycled_block`, by a floating-point score) is left open: `pick` is arbitrary. -/
def replaceHead (h : Heap) (pick : Nat) : Heap × Nat :=
  let h := if h.recycled.isEmpty then lazySweepNext h.unswept h else h
  let (h, i) :=
    match h.recycled[pick % h.recycled.length]? with
    | none => h.newBlock
    | some i => ({ h with recycled := h.recycled.eraseIdx (pick % h.recycled.length) }, i)
  ({ h with head := some i, rest := h.rest ++ h.head.toList }, i)

/-- `replace_overflow`, src/eval/memory/heap.rs:530-538. -/
def replaceOverflow (h : Heap) : Heap × Nat :=
  let (h, i) := h.newBlock
  ({ h with overflow := some i, rest := h.rest ++ h.overflow.toList }, i)

/-- Where an object lives. -/
inductive Region where
  | block (i : Nat)
  | lob (i : Nat)
deriving DecidableEq, Repr

/-- The space found by an allocation. -/
structure Space where
  region : Region
  off : Nat
deriving DecidableEq, Repr

/-- Bump in block `i` of the heap. -/
def bumpIn (h : Heap) (i : Nat) (size : Nat) : Heap × Option Space :=
  let (b, r) := bump (h.blk i) size
  (h.setBlk i b, r.map (⟨.block i, ·⟩))

/-- `SizeClass::for_size`, src/eval/memory/heap.rs:346-356. -/
inductive SizeClass where
  | small | medium | large
deriving DecidableEq, Repr

def sizeClass (size : Nat) : SizeClass :=
  if size < lineSize then .small else if size < blockSize then .medium else .large

/-- `current_hole_size`, src/eval/memory/bump.rs:392-394. -/
def holeSize (b : Block) : Nat := b.cursor - b.lower

/-- `try_allocate`, src/eval/memory/heap.rs:2378-2407. -/
def tryAllocate (h : Heap) (size pick : Nat) : Heap × Option Space :=
  let (h, hd) := ensureHead h
  match sizeClass size with
  | .large => ({ h with lobs := h.lobs + 1 }, some ⟨.lob h.lobs, 0⟩)
  | c =>
    if c = .medium ∧ size > holeSize (h.blk hd) then
      let (h, ov) := ensureOverflow h
      match bumpIn h ov size with
      | (h, some s) => (h, some s)
      | (h, none) =>
        let (h, ov) := replaceOverflow h
        bumpIn h ov size
    else
      match bumpIn h hd size with
      | (h, some s) => (h, some s)
      | (h, none) =>
        let (h, hd) := replaceHead h pick
        bumpIn h hd size

/-- `sweep`, src/eval/memory/heap.rs:648-671: recycle what can be recycled. -/
def sweepList : List Nat → Heap → (unusable : List Nat) → Heap × List Nat
  | [], h, un => (h, un)
  | i :: is, h, un =>
    let (b, ok) := recycle (h.blk i)
    let h := h.setBlk i b
    if ok then sweepList is { h with recycled := h.recycled ++ [i] } un
    else sweepList is h (un ++ [i])

def sweep (h : Heap) : Heap :=
  let (h1, un) := sweepList (h.rest ++ h.unswept) h []
  { h1 with rest := un, unswept := [] }

/-- `find_space`, src/eval/memory/heap.rs:2350-2375, with the first strategy of
`perform_emergency_sweep` (2446-2484). -/
def findSpace (h : Heap) (size pick : Nat) : Heap × Option Space :=
  match tryAllocate h size pick with
  | (h, some s) => (h, some s)
  | (h, none) => tryAllocate (sweep h) size pick

/-- `alloc_size_of`, src/eval/memory/heap.rs:2521-2526: round up to a multiple of 16. -/
def allocSizeOf (total : Nat) : Nat := (total + 15) / 16 * 16

/-- Size of `AllocHeader`, src/eval/memory/header.rs:66-77. -/
def headerSize : Nat := 16

/-- An object: where its header starts and how many bytes header and payload take. -/
structure Obj where
  region : Region
  off : Nat
  len : Nat
deriving DecidableEq, Repr

/-- `alloc`, `alloc_bytes`, `alloc_bytes_uninit`: src/eval/memory/heap.rs:2222-2325, for an
object with the given number of payload bytes (the length field of the header is a `u32`). -/
def alloc (h : Heap) (payload pick : Nat) : Heap × Option Obj :=
  if payload > 4294967295 then (h, none)
  else match findSpace h (allocSizeOf (headerSize + payload)) pick with
  | (h, some s) => (h, some ⟨s.region, s.off, headerSize + payload⟩)
  | (h, none) => (h, none)

/-! ## Collection -/

/-- `reset_region_marks`, src/eval/memory/heap.rs:2589-2621: all blocks in all lists. -/
def resetMarks (h : Heap) : Heap := { h with blk := fun i => { h.blk i with marks := fun _ => false } }

/-- `mark_line`, `mark_lines_for_bytes`: src/eval/memory/heap.rs:2696-2750 via
`mark_region_in_block` (759-822).  Large objects have no line map. -/
def markObj (h : Heap) (o : Obj) : Heap :=
  match o.region with
  | .block i => h.setBlk i (markRegion (h.blk i) o.off o.len)
  | .lob _ => h

/-- The second half of `bump_allocate_in_target`, src/eval/memory/heap.rs:618-632: retire the
target block and go on with a new one. -/
def retryTarget (h : Heap) (size : Nat) : Heap × Option Space :=
  let p := Heap.newBlock { h with filled := h.filled ++ h.target.toList, target := none }
  bumpIn { p.1 with target := some p.2 } p.2 size

/-- `bump_allocate_in_target`, src/eval/memory/heap.rs:608-632. -/
def bumpInTarget (h : Heap) (size : Nat) : Heap × Option Space :=
  match h.target with
  | some t =>
    match bumpIn h t size with
    | (h, some s) => (h, some s)
    | (h, none) => retryTarget h size
  | none => retryTarget h size

/-- `evacuate`, src/eval/memory/collect.rs:298-385: the copy takes the place of the object. -/
def evacuate (h : Heap) (o : Obj) : Heap × Obj :=
  match bumpInTarget h (allocSizeOf o.len) with
  | (h, some s) => let c : Obj := ⟨s.region, s.off, o.len⟩; (markObj h c, c)
  | (h, none) => (h, o)

/-- One object taken from the work queue: it has been marked; it may be evacuated
(`try_evacuate`, src/eval/memory/collect.rs:726-760, never for large objects).  Returns the
place where the object lives from now on. -/
def visit (h : Heap) (o : Obj) (evac : Bool) : Heap × Obj :=
  let h := markObj h o
  match o.region, evac with
  | .block _, true => evacuate h o
  | _, _ => (h, o)

/-- The mark phase over the visited objects. -/
def visitAll : List (Obj × Bool) → Heap → Heap × List Obj
  | [], h => (h, [])
  | (o, e) :: os, h =>
    let (h, o') := visit h o e
    let (h, os') := visitAll os h
    (h, o' :: os')

/-- `finalise_evacuation`, src/eval/memory/heap.rs:635-645. -/
def finaliseEvacuation (h : Heap) : Heap :=
  { h with rest := h.rest ++ h.target.toList ++ h.filled, target := none, filled := [] }

/-- `defer_sweep`, src/eval/memory/heap.rs:674-677. -/
def deferSweep (h : Heap) : Heap := { h with unswept := h.unswept ++ h.rest, rest := [] }

/-- `collect_mark_in_place` and `collect_with_evacuation`,
src/eval/memory/collect.rs:410-490 and 514-668, as far as space is concerned.  (Without
evacuation `finaliseEvacuation` does nothing.) -/
def collect (h : Heap) (visited : List (Obj × Bool)) : Heap × List Obj :=
  let h := resetMarks h
  let (h, objs) := visitAll visited h
  (deferSweep (finaliseEvacuation h), objs)

end Verif.Heap
