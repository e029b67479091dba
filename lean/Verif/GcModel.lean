/-!
# Tracing, marking and pointer update of the collector

Transcription of the object graph side of `src/eval/memory/collect.rs` and of the
`GcScannable` implementations in `src/eval/bytecode/{closure,cont,machine}.rs`,
`src/eval/machine/env.rs` and `src/eval/memory/string.rs`.

A scan implementation is a sequence of statements of two forms: `out.push(ptr)` and
`if marker.mark(ptr) { out.push(..); .. }`.  We transcribe each as a list of such statements
(`Act`) run by one interpreter.  Addresses are numbers; `Store` gives the object at an
address.  Space (where copies go, line marks) is the subject of `HeapModel`.
-/

namespace Verif.Gc

abbrev Addr := Nat

/-- `BcValue`, src/eval/bytecode/closure.rs:104-107, with `Native`
(src/eval/memory/syntax.rs): only the four heap-backed natives are told apart. -/
inductive Val where
  | closure (code : Nat) (env : Addr)
  | str (p : Addr)
  | set (p : Addr)
  | ndArray (p : Addr)
  | vec (p : Addr)
  | scalar (n : Nat)
deriving DecidableEq, Repr

/-- What can be at an address: an `EnvironmentFrame` (src/eval/machine/env.rs:300-340), the
backing of an `Array<BcValue>`, an opaque backing (branch tables, string bytes), a
`HeapString`, or a set/vec/nd-array object (which own their contents outside the heap).
Frames sharing a backing share its length too, so the elements belong to the backing. -/
inductive Obj where
  | frame (bindings : Option Addr) (next : Option Addr) (annotation : Nat)
  | vals (vs : List Val)
  | bytes (data : List Nat)
  | str (length : Nat) (data : Option Addr)
  | leaf (contents : Nat)
deriving DecidableEq, Repr

abbrev Store := Addr → Obj

/-- `BcContinuation`, src/eval/bytecode/cont.rs:25-137; inert fields dropped. -/
inductive Cont where
  | branch (table : Option Addr) (env : Addr)
  | branchPredecoded (env : Addr)
  | update (env : Addr) (index : Nat)
  | applyTo (args : Option Addr)
  | deMeta (env : Addr)
  | seqBind (env : Addr)
  | lookupLitForce (code : Nat) (env : Addr)
  | captureEnd
  | fusedLeft (env : Addr)
  | fusedRight (left : Val) (env : Addr)
deriving DecidableEq, Repr

/-- The roots in `BcMachineState`, src/eval/bytecode/machine.rs:662-712. -/
structure Roots where
  globals : Addr
  rootEnv : Addr
  current : Val
  stack : List Cont
  constants : List Val
  stash : List Val
  suspended : List (List Cont)
  bifFrames : List (Addr × List Val)
  strippedMeta : Option Val
deriving DecidableEq, Repr

/-- `ScanPtr`, src/eval/memory/collect.rs:15-60: a heap object, or a value embedded in one. -/
inductive Item where
  | heap (a : Addr)
  | emb (v : Val)
deriving DecidableEq, Repr

/-- A statement of a scan implementation. -/
inductive Act where
  | push (i : Item)
  | markThen (a : Addr) (is : List Item)
deriving DecidableEq, Repr

/-- Elements of the backing of a value array. -/
def elems (s : Store) (b : Addr) : List Val :=
  match s b with
  | .vals vs => vs
  | _ => []

/-- `if marker.mark(p) { out.push(ScanPtr::from_non_null(scope, p)) }`. -/
def markPush (a : Addr) : Act := .markThen a [.heap a]

/-- `mark_array` for an `Array<BcValue>` and what follows it: env.rs:648-663,
cont.rs:222-234. -/
def markVals (s : Store) (b : Addr) : Act := .markThen b (.heap b :: (elems s b).map .emb)

/-- `BcValue::scan`, `BcClosure::scan`, `scan_native`: src/eval/bytecode/closure.rs:124-147,
179-220. -/
def scanVal : Val → List Act
  | .closure _ e => [markPush e]
  | .str p => [markPush p]
  | .set p => [.markThen p []]
  | .ndArray p => [.markThen p []]
  | .vec p => [.markThen p []]
  | .scalar _ => []

/-- `scan` of heap objects: `EnvironmentFrame` (env.rs:641-672), `HeapString`
(string.rs:30-43), `OpaqueHeapBytes` (collect.rs:111-120).  Set, vec and nd-array objects are
never queued. -/
def scanObj (s : Store) : Obj → List Act
  | .frame b nx _ => b.toList.map (markVals s) ++ nx.toList.map markPush
  | .str _ d => d.toList.map markPush
  | .vals _ => []
  | .bytes _ => []
  | .leaf _ => []

/-- `BcContinuation::scan`, src/eval/bytecode/cont.rs:175-275. -/
def scanCont (s : Store) : Cont → List Act
  | .branch t e => t.toList.map markPush ++ [markPush e]
  | .branchPredecoded e => [markPush e]
  | .update e _ => [markPush e]
  | .applyTo args => args.toList.map (markVals s)
  | .deMeta e => [markPush e]
  | .seqBind e => [markPush e]
  | .lookupLitForce _ e => [markPush e]
  | .captureEnd => []
  | .fusedLeft e => [markPush e]
  | .fusedRight l e => [markPush e, .push (.emb l)]

/-- `scan_const`, src/eval/bytecode/machine.rs:490-511.  A constant or argument reference that
is not a heap-backed native does nothing; a closure cannot occur there. -/
def scanConst : Val → List Act
  | .str p => [markPush p]
  | .set p => [.markThen p []]
  | .ndArray p => [.markThen p []]
  | .vec p => [.markThen p []]
  | _ => []

/-- `BcMachineState::scan`, src/eval/bytecode/machine.rs:662-712. -/
def scanRoots (s : Store) (r : Roots) : List Act :=
  [markPush r.globals, markPush r.rootEnv, .push (.emb r.current)]
  ++ r.stack.flatMap (scanCont s)
  ++ r.constants.flatMap scanConst
  ++ r.stash.map (fun v => .push (.emb v))
  ++ r.suspended.flatMap (fun st => st.flatMap (scanCont s))
  ++ r.bifFrames.flatMap (fun f => markPush f.1 :: f.2.flatMap scanConst)
  ++ r.strippedMeta.toList.map (fun v => .push (.emb v))

def scanItem (s : Store) : Item → List Act
  | .heap a => scanObj s (s a)
  | .emb v => scanVal v

/-- Run a scan with the given marks; new marks and the scan buffer. `mark`,
src/eval/memory/collect.rs:157-200. -/
def runActs (m : List Addr) : List Act → List Addr × List Item
  | [] => (m, [])
  | .push i :: as => let r := runActs m as; (r.1, i :: r.2)
  | .markThen a is :: as =>
    if a ∈ m then runActs m as
    else let r := runActs (a :: m) as; (r.1, is ++ r.2)

/-- The address of a queue entry that is a heap object: recorded in `live_heap_objects`,
src/eval/memory/collect.rs:553-562. -/
def heapAddr : Item → List Addr
  | .heap a => [a]
  | .emb _ => []

/-- The queue loop, src/eval/memory/collect.rs:437-440 and 550-570.  Result: marked
addresses and the heap objects that were queued, in order.  The fuel bounds the number of
rounds; `none` means it ran out. -/
def markLoop (s : Store) : Nat → List Addr → List Item → List Addr → Option (List Addr × List Addr)
  | _, m, [], vis => some (m, vis)
  | 0, _, _ :: _, _ => none
  | fuel + 1, m, i :: q, vis =>
    let r := runActs m (scanItem s i)
    markLoop s fuel r.1 (q ++ r.2) (vis ++ heapAddr i)

/-- The mark phase, src/eval/memory/collect.rs:425-441 and 541-571. -/
def markPhase (s : Store) (roots : Roots) (fuel : Nat) : Option (List Addr × List Addr) :=
  let r := runActs [] (scanRoots s roots)
  markLoop s fuel r.1 r.2 []

/-! ## Evacuation and update -/

/-- Store, forwarding pointers and the next unused address. -/
structure Evac where
  store : Store
  fwd : Addr → Option Addr
  next : Addr

/-- `evacuate`, src/eval/memory/collect.rs:298-385: byte copy to unused space, forwarding
pointer in the old header.  In the code this happens when the object is taken from the queue;
the trace goes on reading the old copy, so we may do it after the trace. -/
def evacOne (e : Evac) (a : Addr) : Evac :=
  match e.fwd a with
  | some _ => e
  | none =>
    { store := fun x => if x = e.next then e.store a else e.store x
      fwd := fun x => if x = a then some e.next else e.fwd x
      next := e.next + 1 }

/-- The queued heap objects in candidate blocks (any predicate) are evacuated. -/
def evacAll (cand : Addr → Bool) : List Addr → Evac → Evac
  | [], e => e
  | a :: as, e => evacAll cand as (if cand a then evacOne e a else e)

/-- `forwarded_to`, applied in the way all updates do: `if let Some(new) = .. { *p = new }`. -/
def fwdAddr (fwd : Addr → Option Addr) (a : Addr) : Addr := (fwd a).getD a

/-- `BcValue::scan_and_update`, `update_native`: src/eval/bytecode/closure.rs:151-177,
193-197, 221-226. -/
def updVal (f : Addr → Addr) : Val → Val
  | .closure c e => .closure c (f e)
  | .str p => .str (f p)
  | .set p => .set (f p)
  | .ndArray p => .ndArray (f p)
  | .vec p => .vec (f p)
  | .scalar n => .scalar n

/-- Update the elements of a value array in place. -/
def updVals (f : Addr → Addr) (s : Store) (b : Addr) : Store :=
  match s b with
  | .vals vs => fun x => if x = b then .vals (vs.map (updVal f)) else s x
  | _ => s

def updValsOpt (f : Addr → Addr) (s : Store) : Option Addr → Store
  | none => s
  | some b => updVals f s b

def setObj (s : Store) (a : Addr) (o : Obj) : Store := fun x => if x = a then o else s x

/-- `scan_and_update` of the heap object at `a`: env.rs:674-697, string.rs:45-54; nothing for
opaque backings. -/
def updObj (f : Addr → Addr) (s : Store) (a : Addr) : Store :=
  match s a with
  | .frame b nx n => setObj (updValsOpt f s (b.map f)) a (.frame (b.map f) (nx.map f) n)
  | .str l d => setObj s a (.str l (d.map f))
  | _ => s

/-- `BcContinuation::scan_and_update`, src/eval/bytecode/cont.rs:277-345. -/
def updCont (f : Addr → Addr) (s : Store) : Cont → Store × Cont
  | .branch t e => (s, .branch (t.map f) (f e))
  | .branchPredecoded e => (s, .branchPredecoded (f e))
  | .update e i => (s, .update (f e) i)
  | .applyTo args => (updValsOpt f s (args.map f), .applyTo (args.map f))
  | .deMeta e => (s, .deMeta (f e))
  | .seqBind e => (s, .seqBind (f e))
  | .lookupLitForce c e => (s, .lookupLitForce c (f e))
  | .captureEnd => (s, .captureEnd)
  | .fusedLeft e => (s, .fusedLeft (f e))
  | .fusedRight l e => (s, .fusedRight (updVal f l) (f e))

def updConts (f : Addr → Addr) (s : Store) : List Cont → Store × List Cont
  | [] => (s, [])
  | c :: cs =>
    let r := updCont f s c
    let rs := updConts f r.1 cs
    (rs.1, r.2 :: rs.2)

def updStacks (f : Addr → Addr) (s : Store) : List (List Cont) → Store × List (List Cont)
  | [] => (s, [])
  | c :: cs =>
    let r := updConts f s c
    let rs := updStacks f r.1 cs
    (rs.1, r.2 :: rs.2)

/-- `update_const`, src/eval/bytecode/machine.rs:515-540. -/
def updConst (f : Addr → Addr) : Val → Val
  | .str p => .str (f p)
  | .set p => .set (f p)
  | .ndArray p => .ndArray (f p)
  | .vec p => .vec (f p)
  | v => v

/-- `BcMachineState::scan_and_update`, src/eval/bytecode/machine.rs:714-752. -/
def updRoots (f : Addr → Addr) (s : Store) (r : Roots) : Store × Roots :=
  let st := updConts f s r.stack
  let sus := updStacks f st.1 r.suspended
  (sus.1,
   { globals := f r.globals
     rootEnv := f r.rootEnv
     current := updVal f r.current
     stack := st.2
     constants := r.constants.map (updConst f)
     stash := r.stash.map (updVal f)
     suspended := sus.2
     bifFrames := r.bifFrames.map (fun b => (f b.1, b.2.map (updConst f)))
     strippedMeta := r.strippedMeta.map (updVal f) })

/-- The update phase, src/eval/memory/collect.rs:590-640: roots, then every queued heap
object, at its new place if it was forwarded. -/
def updatePhase (f : Addr → Addr) (s : Store) (r : Roots) (visited : List Addr) : Store × Roots :=
  let p := updRoots f s r
  (visited.foldl (fun s a => updObj f s (f a)) p.1, p.2)

/-- `collect_with_evacuation`, src/eval/memory/collect.rs:514-668, as far as the object graph
is concerned.  `next` is the first unused address. -/
def collectEvac (s : Store) (roots : Roots) (cand : Addr → Bool) (next : Addr) (fuel : Nat) :
    Option (Store × Roots × (Addr → Addr)) :=
  match markPhase s roots fuel with
  | none => none
  | some (_, visited) =>
    let e := evacAll cand visited ⟨s, fun _ => none, next⟩
    let f := fwdAddr e.fwd
    let p := updatePhase f e.store roots visited
    some (p.1, p.2, f)

end Verif.Gc
