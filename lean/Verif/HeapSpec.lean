import Verif.HeapModel
/-!
# What a user of the heap relies on

A history of the heap is a sequence of allocations and collections.  Beside the heap we keep
the list of the objects that are live: those allocated and not dropped by a collection.
-/

namespace Verif.Heap

/-- Two objects share a byte. -/
def Overlap (a b : Obj) : Prop :=
  a.region = b.region ∧ a.off < b.off + b.len ∧ b.off < a.off + a.len

instance (a b : Obj) : Decidable (Overlap a b) := by unfold Overlap; infer_instance

/-- A heap and the objects living in it. -/
structure World where
  heap : Heap
  live : List Obj

/-- One event of a history.  A collection visits any duplicate-free selection of the live
objects in any order, and evacuates any of them. -/
inductive Step : World → World → Prop where
  | alloc (w : World) (payload pick : Nat) (h' : Heap) (o : Obj) :
      alloc w.heap payload pick = (h', some o) → Step w ⟨h', o :: w.live⟩
  | allocFail (w : World) (payload pick : Nat) (h' : Heap) :
      alloc w.heap payload pick = (h', none) → Step w ⟨h', w.live⟩
  | collect (w : World) (visited : List (Obj × Bool)) (h' : Heap) (objs : List Obj) :
      (∀ p ∈ visited, p.1 ∈ w.live) → (visited.map Prod.fst).Nodup →
      collect w.heap visited = (h', objs) → Step w ⟨h', objs⟩

/-- The worlds that histories lead to. -/
inductive Reachable : World → Prop where
  | start : Reachable ⟨.empty, []⟩
  | step (w w' : World) : Reachable w → Step w w' → Reachable w'

end Verif.Heap
