import Verif.HeapGc
/-!
# C11 Live allocations never overlap; C12 allocation always finds space

Property theorems about histories of the heap (`HeapSpec`).
-/

namespace Verif.Heap

theorem findSpace_eq {h live} (hI : Inv h live) (size pick : Nat) :
    findSpace h size pick = tryAllocate h size pick := by
  unfold findSpace
  obtain ⟨s, hs⟩ := tryAllocate_succeeds hI size pick
  cases ht : tryAllocate h size pick with | mk g r
  rw [ht] at hs
  simp only at hs; subst hs; rfl

theorem lists_ensureHead (h : Heap) : (ensureHead h).1.target = h.target ∧ (ensureHead h).1.filled = h.filled := by
  unfold ensureHead; split <;> simp [Heap.newBlock, Heap.setBlk]

theorem lists_ensureOverflow (h : Heap) :
    (ensureOverflow h).1.target = h.target ∧ (ensureOverflow h).1.filled = h.filled := by
  unfold ensureOverflow; split <;> simp [Heap.newBlock, Heap.setBlk]

theorem lists_lazySweep : ∀ us h, (lazySweepNext us h).target = h.target ∧ (lazySweepNext us h).filled = h.filled := by
  intro us
  induction us with
  | nil => intro h; simp [lazySweepNext]
  | cons i us ih =>
    intro h
    unfold lazySweepNext
    cases recycle (h.blk i) with | mk b ok
    dsimp only
    split
    · simp [Heap.setBlk]
    · rw [(ih _).1, (ih _).2]; simp [Heap.setBlk]

theorem lists_replaceHead (h : Heap) (pick : Nat) :
    (replaceHead h pick).1.target = h.target ∧ (replaceHead h pick).1.filled = h.filled := by
  unfold replaceHead
  have h1 : (if h.recycled.isEmpty then lazySweepNext h.unswept h else h).target = h.target ∧
      (if h.recycled.isEmpty then lazySweepNext h.unswept h else h).filled = h.filled := by
    split
    · exact lists_lazySweep _ _
    · simp
  generalize (if h.recycled.isEmpty then lazySweepNext h.unswept h else h) = k at h1
  dsimp only
  split <;> simp [Heap.newBlock, Heap.setBlk, h1]

theorem lists_bumpIn (h : Heap) (i size : Nat) :
    (bumpIn h i size).1.target = h.target ∧ (bumpIn h i size).1.filled = h.filled := by
  unfold bumpIn; simp [Heap.setBlk]

theorem lists_tryAllocate (h : Heap) (size pick : Nat) :
    (tryAllocate h size pick).1.target = h.target ∧ (tryAllocate h size pick).1.filled = h.filled := by
  unfold tryAllocate
  have h1 := lists_ensureHead h
  cases he : ensureHead h with | mk g hd
  rw [he] at h1
  dsimp only at h1 ⊢
  split
  · exact h1
  · split
    · have h2 := lists_ensureOverflow g
      cases ho : ensureOverflow g with | mk k ov
      rw [ho] at h2
      dsimp only at h2 ⊢
      have h3 := lists_bumpIn k ov size
      split
      · rename_i heq; rw [heq] at h3; simp_all
      · rename_i k' heq
        rw [heq] at h3
        have h4 := lists_bumpIn (replaceOverflow k').1 (replaceOverflow k').2 size
        simp only [replaceOverflow, Heap.newBlock, Heap.setBlk] at h4 ⊢
        simp_all
    · have h3 := lists_bumpIn g hd size
      split
      · rename_i heq; rw [heq] at h3; simp_all
      · rename_i k' heq
        rw [heq] at h3
        have h4 := lists_bumpIn (replaceHead k' pick).1 (replaceHead k' pick).2 size
        have h5 := lists_replaceHead k' pick
        simp_all

/-- The invariant holds in every reachable world. -/
theorem reachable_inv {w : World} (hr : Reachable w) :
    Inv w.heap w.live ∧ w.heap.target = none ∧ w.heap.filled = [] := by
  induction hr with
  | start =>
    refine ⟨⟨?_, ?_, ?_, ?_, ?_, ?_, ?_⟩, rfl, rfl⟩ <;> simp [Heap.empty, ids, activeIds]
  | step w w' _ hs ih =>
    obtain ⟨hI, ht, hf⟩ := ih
    have hal : ∀ payload pick, ¬ payload > 4294967295 →
        Inv (alloc w.heap payload pick).1 w.live ∧
        (∀ o, (alloc w.heap payload pick).2 = some o → Inv (alloc w.heap payload pick).1 (o :: w.live)) ∧
        (alloc w.heap payload pick).1.target = none ∧ (alloc w.heap payload pick).1.filled = [] := by
      intro payload pick hp
      unfold alloc
      rw [if_neg hp, findSpace_eq hI]
      have h1 := tryAllocate_inv hI (allocSizeOf (headerSize + payload)) pick
      have h2 := lists_tryAllocate w.heap (allocSizeOf (headerSize + payload)) pick
      rw [ht, hf] at h2
      cases htr : tryAllocate w.heap (allocSizeOf (headerSize + payload)) pick with | mk g r
      rw [htr] at h1 h2
      cases r with
      | none => exact ⟨h1.1, by simp, h2⟩
      | some s =>
        refine ⟨h1.1, ?_, h2⟩
        intro o ho
        simp at ho; subst ho
        exact h1.2 s _ rfl (by simp [headerSize]; omega) (allocSizeOf_ge _)
    cases hs with
    | alloc payload pick h' o he =>
      have hp : ¬ payload > 4294967295 := by
        intro hp; unfold alloc at he; rw [if_pos hp] at he; simp at he
      have := hal payload pick hp
      rw [he] at this
      exact ⟨this.2.1 o rfl, this.2.2⟩
    | allocFail payload pick h' he =>
      by_cases hp : payload > 4294967295
      · unfold alloc at he; rw [if_pos hp] at he; simp at he; subst he
        exact ⟨hI, ht, hf⟩
      · have := hal payload pick hp
        rw [he] at this
        exact ⟨this.1, this.2.2⟩
    | collect visited h' objs hv hnd he =>
      have := collect_inv hI ht hf visited hv hnd
      rw [he] at this
      exact ⟨this.1, this.2.1, this.2.2.1⟩

/-! ## C11 -/

/-- C11. In every history of allocations and collections (evacuating or not), no two live
objects share a byte. -/
theorem live_never_overlap {w : World} (hr : Reachable w) :
    w.live.Pairwise (fun a b => ¬ Overlap a b) :=
  (reachable_inv hr).1.pw

/-- C11. Every live object outside the large object space lies inside its block. -/
theorem live_in_bounds {w : World} (hr : Reachable w) (o : Obj) (ho : o ∈ w.live) (i : Nat)
    (hb : o.region = .block i) : o.off + o.len ≤ 32768 := by
  have := ((reachable_inv hr).1.objs o ho).2
  rw [hb] at this
  exact this.2

/-- C11. While a collection is copying, it does not write over any object, dead or alive, that
the heap held when the collection started: every survivor is either where it was, or in space
that held no object. -/
theorem copies_write_over_nothing {w : World} (hr : Reachable w) (visited : List (Obj × Bool))
    (hv : ∀ p ∈ visited, p.1 ∈ w.live) (hnd : (visited.map Prod.fst).Nodup) :
    ∀ c ∈ (collect w.heap visited).2, c ∈ w.live ∨ ∀ o ∈ w.live, ¬ Overlap c o := by
  obtain ⟨hI, ht, hf⟩ := reachable_inv hr
  intro c hc
  rcases (collect_inv hI ht hf visited hv hnd).2.2.2 c hc with h1 | ⟨i, h1, h2⟩
  · exact .inl h1
  · right
    intro o ho hov
    have := (hI.objs o ho).2
    rw [← hov.1, h1] at this
    simp at this; omega

/-- C11. A collection neither loses, duplicates nor resizes the objects it visits, and those it
does not evacuate stay in place. -/
theorem collect_keeps (h : Heap) (visited : List (Obj × Bool)) :
    (collect h visited).2.map (·.len) = visited.map (·.1.len) ∧
    ∀ (k : Nat) (o : Obj), visited[k]? = some (o, false) → (collect h visited).2[k]? = some o := by
  have vis : ∀ h (o : Obj) e, (visit h o e).2.len = o.len ∧ (e = false → (visit h o e).2 = o) := by
    intro h o e
    unfold visit
    dsimp only
    split
    · refine ⟨?_, by simp⟩
      unfold evacuate
      split <;> rfl
    · exact ⟨rfl, fun _ => rfl⟩
  have all : ∀ visited h, (visitAll visited h).2.map (·.len) = visited.map (·.1.len) ∧
      ∀ (k : Nat) (o : Obj), visited[k]? = some (o, false) → (visitAll visited h).2[k]? = some o := by
    intro visited
    induction visited with
    | nil => intro h; simp [visitAll]
    | cons p ps ih =>
      obtain ⟨o, e⟩ := p
      intro h
      unfold visitAll
      dsimp only
      obtain ⟨i1, i2⟩ := ih (visit h o e).1
      refine ⟨by simp [(vis h o e).1, i1], ?_⟩
      intro k o' hk
      cases k with
      | zero =>
        simp at hk ⊢
        rw [(vis h o e).2 hk.2]; exact hk.1
      | succ k => simpa using i2 k o' (by simpa using hk)
  exact all visited (resetMarks h)

theorem Reachable.doAlloc {h live} (hr : Reachable ⟨h, live⟩) (payload pick : Nat) (o : Obj)
    (he : (alloc h payload pick).2 = some o) : Reachable ⟨(alloc h payload pick).1, o :: live⟩ :=
  .step _ _ hr (.alloc ⟨h, live⟩ payload pick _ o (Prod.ext rfl he))

theorem Reachable.doCollect {h live} (hr : Reachable ⟨h, live⟩) (visited : List (Obj × Bool)) (objs : List Obj)
    (hv : ∀ p ∈ visited, p.1 ∈ live) (hnd : (visited.map Prod.fst).Nodup)
    (he : (collect h visited).2 = objs) : Reachable ⟨(collect h visited).1, objs⟩ :=
  .step _ _ hr (.collect ⟨h, live⟩ visited _ objs hv hnd (Prod.ext rfl he))

/-! A history in which space is reused and objects are moved: three objects, a collection
dropping the second and evacuating the third, then one object filling the first block, and one
that goes to the block of the dropped object. -/

def exHeap1 : Heap := (alloc .empty 20000 0).1
def exHeap2 : Heap := (alloc exHeap1 20000 0).1
def exHeap3 : Heap := (alloc exHeap2 20000 0).1
def exVisit : List (Obj × Bool) := [(⟨.block 0, 12752, 20016⟩, false), (⟨.block 2, 12752, 20016⟩, true)]
def exHeap4 : Heap := (collect exHeap3 exVisit).1
def exHeap5 : Heap := (alloc exHeap4 12720 0).1

def exampleWorld : World :=
  ⟨(alloc exHeap5 40 0).1,
   [⟨.block 1, 32576, 56⟩, ⟨.block 0, 16, 12736⟩, ⟨.block 0, 12752, 20016⟩, ⟨.block 3, 12752, 20016⟩]⟩

theorem exampleWorld_reachable : Reachable exampleWorld := by
  have r1 : Reachable ⟨exHeap1, _⟩ :=
    Reachable.start.doAlloc 20000 0 ⟨.block 0, 12752, 20016⟩ (by decide +kernel)
  have r2 : Reachable ⟨exHeap2, _⟩ := r1.doAlloc 20000 0 ⟨.block 1, 12752, 20016⟩ (by decide +kernel)
  have r3 : Reachable ⟨exHeap3, _⟩ := r2.doAlloc 20000 0 ⟨.block 2, 12752, 20016⟩ (by decide +kernel)
  have r4 : Reachable ⟨exHeap4, _⟩ :=
    r3.doCollect exVisit [⟨.block 0, 12752, 20016⟩, ⟨.block 3, 12752, 20016⟩]
      (by simp [exVisit]) (by decide) (by decide +kernel)
  have r5 : Reachable ⟨exHeap5, _⟩ := r4.doAlloc 12720 0 ⟨.block 0, 16, 12736⟩ (by decide +kernel)
  exact r5.doAlloc 40 0 ⟨.block 1, 32576, 56⟩ (by decide +kernel)

example : exampleWorld.live.Pairwise (fun a b => ¬ Overlap a b) := live_never_overlap exampleWorld_reachable

/-! ## C12 -/

/-- C12. In every reachable heap an allocation of any size the header can record yields an
object of that size (provided the operating system supplies blocks). -/
theorem alloc_succeeds {w : World} (hr : Reachable w) (payload pick : Nat) (hp : payload < 4294967296) :
    ∃ h' o, alloc w.heap payload pick = (h', some o) ∧ o.len = 16 + payload := by
  obtain ⟨hI, _, _⟩ := reachable_inv hr
  unfold alloc
  rw [if_neg (by omega), findSpace_eq hI]
  obtain ⟨s, hs⟩ := tryAllocate_succeeds hI (allocSizeOf (headerSize + payload)) pick
  cases ht : tryAllocate w.heap (allocSizeOf (headerSize + payload)) pick with | mk g r
  rw [ht] at hs
  simp only at hs; subst hs
  exact ⟨g, _, rfl, rfl⟩

/-- C12. The emergency collection in `find_space` is never needed. -/
theorem emergency_never_reached {w : World} (hr : Reachable w) (size pick : Nat) :
    (tryAllocate w.heap size pick).2 ≠ none := by
  obtain ⟨s, hs⟩ := tryAllocate_succeeds (reachable_inv hr).1 size pick
  simp [hs]

example : ∃ h' o, alloc exampleWorld.heap 100 7 = (h', some o) ∧ o.len = 16 + 100 :=
  alloc_succeeds exampleWorld_reachable 100 7 (by decide)

def emHeap1 : Heap := (alloc .empty 32720 0).1
def emHeap2 : Heap := (alloc emHeap1 32720 0).1
def emHeap3 : Heap := (alloc emHeap2 32720 0).1

/-- Why that matters: the emergency collection sweeps without marking, and would hand out space
occupied by a live object. -/
theorem emergency_sweep_unsafe :
    ∃ w, Reachable w ∧ ∃ h' o, alloc (sweep w.heap) 32 0 = (h', some o) ∧ ∃ l ∈ w.live, Overlap o l := by
  have r1 : Reachable ⟨emHeap1, _⟩ := Reachable.start.doAlloc 32720 0 ⟨.block 0, 32, 32736⟩ (by decide +kernel)
  have r2 : Reachable ⟨emHeap2, _⟩ := r1.doAlloc 32720 0 ⟨.block 1, 32, 32736⟩ (by decide +kernel)
  have r3 : Reachable ⟨emHeap3, _⟩ := r2.doAlloc 32720 0 ⟨.block 2, 32, 32736⟩ (by decide +kernel)
  have e4 : (alloc (sweep emHeap3) 32 0).2 = some ⟨.block 1, 32592, 48⟩ := by decide +kernel
  exact ⟨_, r3, _, _, Prod.ext rfl e4, ⟨.block 1, 32, 32736⟩, by simp, by decide⟩

end Verif.Heap
