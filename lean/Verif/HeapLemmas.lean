import Verif.HeapSpec
/-! Invariant of the heap, preserved by all events. -/

namespace Verif.Heap

/-- The line `l` shares a byte with the object. -/
def Touches (o : Obj) (l : Nat) : Prop := l * 128 < o.off + o.len ∧ o.off < (l + 1) * 128

/-- A block from which allocations are made. -/
structure Active (b : Block) (i : Nat) (live : List Obj) : Prop where
  le : b.lower ≤ b.cursor
  cap : b.cursor ≤ blockSize
  free : ∀ o ∈ live, o.region = .block i → o.off + o.len ≤ b.lower ∨ b.cursor ≤ o.off
  lines : ∀ o ∈ live, o.region = .block i → ∀ l, Touches o l → l < b.cursor / 128 → b.marks l = true

/-- A block with up to date line marks. -/
def Marked (b : Block) (i : Nat) (live : List Obj) : Prop :=
  ∀ o ∈ live, o.region = .block i → ∀ l, Touches o l → b.marks l = true

/-- An unmarked run of lines is free. -/
theorem hole_free {o : Obj} {a b : Nat} {marks : Nat → Bool} (hlen : 0 < o.len) (hab : a < b)
    (hm : ∀ l, a ≤ l → l < b → marks l = false)
    (ht : ∀ l, Touches o l → l < b → marks l = true) :
    o.off + o.len ≤ a * 128 ∨ b * 128 ≤ o.off := by
  by_cases h1 : o.off + o.len ≤ a * 128
  · exact .inl h1
  by_cases h2 : b * 128 ≤ o.off
  · exact .inr h2
  exfalso
  by_cases h3 : o.off / 128 < a
  · have := ht a ⟨by omega, by omega⟩ hab
    rw [hm a (Nat.le_refl _) hab] at this; simp at this
  · have h4 : o.off / 128 < b := by omega
    have := ht (o.off / 128) ⟨by omega, by omega⟩ h4
    rw [hm (o.off / 128) (by omega) h4] at this; simp at this

theorem Active.hole {b : Block} {i live lo hi} (hlen : ∀ o ∈ live, 0 < o.len) (hA : Active b i live)
    (h : findHole b.marks b.cursor = some (lo, hi)) :
    Active { b with lower := lo, cursor := hi } i live := by
  obtain ⟨a, c, rfl, rfl, hac, hc, hm⟩ := findHole_spec h
  have hcap := hA.cap
  simp only [lineSize] at *
  refine ⟨by simp only; omega, by simp only; omega, ?_, ?_⟩
  · intro o ho hr
    exact hole_free (hlen o ho) hac hm (fun l hl hlt => hA.lines o ho hr l hl (by omega))
  · intro o ho hr l hl hlt
    simp only at hlt
    exact hA.lines o ho hr l hl (by omega)

theorem Active.recycled {b b' : Block} {i live} (hlen : ∀ o ∈ live, 0 < o.len) (hM : Marked b i live)
    (h : recycle b = (b', true)) : Active b' i live ∧ b'.lower + 128 ≤ b'.cursor := by
  unfold recycle at h
  split at h
  · rename_i lo hi hh
    obtain ⟨a, c, rfl, rfl, hac, hc, hm⟩ := findHole_spec hh
    simp only [lineSize, blockSize] at *
    simp at h; subst h
    refine ⟨⟨by simp only; omega, by simp only [blockSize]; omega, ?_, ?_⟩, by simp only; omega⟩
    · intro o ho hr
      exact hole_free (hlen o ho) hac hm (fun l hl _ => hM o ho hr l hl)
    · intro o ho hr l hl _
      exact hM o ho hr l hl
  · simp at h

theorem bump_active (b : Block) (size : Nat) {i live} (hlen : ∀ o ∈ live, 0 < o.len)
    (hA : Active b i live) :
    Active (bump b size).1 i live ∧
    ∀ off, (bump b size).2 = some off →
      off + size ≤ blockSize ∧ (bump b size).1.cursor = off ∧
      ∀ o ∈ live, o.region = .block i → o.off + o.len ≤ off ∨ off + size ≤ o.off := by
  induction b using bump.induct (size := size) with
  | case1 b h => unfold bump; simp [h, hA]
  | case2 b h next hn lower cursor hf ih =>
    unfold bump
    rw [if_neg h]; simp only [next] at *
    rw [if_pos hn]
    have := ih (hA.hole hlen hf)
    split
    · rename_i heq; rw [hf] at heq; simp at heq; obtain ⟨rfl, rfl⟩ := heq; exact this
    · rename_i heq; rw [hf] at heq; simp at heq
  | case3 b h next hn hf =>
    unfold bump
    rw [if_neg h]; simp only [next] at *
    rw [if_pos hn]
    split
    · rename_i heq; rw [hf] at heq; simp at heq
    · simp [hA]
  | case4 b h next hn =>
    unfold bump
    rw [if_neg h]; simp only [next] at *
    rw [if_neg hn]
    have hle := hA.le
    have hcap := hA.cap
    refine ⟨⟨?_, ?_, ?_, ?_⟩, ?_⟩
    · simp only; omega
    · simp only; omega
    · intro o ho hr
      simp only
      have := hA.free o ho hr
      omega
    · intro o ho hr l hl hlt
      simp only at hlt
      exact hA.lines o ho hr l hl (by omega)
    · intro off ho
      simp at ho; subst ho
      refine ⟨by omega, by simp, ?_⟩
      intro o ho hr
      have := hA.free o ho hr
      omega

theorem Active.alloc {b : Block} {i live off len} (hA : Active b i live) (hc : b.cursor = off) :
    Active b i (⟨.block i, off, len⟩ :: live) := by
  refine ⟨hA.le, hA.cap, ?_, ?_⟩
  · intro o ho hr
    rcases List.mem_cons.1 ho with rfl | ho
    · exact .inr (by simp [hc])
    · exact hA.free o ho hr
  · intro o ho hr l hl hlt
    rcases List.mem_cons.1 ho with rfl | ho
    · obtain ⟨_, h2⟩ := hl
      simp only at h2; omega
    · exact hA.lines o ho hr l hl hlt

theorem Active.other {b : Block} {i live} {o : Obj} (hA : Active b i live) (ho : o.region ≠ .block i) :
    Active b i (o :: live) := by
  refine ⟨hA.le, hA.cap, ?_, ?_⟩
  · intro o' ho' hr
    rcases List.mem_cons.1 ho' with rfl | ho'
    · exact absurd hr ho
    · exact hA.free o' ho' hr
  · intro o' ho' hr
    rcases List.mem_cons.1 ho' with rfl | ho'
    · exact absurd hr ho
    · exact hA.lines o' ho' hr

/-- All blocks in the lists of the heap. -/
def ids (h : Heap) : List Nat :=
  h.head.toList ++ h.overflow.toList ++ h.recycled ++ h.rest ++ h.unswept ++ h.target.toList ++ h.filled

def ObjOk (h : Heap) (o : Obj) : Prop :=
  0 < o.len ∧
  match o.region with
  | .block i => i < h.next ∧ o.off + o.len ≤ blockSize
  | .lob i => i < h.lobs

/-- Blocks used for allocation. -/
def activeIds (h : Heap) : List Nat := h.head.toList ++ h.overflow.toList ++ h.recycled

structure Inv (h : Heap) (live : List Obj) : Prop where
  nd : ∀ i, (ids h).count i ≤ 1
  lt : ∀ i ∈ ids h, i < h.next
  objs : ∀ o ∈ live, ObjOk h o
  pw : live.Pairwise (fun a b => ¬ Overlap a b)
  active : ∀ i ∈ activeIds h, Active (h.blk i) i live
  unsw : ∀ i ∈ h.unswept, Marked (h.blk i) i live
  recy : ∀ i ∈ h.recycled, (h.blk i).lower + 128 ≤ (h.blk i).cursor

theorem Inv.len {h live} (hI : Inv h live) : ∀ o ∈ live, 0 < o.len := fun o ho => (hI.objs o ho).1

/-- No object lives in a block that has not been created. -/
theorem Inv.fresh {h live} (hI : Inv h live) : ∀ o ∈ live, o.region ≠ .block h.next := by
  intro o ho hr
  have := (hI.objs o ho).2
  rw [hr] at this
  simp at this

theorem fresh_active (i : Nat) (live : List Obj) (h : ∀ o ∈ live, o.region ≠ .block i) :
    Active .fresh i live :=
  ⟨by simp [Block.fresh], by simp [Block.fresh], fun o ho hr => absurd hr (h o ho),
   fun o ho hr => absurd hr (h o ho)⟩

theorem setBlk_self (h : Heap) (i b) : (h.setBlk i b).blk i = b := by simp [Heap.setBlk]
theorem setBlk_ne (h : Heap) (i j b) (hij : j ≠ i) : (h.setBlk i b).blk j = h.blk j := by
  simp [Heap.setBlk, hij]

theorem mem_opt (o : Option Nat) (i : Nat) : i ∈ o.toList ↔ o = some i := by
  cases o <;> simp [eq_comm]

/-- Changing the contents of one block, and nothing else. -/
theorem Inv.setBlk {h live} (hI : Inv h live) (i : Nat) (b : Block)
    (ha : i ∈ activeIds h → Active b i live) (hu : i ∈ h.unswept → Marked b i live)
    (hr : i ∈ h.recycled → b.lower + 128 ≤ b.cursor) : Inv (h.setBlk i b) live := by
  refine ⟨hI.nd, hI.lt, hI.objs, hI.pw, ?_, ?_, ?_⟩
  · intro j hj
    by_cases hji : j = i
    · subst hji; rw [setBlk_self]; exact ha hj
    · rw [setBlk_ne _ _ _ _ hji]; exact hI.active j hj
  · intro j hj
    by_cases hji : j = i
    · subst hji; rw [setBlk_self]; exact hu hj
    · rw [setBlk_ne _ _ _ _ hji]; exact hI.unsw j hj
  · intro j hj
    by_cases hji : j = i
    · subst hji; rw [setBlk_self]; exact hr hj
    · rw [setBlk_ne _ _ _ _ hji]; exact hI.recy j hj

theorem notin_of_count {l : List Nat} {i : Nat} (h : l.count i = 0) : i ∉ l :=
  List.count_eq_zero.1 h

theorem count_pos_of_mem {l : List Nat} {i : Nat} (h : i ∈ l) : 0 < l.count i :=
  List.count_pos_iff.2 h

end Verif.Heap
