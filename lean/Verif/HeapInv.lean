import Verif.HeapLemmas
/-! The invariant is preserved by allocation and collection. -/

namespace Verif.Heap

theorem Inv.relist {h h' : Heap} {live} (hI : Inv h live) (hb : h'.blk = h.blk) (hn : h'.next = h.next)
    (hl : h'.lobs = h.lobs) (nd : ∀ i, (ids h').count i ≤ 1) (lt : ∀ i ∈ ids h', i < h.next)
    (ha : ∀ i ∈ activeIds h', i ∈ activeIds h ∨ Active (h.blk i) i live)
    (hu : ∀ i ∈ h'.unswept, i ∈ h.unswept)
    (hr : ∀ i ∈ h'.recycled, i ∈ h.recycled ∨ (h.blk i).lower + 128 ≤ (h.blk i).cursor) :
    Inv h' live := by
  refine ⟨nd, by rw [hn]; exact lt, ?_, hI.pw, ?_, ?_, ?_⟩
  · intro o ho
    have := hI.objs o ho
    unfold ObjOk at this ⊢
    rw [hn, hl]; exact this
  · intro i hi; rw [hb]
    rcases ha i hi with h1 | h1
    · exact hI.active i h1
    · exact h1
  · intro i hi; rw [hb]; exact hI.unsw i (hu i hi)
  · intro i hi; rw [hb]
    rcases hr i hi with h1 | h1
    · exact hI.recy i h1
    · exact h1

theorem next_notin {h : Heap} (lt : ∀ i ∈ ids h, i < h.next) : (ids h).count h.next = 0 := by
  apply List.count_eq_zero.2
  intro hm; have := lt _ hm; omega

theorem newBlock_inv {h live} (hI : Inv h live) : Inv h.newBlock.1 live := by
  have hn := notin_of_count (next_notin hI.lt)
  have hn' : ∀ i ∈ ids h, i ≠ h.next := fun i hi he => hn (he ▸ hi)
  have hblk : ∀ i, i ≠ h.next → h.newBlock.1.blk i = h.blk i := by
    intro i hi; simp [Heap.newBlock, Heap.setBlk, hi]
  refine ⟨hI.nd, ?_, ?_, hI.pw, ?_, ?_, ?_⟩
  · intro i hi; have := hI.lt i hi; simp [Heap.newBlock]; omega
  · intro o ho
    have := hI.objs o ho
    unfold ObjOk at this ⊢
    refine ⟨this.1, ?_⟩
    cases hr : o.region <;> rw [hr] at this <;> simp [Heap.newBlock, Heap.setBlk] at this ⊢ <;> omega
  · intro i hi
    rw [hblk i (hn' i (by simp [ids, activeIds, Heap.newBlock, Heap.setBlk] at hi ⊢; grind))]
    exact hI.active i hi
  · intro i hi
    rw [hblk i (hn' i (by simp [ids, Heap.newBlock, Heap.setBlk] at hi ⊢; grind))]
    exact hI.unsw i hi
  · intro i hi
    rw [hblk i (hn' i (by simp [ids, Heap.newBlock, Heap.setBlk] at hi ⊢; grind))]
    exact hI.recy i hi

structure NewFacts (h g : Heap) (i : Nat) (live : List Obj) : Prop where
  inv : Inv g live
  act : Active (g.blk i) i live
  notin : (ids g).count i = 0
  lt : i < g.next
  head : g.head = h.head
  overflow : g.overflow = h.overflow
  recycled : g.recycled = h.recycled
  rest : g.rest = h.rest
  unswept : g.unswept = h.unswept
  target : g.target = h.target
  filled : g.filled = h.filled
  isnew : g.blk i = .fresh

theorem newBlock_facts {h g i live} (hI : Inv h live) (hg : h.newBlock = (g, i)) : NewFacts h g i live := by
  have hg1 : g = h.newBlock.1 := by rw [hg]
  have hi1 : i = h.next := by have : i = h.newBlock.2 := by rw [hg]
                              exact this
  subst hg1 hi1
  refine ⟨newBlock_inv hI, ?_, next_notin hI.lt, by simp [Heap.newBlock], rfl, rfl, rfl, rfl, rfl, rfl, rfl,
    by simp [Heap.newBlock, Heap.setBlk]⟩
  have : h.newBlock.1.blk h.next = .fresh := by simp [Heap.newBlock, Heap.setBlk]
  rw [this]
  exact fresh_active _ _ hI.fresh

theorem count_opt_le (o : Option Nat) (i : Nat) : o.toList.count i ≤ 1 := by
  cases o with
  | none => simp
  | some a => simp [List.count_cons]; split <;> simp

theorem ensureHead_inv {h live} (hI : Inv h live) :
    Inv (ensureHead h).1 live ∧ (ensureHead h).1.head = some (ensureHead h).2 := by
  unfold ensureHead
  split
  · rename_i i hi; exact ⟨hI, hi⟩
  · rename_i hnone
    cases hnb : h.newBlock with | mk g i
    have F := newBlock_facts hI hnb
    refine ⟨F.inv.relist rfl rfl rfl ?_ ?_ ?_ (fun _ h => h) (fun _ h => .inl h), rfl⟩
    · intro j
      have := F.inv.nd j
      have h3 := F.notin
      have hh := F.head
      rw [hnone] at hh
      simp only [ids, hh, Option.toList, List.count_append, List.count_cons, List.count_nil] at this h3 ⊢
      by_cases hj : j = i
      · subst hj; simp; omega
      · simp [Ne.symm hj]; omega
    · intro j hj
      have := F.inv.lt j
      have := F.lt
      simp only [ids, List.mem_append, mem_opt] at *
      grind
    · intro j hj
      have := F.act
      simp only [activeIds, List.mem_append, mem_opt] at *
      grind

theorem ensureOverflow_inv {h live} (hI : Inv h live) :
    Inv (ensureOverflow h).1 live ∧ (ensureOverflow h).1.overflow = some (ensureOverflow h).2 ∧
      (ensureOverflow h).1.head = h.head := by
  unfold ensureOverflow
  split
  · rename_i i hi; exact ⟨hI, hi, rfl⟩
  · rename_i hnone
    cases hnb : h.newBlock with | mk g i
    have F := newBlock_facts hI hnb
    refine ⟨F.inv.relist rfl rfl rfl ?_ ?_ ?_ (fun _ h => h) (fun _ h => .inl h), rfl, F.head⟩
    · intro j
      have := F.inv.nd j
      have h3 := F.notin
      have hh := F.overflow
      rw [hnone] at hh
      simp only [ids, hh, Option.toList, List.count_append, List.count_cons, List.count_nil] at this h3 ⊢
      by_cases hj : j = i
      · subst hj; simp; omega
      · simp [Ne.symm hj]; omega
    · intro j hj
      have := F.inv.lt j
      have := F.lt
      simp only [ids, List.mem_append, mem_opt] at *
      grind
    · intro j hj
      have := F.act
      simp only [activeIds, List.mem_append, mem_opt] at *
      grind

theorem replaceOverflow_inv {h live} (hI : Inv h live) :
    Inv (replaceOverflow h).1 live ∧ (replaceOverflow h).1.overflow = some (replaceOverflow h).2 ∧
      (replaceOverflow h).1.blk (replaceOverflow h).2 = .fresh := by
  unfold replaceOverflow
  cases hnb : h.newBlock with | mk g i
  have F := newBlock_facts hI hnb
  refine ⟨F.inv.relist rfl rfl rfl ?_ ?_ ?_ (fun _ h => h) (fun _ h => .inl h), rfl, F.isnew⟩
  · intro j
    have := F.inv.nd j
    have h3 := F.notin
    simp only [ids, Option.toList_some, List.count_append, List.count_cons, List.count_nil] at this h3 ⊢
    by_cases hj : j = i
    · subst hj; simp; omega
    · simp [Ne.symm hj]; omega
  · intro j hj
    have := F.inv.lt j
    have := F.lt
    simp only [ids, List.mem_append, mem_opt] at *
    grind
  · intro j hj
    have := F.act
    simp only [activeIds, List.mem_append, mem_opt] at *
    grind

theorem lazySweepNext_inv : ∀ (us : List Nat) (h : Heap) {live}, h.unswept = us → Inv h live →
    Inv (lazySweepNext us h) live ∧ (lazySweepNext us h).head = h.head ∧
      (lazySweepNext us h).overflow = h.overflow := by
  intro us
  induction us with
  | nil =>
    intro h live hu hI
    unfold lazySweepNext
    refine ⟨hI.relist rfl rfl rfl ?_ ?_ (fun _ h => .inl h) (by simp) (fun _ h => .inl h), rfl, rfl⟩
    · intro j; have := hI.nd j; simp [ids, hu] at this ⊢; omega
    · intro j hj; apply hI.lt j; simp [ids, hu] at hj ⊢; grind
  | cons i us ih =>
    intro h live hu hI
    unfold lazySweepNext
    cases hr : recycle (h.blk i) with | mk b ok
    have hM : Marked (h.blk i) i live := hI.unsw i (by simp [hu])
    have hcnt := hI.nd i
    simp only [ids, hu, List.count_append, List.count_cons_self] at hcnt
    have hna : i ∉ activeIds h := by
      apply notin_of_count; simp only [activeIds, List.count_append]; omega
    have hnu : i ∉ us := by apply notin_of_count; omega
    have hnr : i ∉ h.recycled := by apply notin_of_count; omega
    dsimp only
    -- drop `i` from the queue
    have hJ : Inv { h with unswept := us, rest := h.rest ++ [i] } live := by
      refine hI.relist rfl rfl rfl ?_ ?_ (fun _ h => .inl h) ?_ (fun _ h => .inl h)
      · intro j; have := hI.nd j
        simp [ids, hu, List.count_cons] at this ⊢; omega
      · intro j hj; apply hI.lt j; simp [ids, hu] at hj ⊢; grind
      · intro j hj; rw [hu]; exact List.mem_cons_of_mem _ hj
    have hK := hJ.setBlk i b (fun h => absurd h hna) (fun h => absurd h hnu) (fun h => absurd h hnr)
    split
    · rename_i hok
      subst hok
      have hA := Active.recycled hI.len hM hr
      refine ⟨hK.relist rfl rfl rfl ?_ ?_ ?_ (fun _ h => h) ?_, rfl, rfl⟩
      · intro j; have := hI.nd j
        simp [ids, hu, Heap.setBlk, List.count_cons] at this ⊢; omega
      · intro j hj
        apply hK.lt j; simp [ids, Heap.setBlk] at hj ⊢; grind
      · intro j hj
        simp only [activeIds, List.mem_append, mem_opt, Heap.setBlk, List.mem_singleton] at hj ⊢
        by_cases hji : j = i
        · subst hji; right; simp [hA.1]
        · left; grind
      · intro j hj
        simp only [List.mem_append, List.mem_singleton] at hj
        by_cases hji : j = i
        · subst hji; right; simp [Heap.setBlk, hA.2]
        · left; simp only [Heap.setBlk] at hj ⊢; grind
    · exact ih _ rfl hK

theorem eraseIdx_count (l : List Nat) (k i : Nat) (h : l[k]? = some i) (j : Nat) :
    l.count j = (l.eraseIdx k).count j + (if i = j then 1 else 0) := by
  induction l generalizing k with
  | nil => simp at h
  | cons a l ih =>
    cases k with
    | zero => simp at h; subst h; simp [List.count_cons]
    | succ k =>
      simp at h
      have := ih k h
      simp only [List.eraseIdx_cons_succ, List.count_cons]
      omega

/-- The new head block: one of the recycled ones, or a new one. -/
theorem replaceHead_inv {h live} (hI : Inv h live) (pick : Nat) :
    Inv (replaceHead h pick).1 live ∧ (replaceHead h pick).1.head = some (replaceHead h pick).2 ∧
      ((replaceHead h pick).1.blk (replaceHead h pick).2).lower + 128 ≤
      ((replaceHead h pick).1.blk (replaceHead h pick).2).cursor := by
  unfold replaceHead
  have h1 : Inv (if h.recycled.isEmpty then lazySweepNext h.unswept h else h) live := by
    split
    · exact (lazySweepNext_inv h.unswept h rfl hI).1
    · exact hI
  generalize (if h.recycled.isEmpty then lazySweepNext h.unswept h else h) = k at h1
  dsimp only
  split
  · rename_i hnone
    cases hnb : k.newBlock with | mk g i
    have F := newBlock_facts h1 hnb
    dsimp only
    refine ⟨F.inv.relist rfl rfl rfl ?_ ?_ ?_ (fun _ h => h) (fun _ h => .inl h), rfl, by simp [F.isnew, Block.fresh, blockSize]⟩
    · intro j
      have := F.inv.nd j
      have h3 := F.notin
      simp only [ids, Option.toList_some, List.count_append, List.count_cons, List.count_nil] at this h3 ⊢
      by_cases hj : j = i
      · subst hj; simp; omega
      · simp [Ne.symm hj]; omega
    · intro j hj
      have := F.inv.lt j
      have := F.lt
      simp only [ids, List.mem_append, mem_opt] at *
      grind
    · intro j hj
      have := F.act
      simp only [activeIds, List.mem_append, mem_opt] at *
      grind
  · rename_i r hr
    dsimp only
    have hmem : r ∈ k.recycled := List.mem_of_getElem? hr
    refine ⟨h1.relist rfl rfl rfl ?_ ?_ ?_ (fun _ h => h) ?_, rfl, h1.recy r hmem⟩
    · intro j
      have := h1.nd j
      have hc := eraseIdx_count _ _ _ hr j
      simp only [ids, Option.toList_some, List.count_append, List.count_cons, List.count_nil] at this ⊢
      by_cases hj : r = j
      · subst hj; simp at hc ⊢; omega
      · simp [hj] at hc ⊢; omega
    · intro j hj
      have := h1.lt j
      have he := fun h => List.mem_of_mem_eraseIdx (l := k.recycled) (i := pick % k.recycled.length) (a := j) h
      simp only [ids, List.mem_append, mem_opt] at *
      grind
    · intro j hj
      have he := fun h => List.mem_of_mem_eraseIdx (l := k.recycled) (i := pick % k.recycled.length) (a := j) h
      simp only [activeIds, List.mem_append, mem_opt] at *
      grind
    · intro j hj
      exact .inl (List.mem_of_mem_eraseIdx hj)

theorem bumpIn_inv {h live} (hI : Inv h live) {i size : Nat}
    (hi : h.head = some i ∨ h.overflow = some i) :
    Inv (bumpIn h i size).1 live ∧
    ∀ s len, (bumpIn h i size).2 = some s → 0 < len → len ≤ size →
      Inv (bumpIn h i size).1 (⟨s.region, s.off, len⟩ :: live) := by
  have hcnt := hI.nd i
  have hho : (h.head.toList ++ h.overflow.toList).count i ≥ 1 := by
    apply List.count_pos_iff.2; simp; exact hi
  simp only [ids, List.count_append] at hcnt hho
  have hnr : i ∉ h.recycled := by apply notin_of_count; omega
  have hnu : i ∉ h.unswept := by apply notin_of_count; omega
  have hact : i ∈ activeIds h := by simp [activeIds]; grind
  have hA := hI.active i hact
  have hB := bump_active (h.blk i) size hI.len hA
  unfold bumpIn
  cases hb : bump (h.blk i) size with | mk b r
  rw [hb] at hB
  obtain ⟨hB1, hB2⟩ := hB
  dsimp only at hB1 hB2 ⊢
  have hJ := hI.setBlk i b (fun _ => hB1) (fun h => absurd h hnu) (fun h => absurd h hnr)
  refine ⟨hJ, ?_⟩
  intro s len hs hlen hsize
  cases r with
  | none => simp at hs
  | some off =>
    simp at hs; subst hs
    obtain ⟨hb1, hb2, hb3⟩ := hB2 off rfl
    have hilt : i < h.next := hI.lt i (by simp [ids, activeIds] at hact ⊢; grind)
    refine ⟨hJ.nd, hJ.lt, ?_, ?_, ?_, ?_, hJ.recy⟩
    · intro o ho
      rcases List.mem_cons.1 ho with rfl | ho
      · exact ⟨hlen, hilt, by simp only; omega⟩
      · exact hJ.objs o ho
    · refine List.pairwise_cons.2 ⟨?_, hJ.pw⟩
      intro o ho hov
      obtain ⟨h1, h2, h3⟩ := hov
      simp only at h1 h2 h3
      have := hb3 o ho h1.symm
      omega
    · intro j hj
      by_cases hji : j = i
      · subst hji; rw [setBlk_self]; exact hB1.alloc hb2
      · exact (hJ.active j hj).other (by simp; exact fun h => hji h.symm)
    · intro j hj o ho hr
      rcases List.mem_cons.1 ho with rfl | ho
      · simp at hr; subst hr; exact absurd hj hnu
      · exact hJ.unsw j hj o ho hr

theorem lob_inv {h live} (hI : Inv h live) (len : Nat) (hlen : 0 < len) :
    Inv { h with lobs := h.lobs + 1 } (⟨.lob h.lobs, 0, len⟩ :: live) := by
  refine ⟨hI.nd, hI.lt, ?_, ?_, ?_, ?_, hI.recy⟩
  · intro o ho
    rcases List.mem_cons.1 ho with rfl | ho
    · exact ⟨hlen, by simp⟩
    · have := hI.objs o ho
      unfold ObjOk at this ⊢
      refine ⟨this.1, ?_⟩
      cases hr : o.region <;> rw [hr] at this <;> simp at this ⊢ <;> omega
  · refine List.pairwise_cons.2 ⟨?_, hI.pw⟩
    intro o ho hov
    have := (hI.objs o ho).2
    rw [← hov.1] at this
    simp at this
  · intro j hj; exact (hI.active j hj).other (by simp)
  · intro j hj o ho hr
    rcases List.mem_cons.1 ho with rfl | ho
    · simp at hr
    · exact hI.unsw j hj o ho hr

theorem tryAllocate_inv {h live} (hI : Inv h live) (size pick : Nat) :
    Inv (tryAllocate h size pick).1 live ∧
    ∀ s len, (tryAllocate h size pick).2 = some s → 0 < len → len ≤ size →
      Inv (tryAllocate h size pick).1 (⟨s.region, s.off, len⟩ :: live) := by
  unfold tryAllocate
  obtain ⟨hE, hEh⟩ := ensureHead_inv hI
  cases he : ensureHead h with | mk g hd
  rw [he] at hE hEh
  dsimp only at hE hEh ⊢
  split
  · refine ⟨?_, ?_⟩
    · have := lob_inv hE 1 (by simp)
      exact ⟨this.nd, this.lt, fun o ho => this.objs o (List.mem_cons_of_mem _ ho), hE.pw, hE.active, hE.unsw, hE.recy⟩
    · intro s len hs hlen _
      simp at hs; subst hs
      exact lob_inv hE len hlen
  · split
    · obtain ⟨hO, hOo, _⟩ := ensureOverflow_inv hE
      cases ho : ensureOverflow g with | mk k ov
      rw [ho] at hO hOo
      dsimp only at hO hOo ⊢
      have hb := bumpIn_inv hO (size := size) (.inr hOo)
      split
      · rename_i k' s' heq; rw [heq] at hb; exact hb
      · rename_i k' heq
        rw [heq] at hb
        obtain ⟨hR, hRo, _⟩ := replaceOverflow_inv hb.1
        cases hr : replaceOverflow k' with | mk k2 ov2
        rw [hr] at hR hRo
        dsimp only at hR hRo ⊢
        exact bumpIn_inv hR (size := size) (.inr hRo)
    · have hb := bumpIn_inv hE (size := size) (.inl hEh)
      split
      · rename_i k' s' heq; rw [heq] at hb; exact hb
      · rename_i k' heq
        rw [heq] at hb
        obtain ⟨hR, hRo, _⟩ := replaceHead_inv hb.1 pick
        cases hr : replaceHead k' pick with | mk k2 ov2
        rw [hr] at hR hRo
        dsimp only at hR hRo ⊢
        exact bumpIn_inv hR (size := size) (.inl hRo)

/-- A block with a hole of sufficient size yields space. -/
theorem bump_fits (b : Block) (size : Nat) (h : b.lower + size ≤ b.cursor) :
    (bump b size).2 = some (b.cursor - size) := by
  unfold bump
  rw [if_neg (by omega)]
  dsimp only
  rw [if_neg (by omega)]

theorem bumpIn_fits (h : Heap) (i size : Nat) (hf : (h.blk i).lower + size ≤ (h.blk i).cursor) :
    ∃ s, (bumpIn h i size).2 = some s := by
  unfold bumpIn
  have := bump_fits (h.blk i) size hf
  cases hb : bump (h.blk i) size with | mk b r
  rw [hb] at this
  simp at this
  simp [this]

theorem tryAllocate_succeeds {h live} (hI : Inv h live) (size pick : Nat) :
    ∃ s, (tryAllocate h size pick).2 = some s := by
  unfold tryAllocate
  obtain ⟨hE, hEh⟩ := ensureHead_inv hI
  cases he : ensureHead h with | mk g hd
  rw [he] at hE hEh
  dsimp only at hE hEh ⊢
  split
  · exact ⟨_, rfl⟩
  · rename_i c hc
    have hsize : size < blockSize := by
      unfold sizeClass at hc
      simp only [lineSize, blockSize] at *
      by_cases h1 : size < 128 <;> by_cases h2 : size < 32768 <;> simp_all <;> omega
    split
    · obtain ⟨hO, hOo, _⟩ := ensureOverflow_inv hE
      cases ho : ensureOverflow g with | mk k ov
      rw [ho] at hO hOo
      dsimp only at hO hOo ⊢
      have hb := bumpIn_inv hO (size := size) (.inr hOo)
      split
      · exact ⟨_, rfl⟩
      · rename_i k' heq
        rw [heq] at hb
        obtain ⟨hR, hRo, hfr⟩ := replaceOverflow_inv hb.1
        cases hr : replaceOverflow k' with | mk k2 ov2
        rw [hr] at hR hRo hfr
        dsimp only at hR hRo hfr ⊢
        apply bumpIn_fits
        rw [hfr]; simp [Block.fresh]; omega
    · rename_i hcond
      have hact := hE.active hd (by simp [activeIds, hEh])
      have hb := bumpIn_inv hE (size := size) (.inl hEh)
      split
      · exact ⟨_, rfl⟩
      · rename_i k' heq
        have hsmall : size < 128 := by
          by_cases h128 : size < 128
          · exact h128
          · exfalso
            have hm : sizeClass size = .medium := by
              unfold sizeClass; simp [lineSize, h128, hsize]
            rw [hm] at hcond
            have hle : ¬ size > holeSize (g.blk hd) := by intro hgt; exact hcond ⟨rfl, hgt⟩
            unfold holeSize at hle
            have h0 := hact.le
            obtain ⟨s, hs⟩ := bumpIn_fits g hd size (by omega)
            rw [heq] at hs; simp at hs
        rw [heq] at hb
        obtain ⟨hR, hRo, hfr⟩ := replaceHead_inv hb.1 pick
        cases hr : replaceHead k' pick with | mk k2 ov2
        rw [hr] at hR hRo hfr
        dsimp only at hR hRo hfr ⊢
        apply bumpIn_fits
        omega

end Verif.Heap
