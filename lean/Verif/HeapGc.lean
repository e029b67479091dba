import Verif.HeapInv
/-! The invariant is preserved by collections. -/

namespace Verif.Heap

theorem markRegion_touch (b : Block) (o : Obj) (hlen : 0 < o.len) (l : Nat) (h : Touches o l) :
    (markRegion b o.off o.len).marks l = true := by
  obtain ⟨h1, h2⟩ := h
  simp only [markRegion, Bool.or_eq_true, Bool.and_eq_true]
  left
  exact ⟨decide_eq_true (by simp only [lineSize]; omega), decide_eq_true (by simp only [lineSize]; omega)⟩

/-- State during the mark phase of a collection that started with heap `h0`. `out` are the
objects already visited (at their final place). -/
structure GcInv (h0 : Heap) (done : List Obj) (h : Heap) (out : List Obj) : Prop where
  le : h0.next ≤ h.next
  lobs : h.lobs = h0.lobs
  head : h.head = h0.head
  overflow : h.overflow = h0.overflow
  recycled : h.recycled = h0.recycled
  rest : h.rest = h0.rest
  unswept : h.unswept = h0.unswept
  /-- the new blocks -/
  newIds : ∀ i ∈ h.target.toList ++ h.filled, h0.next ≤ i ∧ i < h.next
  nd : ∀ i, (h.target.toList ++ h.filled).count i ≤ 1
  tgt : ∀ t, h.target = some t → (h.blk t).lower = 0 ∧ (h.blk t).cursor ≤ blockSize ∧
    ∀ o ∈ out, o.region = .block t → (h.blk t).cursor ≤ o.off
  old : ∀ i, i < h0.next → (h.blk i).lower = (h0.blk i).lower ∧ (h.blk i).cursor = (h0.blk i).cursor
  objs : ∀ o ∈ out, ObjOk h o
  marked : ∀ i, Marked (h.blk i) i out
  place : ∀ o ∈ out, o ∈ done ∨ ∃ i, o.region = .block i ∧ h0.next ≤ i

theorem markObj_blk_ne (h : Heap) (o : Obj) (i : Nat) (hi : o.region ≠ .block i) :
    (markObj h o).blk i = h.blk i := by
  unfold markObj
  split
  · rename_i j hj; rw [hj] at hi; simp at hi
    exact setBlk_ne _ _ _ _ (fun h => hi h.symm)
  · rfl

theorem markObj_bounds (h : Heap) (o : Obj) (i : Nat) :
    ((markObj h o).blk i).lower = (h.blk i).lower ∧ ((markObj h o).blk i).cursor = (h.blk i).cursor := by
  unfold markObj
  split
  · rename_i j hj
    by_cases hij : i = j
    · subst hij; rw [setBlk_self]; simp [markRegion]
    · rw [setBlk_ne _ _ _ _ hij]; simp
  · simp

theorem markObj_mono (h : Heap) (o : Obj) (i l : Nat) (hm : (h.blk i).marks l = true) :
    ((markObj h o).blk i).marks l = true := by
  unfold markObj
  split
  · rename_i j hj
    by_cases hij : i = j
    · subst hij; rw [setBlk_self]; simp [markRegion, hm]
    · rw [setBlk_ne _ _ _ _ hij]; exact hm
  · exact hm

theorem markObj_marks (h : Heap) (o : Obj) (hlen : 0 < o.len) (i l : Nat) (hr : o.region = .block i)
    (ht : Touches o l) : ((markObj h o).blk i).marks l = true := by
  unfold markObj
  rw [hr]; dsimp only
  rw [setBlk_self]
  exact markRegion_touch _ o hlen l ht

theorem markObj_rest (h : Heap) (o : Obj) : (markObj h o).next = h.next ∧ (markObj h o).lobs = h.lobs ∧
    (markObj h o).head = h.head ∧ (markObj h o).overflow = h.overflow ∧ (markObj h o).recycled = h.recycled ∧
    (markObj h o).rest = h.rest ∧ (markObj h o).unswept = h.unswept ∧ (markObj h o).target = h.target ∧
    (markObj h o).filled = h.filled := by
  unfold markObj; split <;> simp [Heap.setBlk]

theorem GcInv.mark {h0 done h out} (hG : GcInv h0 done h out) (o : Obj) : GcInv h0 done (markObj h o) out := by
  obtain ⟨e1, e2, e3, e4, e5, e6, e7, e8, e9⟩ := markObj_rest h o
  refine ⟨by rw [e1]; exact hG.le, by rw [e2]; exact hG.lobs, by rw [e3]; exact hG.head,
    by rw [e4]; exact hG.overflow, by rw [e5]; exact hG.recycled, by rw [e6]; exact hG.rest,
    by rw [e7]; exact hG.unswept, by rw [e8, e9, e1]; exact hG.newIds, by rw [e8, e9]; exact hG.nd,
    ?_, ?_, ?_, ?_, hG.place⟩
  · intro t ht
    rw [e8] at ht
    obtain ⟨b1, b2⟩ := markObj_bounds h o t
    rw [b1, b2]; exact hG.tgt t ht
  · intro i hi
    obtain ⟨b1, b2⟩ := markObj_bounds h o i
    rw [b1, b2]; exact hG.old i hi
  · intro o' ho'
    have := hG.objs o' ho'
    unfold ObjOk at this ⊢
    rw [e1, e2]; exact this
  · intro i o' ho' hr l hl
    exact markObj_mono h o i l (hG.marked i o' ho' hr l hl)

theorem GcInv.mono {h0 done done' h out} (hG : GcInv h0 done h out) (hd : ∀ o ∈ done, o ∈ done') :
    GcInv h0 done' h out :=
  { hG with place := fun o ho => (hG.place o ho).imp (hd o) id }

/-- Adding a visited object whose lines are marked. -/
theorem GcInv.keep {h0 done h out} (hG : GcInv h0 done h out) (o : Obj) (ho : o ∈ done)
    (hok : ObjOk h0 o) (hm : ∀ i, o.region = .block i → ∀ l, Touches o l → (h.blk i).marks l = true) :
    GcInv h0 done h (o :: out) := by
  refine ⟨hG.le, hG.lobs, hG.head, hG.overflow, hG.recycled, hG.rest, hG.unswept, hG.newIds, hG.nd,
    ?_, hG.old, ?_, ?_, ?_⟩
  · intro t ht
    obtain ⟨h1, h2, h3⟩ := hG.tgt t ht
    refine ⟨h1, h2, ?_⟩
    intro o' ho' hr
    rcases List.mem_cons.1 ho' with rfl | ho'
    · have := hok.2
      rw [hr] at this
      have h4 := hG.newIds t (by simp [ht])
      simp at this; omega
    · exact h3 o' ho' hr
  · intro o' ho'
    rcases List.mem_cons.1 ho' with rfl | ho'
    · refine ⟨hok.1, ?_⟩
      have := hok.2
      have h1 := hG.le
      have h2 := hG.lobs
      cases hr : o'.region <;> rw [hr] at this <;> simp at this ⊢ <;> omega
    · exact hG.objs o' ho'
  · intro i o' ho' hr l hl
    rcases List.mem_cons.1 ho' with rfl | ho'
    · exact hm i hr l hl
    · exact hG.marked i o' ho' hr l hl
  · intro o' ho'
    rcases List.mem_cons.1 ho' with rfl | ho'
    · exact .inl ho
    · exact hG.place o' ho'

theorem bump_low {b : Block} (hb : b.lower = 0) (size : Nat) :
    bump b size = if size > b.cursor then (b, none) else ({ b with cursor := b.cursor - size }, some (b.cursor - size)) := by
  unfold bump
  split
  · rfl
  · dsimp only
    rw [if_neg (by omega)]

/-- Moving the current target to the filled list and installing a new one. -/
theorem GcInv.newTarget {h0 done h out g t} (hG : GcInv h0 done h out)
    (hg : Heap.newBlock { h with filled := h.filled ++ h.target.toList, target := none } = (g, t)) :
    GcInv h0 done { g with target := some t } out ∧ g.blk t = .fresh ∧ ∀ o ∈ out, o.region ≠ .block t := by
  simp only [Heap.newBlock, Prod.mk.injEq] at hg
  obtain ⟨rfl, rfl⟩ := hg
  have hfr : ∀ o ∈ out, o.region ≠ .block h.next := by
    intro o ho hr
    have := (hG.objs o ho).2
    rw [hr] at this; simp at this
  refine ⟨⟨?_, hG.lobs, hG.head, hG.overflow, hG.recycled, hG.rest, hG.unswept, ?_, ?_, ?_, ?_, ?_, ?_, hG.place⟩, ?_, hfr⟩
  · have := hG.le; simp; omega
  · intro i hi
    have h1 := hG.newIds i
    have h2 := hG.le
    simp only [Heap.setBlk, List.mem_append, mem_opt] at hi h1 ⊢
    grind
  · intro i
    have h1 := hG.nd i
    have h3 : (h.target.toList ++ h.filled).count h.next = 0 := by
      apply List.count_eq_zero.2
      intro hm; have := (hG.newIds _ hm).2; omega
    simp only [Heap.setBlk, Option.toList_some, List.count_append, List.count_cons, List.count_nil] at h1 h3 ⊢
    by_cases hi : h.next = i
    · subst hi; simp; omega
    · simp [hi]; omega
  · intro i hi
    simp at hi; subst hi
    simp only [Heap.setBlk, if_true, Block.fresh]
    exact ⟨trivial, Nat.le_refl _, fun o ho hr => absurd hr (hfr o ho)⟩
  · intro i hi
    have := hG.le
    have hne : i ≠ h.next := by omega
    simp only [Heap.setBlk, hne, if_false]
    exact hG.old i hi
  · intro o ho
    have := hG.objs o ho
    refine ⟨this.1, ?_⟩
    have := this.2
    cases hr : o.region <;> rw [hr] at this <;> simp [Heap.setBlk] at this ⊢ <;> omega
  · intro i o ho hr l hl
    have hne : i ≠ h.next := by rintro rfl; exact hfr o ho hr
    simp only [Heap.setBlk, hne, if_false]
    exact hG.marked i o ho hr l hl
  · simp [Heap.setBlk]

/-- The copy is put into the target block, below all earlier copies. -/
theorem GcInv.place_copy {h0 done h out t size len} (hG : GcInv h0 done h out) (ht : h.target = some t)
    (hsz : size ≤ (h.blk t).cursor) (hlen : 0 < len) (hle : len ≤ size) :
    let off := (h.blk t).cursor - size
    let c : Obj := ⟨.block t, off, len⟩
    GcInv h0 done (markObj (h.setBlk t { h.blk t with cursor := off }) c) (c :: out) ∧
    ∀ o ∈ out, ¬ Overlap c o := by
  intro off c
  obtain ⟨h1, h2, h3⟩ := hG.tgt t ht
  obtain ⟨h4, h5⟩ := hG.newIds t (by simp [ht])
  have hno : ∀ o ∈ out, ¬ Overlap c o := by
    intro o ho hov
    obtain ⟨e1, e2, e3⟩ := hov
    have := h3 o ho e1.symm
    simp only [c, off] at e2 e3; omega
  refine ⟨?_, hno⟩
  -- first only lower the cursor
  have hG' : GcInv h0 done (h.setBlk t { h.blk t with cursor := off }) out := by
    refine ⟨hG.le, hG.lobs, hG.head, hG.overflow, hG.recycled, hG.rest, hG.unswept, hG.newIds, hG.nd,
      ?_, ?_, hG.objs, ?_, hG.place⟩
    · intro t' ht'
      have : t' = t := by
        have : h.target = some t' := ht'
        rw [ht] at this; simpa using this.symm
      subst this
      rw [setBlk_self]
      refine ⟨h1, by simp only [off]; omega, ?_⟩
      intro o ho hr
      have := h3 o ho hr
      simp only [off]; omega
    · intro i hi
      rw [setBlk_ne _ _ _ _ (by omega)]; exact hG.old i hi
    · intro i o ho hr l hl
      by_cases hi : i = t
      · subst hi; rw [setBlk_self]; exact hG.marked i o ho hr l hl
      · rw [setBlk_ne _ _ _ _ hi]; exact hG.marked i o ho hr l hl
  have hG'' := hG'.mark c
  refine ⟨hG''.le, hG''.lobs, hG''.head, hG''.overflow, hG''.recycled, hG''.rest, hG''.unswept,
    hG''.newIds, hG''.nd, ?_, hG''.old, ?_, ?_, ?_⟩
  · intro t' ht'
    obtain ⟨k1, k2, k3⟩ := hG''.tgt t' ht'
    refine ⟨k1, k2, ?_⟩
    intro o ho hr
    rcases List.mem_cons.1 ho with rfl | ho
    · have : t' = t := by simp [c] at hr; exact hr.symm
      subst this
      have := (markObj_bounds (h.setBlk t' { h.blk t' with cursor := off }) c t').2
      rw [this, setBlk_self]
      simp [c]
    · exact k3 o ho hr
  · intro o ho
    rcases List.mem_cons.1 ho with rfl | ho
    · have := (markObj_rest (h.setBlk t { h.blk t with cursor := off }) c).1
      refine ⟨hlen, ?_⟩
      simp only [c]
      rw [this]
      refine ⟨h5, ?_⟩
      simp only [off]; omega
    · exact hG''.objs o ho
  · intro i o ho hr l hl
    rcases List.mem_cons.1 ho with rfl | ho
    · exact markObj_marks _ c hlen i l hr hl
    · exact hG''.marked i o ho hr l hl
  · intro o ho
    rcases List.mem_cons.1 ho with rfl | ho
    · exact .inr ⟨t, rfl, h4⟩
    · exact hG''.place o ho

theorem allocSizeOf_ge (n : Nat) : n ≤ allocSizeOf n := by unfold allocSizeOf; omega

theorem allocSizeOf_le (n : Nat) (h : n ≤ blockSize) : allocSizeOf n ≤ blockSize := by
  unfold allocSizeOf; unfold blockSize at *; omega

/-- Evacuating an object always succeeds, and the copy does not overlap anything. -/
theorem GcInv.evacuate {h0 done h out} (hG : GcInv h0 done h out) (o : Obj) (hlen : 0 < o.len)
    (hle : o.len ≤ blockSize) :
    GcInv h0 done (evacuate h o).1 ((evacuate h o).2 :: out) ∧
    (∀ o' ∈ out, ¬ Overlap (evacuate h o).2 o') ∧
    (∃ t, (evacuate h o).2.region = .block t ∧ h0.next ≤ t) ∧ (evacuate h o).2.len = o.len := by
  have key : ∀ {g t}, GcInv h0 done g out → g.target = some t → allocSizeOf o.len ≤ (g.blk t).cursor →
      (g.blk t).lower = 0 →
      let r := bumpIn g t (allocSizeOf o.len)
      ∃ s, r.2 = some s ∧ 
        let c : Obj := ⟨s.region, s.off, o.len⟩
        GcInv h0 done (markObj r.1 c) (c :: out) ∧ (∀ o' ∈ out, ¬ Overlap c o') ∧
        (∃ t, c.region = .block t ∧ h0.next ≤ t) := by
    intro g t hg ht hc hl r
    simp only [r, bumpIn, bump_low hl]
    rw [if_neg (by omega)]
    refine ⟨_, rfl, ?_⟩
    have := hg.place_copy ht hc hlen (allocSizeOf_ge _)
    exact ⟨this.1, this.2, t, rfl, (hg.newIds t (by simp [ht])).1⟩
  have retry : ∀ {k : Heap}, GcInv h0 done k out →
      let p := Heap.newBlock { k with filled := k.filled ++ k.target.toList, target := none }
      let r := bumpIn { p.1 with target := some p.2 } p.2 (allocSizeOf o.len)
      ∃ s, r.2 = some s ∧ 
        let c : Obj := ⟨s.region, s.off, o.len⟩
        GcInv h0 done (markObj r.1 c) (c :: out) ∧ (∀ o' ∈ out, ¬ Overlap c o') ∧
        (∃ t, c.region = .block t ∧ h0.next ≤ t) := by
    intro k hk p r
    obtain ⟨n1, n2, n3⟩ := hk.newTarget (g := p.1) (t := p.2) rfl
    refine key n1 rfl ?_ ?_
    · show _ ≤ (p.1.blk p.2).cursor
      rw [n2]; exact allocSizeOf_le _ hle
    · show (p.1.blk p.2).lower = 0
      rw [n2]; rfl
  have fin : ∀ {r : Heap × Option Space}, bumpInTarget h (allocSizeOf o.len) = r →
      (∃ s, r.2 = some s ∧ 
        let c : Obj := ⟨s.region, s.off, o.len⟩
        GcInv h0 done (markObj r.1 c) (c :: out) ∧ (∀ o' ∈ out, ¬ Overlap c o') ∧
        (∃ t, c.region = .block t ∧ h0.next ≤ t)) →
      GcInv h0 done (Heap.evacuate h o).1 ((Heap.evacuate h o).2 :: out) ∧
      (∀ o' ∈ out, ¬ Overlap (Heap.evacuate h o).2 o') ∧
      (∃ t, (Heap.evacuate h o).2.region = .block t ∧ h0.next ≤ t) ∧ (Heap.evacuate h o).2.len = o.len := by
    rintro ⟨k, r⟩ hr ⟨s, hs, h1, h2, h3⟩
    simp only at hs
    subst hs
    unfold Heap.evacuate
    rw [hr]
    exact ⟨h1, h2, h3, rfl⟩
  unfold bumpInTarget at fin
  cases ht : h.target with
  | none =>
    simp only [ht] at fin
    exact fin rfl (retry hG)
  | some t =>
    simp only [ht] at fin
    obtain ⟨l0, _, _⟩ := hG.tgt t ht
    by_cases hc : allocSizeOf o.len ≤ (h.blk t).cursor
    · obtain ⟨s, hs, hrest⟩ := key hG ht hc l0
      cases hb : bumpIn h t (allocSizeOf o.len) with | mk k r
      rw [hb] at hs hrest
      simp only at hs; subst hs
      rw [hb] at fin
      exact fin rfl ⟨s, rfl, hrest⟩
    · have hb : bumpIn h t (allocSizeOf o.len) = (h, none) := by
        simp only [bumpIn, bump_low l0]
        rw [if_pos (by omega)]
        have : h.setBlk t (h.blk t) = h := by
          unfold Heap.setBlk
          have : (fun j => if j = t then h.blk t else h.blk j) = h.blk := by
            funext j; split <;> simp_all
          rw [this]
        simp [this]
      rw [hb] at fin
      exact fin rfl (retry hG)

/-- A visited object keeps its place or gets a new one in a new block. -/
theorem GcInv.visit {h0 done h out} (hG : GcInv h0 done h out) (o : Obj) (e : Bool)
    (hok : ObjOk h0 o) (hdone : ∀ o' ∈ done, ¬ Overlap o o') :
    GcInv h0 (o :: done) (visit h o e).1 ((visit h o e).2 :: out) ∧
    (∀ o' ∈ out, ¬ Overlap (visit h o e).2 o') := by
  have hM := hG.mark o
  have hkeep : GcInv h0 (o :: done) (markObj h o) (o :: out) ∧ ∀ o' ∈ out, ¬ Overlap o o' := by
    refine ⟨(hM.mono (fun _ h => List.mem_cons_of_mem _ h)).keep o (by simp) hok ?_, ?_⟩
    · intro i hi l hl
      exact markObj_marks h o hok.1 i l hi hl
    · intro o' ho' hov
      rcases hG.place o' ho' with h1 | ⟨i, h1, h2⟩
      · exact hdone o' h1 hov
      · have := hok.2
        rw [hov.1, h1] at this
        simp at this; omega
  unfold Heap.visit
  dsimp only
  split
  · rename_i i hr
    have hle : o.len ≤ blockSize := by
      have := hok.2; rw [hr] at this; simp at this; omega
    have := hM.evacuate o hok.1 hle
    exact ⟨this.1.mono (fun _ h => List.mem_cons_of_mem _ h), this.2.1⟩
  · exact hkeep

theorem no_overlap_of_ne {live : List Obj} (hpw : live.Pairwise (fun a b => ¬ Overlap a b)) {a b : Obj}
    (ha : a ∈ live) (hb : b ∈ live) (hne : a ≠ b) : ¬ Overlap a b := by
  induction live with
  | nil => simp at ha
  | cons x xs ih =>
    obtain ⟨h1, h2⟩ := List.pairwise_cons.1 hpw
    rcases List.mem_cons.1 ha with ha' | ha' <;> rcases List.mem_cons.1 hb with hb' | hb'
    · exact absurd (ha'.trans hb'.symm) hne
    · exact ha' ▸ h1 b hb'
    · subst hb'; exact fun hov => h1 a ha' ⟨hov.1.symm, hov.2.2, hov.2.1⟩
    · exact ih h2 ha' hb'

theorem GcInv.visitAll {h0} {live : List Obj} (hpw : live.Pairwise (fun a b => ¬ Overlap a b))
    (hobj : ∀ o ∈ live, ObjOk h0 o) :
    ∀ (visited : List (Obj × Bool)) (h : Heap) (done out : List Obj), GcInv h0 done h out →
    (∀ p ∈ visited, p.1 ∈ live) → (∀ o ∈ done, o ∈ live) → (visited.map Prod.fst).Nodup →
    (∀ p ∈ visited, p.1 ∉ done) →
    ∃ done', (∀ o ∈ done', o ∈ live) ∧
    GcInv h0 done' (visitAll visited h).1 ((visitAll visited h).2 ++ out) ∧
    (visitAll visited h).2.Pairwise (fun a b => ¬ Overlap a b) ∧
    ∀ a ∈ (visitAll visited h).2, ∀ b ∈ out, ¬ Overlap a b := by
  intro visited
  induction visited with
  | nil =>
    intro h done out hG _ hd _ _
    refine ⟨done, hd, ?_, ?_, ?_⟩ <;> simp [Heap.visitAll, hG]
  | cons p visited ih =>
    obtain ⟨o, e⟩ := p
    intro h done out hG hv hd hnd hdone
    have ho := hv (o, e) (by simp)
    have hon := hdone (o, e) (by simp)
    simp only at ho hon
    obtain ⟨h1, h2⟩ := hG.visit o e (hobj o ho) (fun o' ho' =>
      no_overlap_of_ne hpw ho (hd o' ho') (fun h => hon (h ▸ ho')))
    unfold Heap.visitAll
    cases hvis : Heap.visit h o e with | mk k o'
    rw [hvis] at h1 h2
    dsimp only at h1 h2 ⊢
    simp only [List.map_cons, List.nodup_cons] at hnd
    obtain ⟨done', d1, d2, d3, d4⟩ := ih k (o :: done) (o' :: out) h1 (fun p hp => hv p (by simp [hp])) 
      (by intro x hx; rcases List.mem_cons.1 hx with rfl | hx
          · exact ho
          · exact hd x hx) hnd.2
      (by intro p hp hx
          rcases List.mem_cons.1 hx with hx | hx
          · exact hnd.1 (by rw [← hx]; exact List.mem_map_of_mem hp)
          · exact hdone p (by simp [hp]) hx)
    cases hva : Heap.visitAll visited k with | mk k2 os
    rw [hva] at d2 d3 d4
    dsimp only at d2 d3 d4 ⊢
    refine ⟨done', d1, ?_, ?_, ?_⟩
    · have hmem : ∀ x, x ∈ o' :: os ++ out → x ∈ os ++ o' :: out := by intro x hx; simp at hx ⊢; grind
      exact { d2 with
        tgt := fun t ht => ⟨(d2.tgt t ht).1, (d2.tgt t ht).2.1, fun x hx => (d2.tgt t ht).2.2 x (hmem x hx)⟩
        objs := fun x hx => d2.objs x (hmem x hx)
        marked := fun i x hx => d2.marked i x (hmem x hx)
        place := fun x hx => d2.place x (hmem x hx) }
    · refine List.pairwise_cons.2 ⟨?_, d3⟩
      intro x hx hov
      exact d4 x hx o' (by simp) ⟨hov.1.symm, hov.2.2, hov.2.1⟩
    · intro a ha b hb
      rcases List.mem_cons.1 ha with rfl | ha
      · exact h2 b hb
      · exact d4 a ha b (by simp [hb])

/-- A collection preserves the invariant; survivors stay where they are or move to blocks that
did not exist before. -/
theorem collect_inv {h live} (hI : Inv h live) (ht : h.target = none) (hf : h.filled = [])
    (visited : List (Obj × Bool)) (hv : ∀ p ∈ visited, p.1 ∈ live) (hnd : (visited.map Prod.fst).Nodup) :
    Inv (collect h visited).1 (collect h visited).2 ∧ (collect h visited).1.target = none ∧
      (collect h visited).1.filled = [] ∧
      ∀ o ∈ (collect h visited).2, o ∈ live ∨ ∃ i, o.region = .block i ∧ h.next ≤ i := by
  have hstart : GcInv (resetMarks h) [] (resetMarks h) [] := by
    refine ⟨Nat.le_refl _, rfl, rfl, rfl, rfl, rfl, rfl, ?_, ?_, ?_, ?_, ?_, ?_, ?_⟩ <;>
      simp [resetMarks, ht, hf, Marked]
  obtain ⟨done, hdone, hG, hpw, -⟩ := GcInv.visitAll (h0 := resetMarks h) hI.pw hI.objs visited (resetMarks h) [] [] hstart hv
    (by simp) hnd (by simp)
  unfold collect
  dsimp only
  cases hva : visitAll visited (resetMarks h) with | mk k objs
  rw [hva] at hG hpw
  simp only [List.append_nil] at hG hpw
  dsimp only
  have hcnt : ∀ i, (ids (deferSweep (finaliseEvacuation k))).count i = (ids h).count i + (k.target.toList ++ k.filled).count i := by
    intro i
    simp only [ids, deferSweep, finaliseEvacuation, hG.head, hG.overflow, hG.recycled, hG.rest, hG.unswept,
      resetMarks, ht, hf, List.count_append]
    simp; omega
  refine ⟨⟨?_, ?_, ?_, hpw, ?_, ?_, ?_⟩, rfl, rfl, ?_⟩
  · intro i
    rw [hcnt]
    have h1 := hI.nd i
    have h2 := hG.nd i
    by_cases hi : i ∈ k.target.toList ++ k.filled
    · have := (hG.newIds i hi).1
      have h0 : (ids h).count i = 0 := by
        apply List.count_eq_zero.2
        intro hm; have := hI.lt i hm; simp [resetMarks] at *; omega
      omega
    · have := List.count_eq_zero.2 hi
      omega
  · intro i hi
    have h1 := count_pos_of_mem hi
    rw [hcnt] at h1
    show i < k.next
    by_cases hi2 : i ∈ k.target.toList ++ k.filled
    · exact (hG.newIds i hi2).2
    · have := List.count_eq_zero.2 hi2
      have := hI.lt i (List.count_pos_iff.1 (by omega))
      have h2 := hG.le
      simp [resetMarks] at h2; omega
  · intro o ho; exact hG.objs o ho
  · intro i hi
    have hi' : i ∈ activeIds h := by
      simp only [activeIds, deferSweep, finaliseEvacuation, hG.head, hG.overflow, hG.recycled, resetMarks] at hi ⊢
      exact hi
    have hA := hI.active i hi'
    have hlt : i < h.next := hI.lt i (by simp [ids, activeIds] at hi' ⊢; grind)
    obtain ⟨b1, b2⟩ := hG.old i hlt
    simp only [resetMarks] at b1 b2
    show Active (k.blk i) i objs
    refine ⟨by rw [b1, b2]; exact hA.le, by rw [b2]; exact hA.cap, ?_, ?_⟩
    · intro o ho hr
      rw [b1, b2]
      rcases hG.place o ho with h1 | ⟨j, h1, h2⟩
      · exact hA.free o (hdone o h1) hr
      · rw [hr] at h1; simp at h1; subst h1
        simp [resetMarks] at h2; omega
    · intro o ho hr l hl _
      exact hG.marked i o ho hr l hl
  · intro i _
    exact hG.marked i
  · intro i hi
    have hi' : i ∈ h.recycled := by
      simp only [deferSweep, finaliseEvacuation, hG.recycled, resetMarks] at hi; exact hi
    have hlt : i < h.next := hI.lt i (by simp [ids]; grind)
    obtain ⟨b1, b2⟩ := hG.old i hlt
    simp only [resetMarks] at b1 b2
    show (k.blk i).lower + 128 ≤ (k.blk i).cursor
    rw [b1, b2]; exact hI.recy i hi'
  · intro o ho
    rcases hG.place o ho with h1 | h1
    · exact .inl (hdone o h1)
    · exact .inr h1

end Verif.Heap
