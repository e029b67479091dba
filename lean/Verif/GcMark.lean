import Verif.GcLemmas
/-! The trace marks exactly the reachable addresses. -/

namespace Verif.Gc

/-- Number of queue entries that marking the rest of the heap can still cause. -/
def pot (s : Store) (m : List Addr) : Nat → Nat
  | 0 => 0
  | n + 1 => pot s m n + if n ∈ m then 0 else 1 + (elems s n).length

theorem pot_mark (s : Store) (m : List Nat) (a : Nat) (ha : a ∉ m) : ∀ n : Nat,
    (a < n → pot s (a :: m) n + (1 + (elems s a).length) = pot s m n) ∧ (n ≤ a → pot s (a :: m) n = pot s m n) := by
  intro n
  induction n with
  | zero => simp [pot]
  | succ n ih =>
    unfold pot
    constructor
    · intro h
      by_cases hn : n = a
      · subst hn
        have := ih.2 (Nat.le_refl _)
        simp [ha]; omega
      · have := ih.1 (by omega)
        simp only [List.mem_cons, hn, false_or]; omega
    · intro h
      have := ih.2 (by omega)
      have hn : n ≠ a := by omega
      simp only [List.mem_cons, hn, false_or]; omega

def pushes : List Act → Nat
  | [] => 0
  | .push _ :: as => 1 + pushes as
  | .markThen .. :: as => pushes as

structure RunSpec (s : Store) (n : Nat) (m : List Addr) (acts : List Act) (r : List Addr × List Item) : Prop where
  sub : ∀ a ∈ m, a ∈ r.1
  marks : ∀ a is, Act.markThen a is ∈ acts → a ∈ r.1
  push : ∀ i, Act.push i ∈ acts → i ∈ r.2
  new : ∀ a ∈ r.1, a ∈ m ∨ ∃ is, Act.markThen a is ∈ acts ∧ ∀ i ∈ is, i ∈ r.2
  items : ∀ i ∈ r.2, Act.push i ∈ acts ∨ ∃ a is, Act.markThen a is ∈ acts ∧ i ∈ is
  measure : r.2.length + pot s r.1 n ≤ pushes acts + pot s m n

theorem runActs_spec {s n} : ∀ (acts : List Act) (m : List Addr), (∀ act ∈ acts, ActOk s n act) →
    RunSpec s n m acts (runActs m acts) := by
  intro acts
  induction acts with
  | nil =>
    intro m _
    refine ⟨?_, ?_, ?_, ?_, ?_, ?_⟩ <;> simp [runActs, pushes]
  | cons act acts ih =>
    intro m hok
    have hok' : ∀ act ∈ acts, ActOk s n act := fun a ha => hok a (by simp [ha])
    cases act with
    | push i =>
      have h := ih m hok'
      unfold runActs
      refine ⟨h.sub, ?_, ?_, ?_, ?_, ?_⟩
      · intro a is ha; exact h.marks a is (by simpa using ha)
      · intro j hj
        simp at hj ⊢
        rcases hj with rfl | hj
        · exact .inl rfl
        · exact .inr (h.push j hj)
      · intro a ha
        rcases h.new a ha with h1 | ⟨is, h1, h2⟩
        · exact .inl h1
        · exact .inr ⟨is, by simp [h1], fun i hi => by simp [h2 i hi]⟩
      · intro j hj
        simp at hj
        rcases hj with rfl | hj
        · exact .inl (by simp)
        · rcases h.items j hj with h1 | ⟨a, is, h1, h2⟩
          · exact .inl (by simp [h1])
          · exact .inr ⟨a, is, by simp [h1], h2⟩
      · have := h.measure
        simp [pushes]; omega
    | markThen a is =>
      have hA := hok (.markThen a is) (by simp)
      unfold runActs
      by_cases ham : a ∈ m
      · rw [if_pos ham]
        have h := ih m hok'
        refine ⟨h.sub, ?_, ?_, ?_, ?_, ?_⟩
        · intro b is' hb
          simp at hb
          rcases hb with ⟨rfl, rfl⟩ | hb
          · exact h.sub _ ham
          · exact h.marks b is' hb
        · intro j hj; exact h.push j (by simpa using hj)
        · intro b hb
          rcases h.new b hb with h1 | ⟨is', h1, h2⟩
          · exact .inl h1
          · exact .inr ⟨is', by simp [h1], h2⟩
        · intro j hj
          rcases h.items j hj with h1 | ⟨b, is', h1, h2⟩
          · exact .inl (by simp [h1])
          · exact .inr ⟨b, is', by simp [h1], h2⟩
        · simpa [pushes] using h.measure
      · rw [if_neg ham]
        have h := ih (a :: m) hok'
        refine ⟨fun b hb => h.sub b (by simp [hb]), ?_, ?_, ?_, ?_, ?_⟩
        · intro b is' hb
          simp at hb
          rcases hb with ⟨rfl, rfl⟩ | hb
          · exact h.sub _ (by simp)
          · exact h.marks b is' hb
        · intro j hj
          have := h.push j (by simpa using hj)
          simp [this]
        · intro b hb
          rcases h.new b hb with h1 | ⟨is', h1, h2⟩
          · rcases List.mem_cons.1 h1 with rfl | h1
            · exact .inr ⟨is, by simp, fun i hi => by simp [hi]⟩
            · exact .inl h1
          · exact .inr ⟨is', by simp [h1], fun i hi => by simp [h2 i hi]⟩
        · intro j hj
          simp at hj
          rcases hj with hj | hj
          · exact .inr ⟨a, is, by simp, hj⟩
          · rcases h.items j hj with h1 | ⟨b, is', h1, h2⟩
            · exact .inl (by simp [h1])
            · exact .inr ⟨b, is', by simp [h1], h2⟩
        · have h1 := h.measure
          have h2 := (pot_mark s m a ham n).1 (hA.lt a is rfl)
          have h3 := hA.few a is rfl
          simp [pushes] at h1 ⊢; omega

theorem scanItem_ok {s n} (ht : ∀ a, a < n → TypedObj s n (s a)) (i : Item)
    (hi : match i with | .heap a => a < n | .emb v => TypedVal s n v) : ∀ act ∈ scanItem s i, ActOk s n act := by
  cases i with
  | heap a => exact scanObj_ok (ht a hi)
  | emb v => exact scanVal_ok hi

theorem scanItem_pushes (s : Store) (i : Item) : pushes (scanItem s i) = 0 ∧ ∀ j, Act.push j ∉ scanItem s i := by
  cases i with
  | heap a =>
    cases hs : s a with
    | frame b nx k => cases b <;> cases nx <;> simp [scanItem, scanObj, hs, pushes, markVals, markPush]
    | str l d => cases d <;> simp [scanItem, scanObj, hs, pushes, markPush]
    | _ => simp [scanItem, scanObj, hs, pushes]
  | emb v => cases v <;> simp [scanItem, scanVal, pushes, markPush]

/-- Invariant of the queue loop. -/
structure MarkInv (s : Store) (n : Nat) (r : Roots) (m : List Addr) (q : List Item) (vis : List Addr) : Prop where
  ok : ∀ i ∈ q, match i with | .heap a => a < n | .emb v => TypedVal s n v
  reach : ∀ a ∈ m, Reach s r a
  qreach : ∀ i ∈ q, ∀ a ∈ itemRefs s i, Reach s r a
  cover : ∀ a ∈ m, ∀ b ∈ refs (s a), b ∈ m ∨ ∃ i ∈ q, b ∈ itemRefs s i
  roots : ∀ a ∈ refsRoots r, a ∈ m ∨ ∃ i ∈ q, a ∈ itemRefs s i
  visit : ∀ a ∈ m, (IsFrame (s a) ∨ IsStr (s a)) → a ∈ vis ∨ Item.heap a ∈ q
  vreach : ∀ a ∈ vis, a ∈ m
  qmark : ∀ a, Item.heap a ∈ q → a ∈ m

theorem MarkInv.step {s n r m i q vis} (ht : ∀ a, a < n → TypedObj s n (s a))
    (hI : MarkInv s n r m (i :: q) vis) :
    MarkInv s n r (runActs m (scanItem s i)).1 (q ++ (runActs m (scanItem s i)).2) (vis ++ heapAddr i) := by
  have hok := scanItem_ok ht i (hI.ok i (by simp))
  have hR := runActs_spec (scanItem s i) m hok
  have hcov : ∀ b ∈ itemRefs s i, b ∈ (runActs m (scanItem s i)).1 := by
    intro b hb
    cases i with
    | heap a =>
      have := scanObj_refs s a b hb
      obtain ⟨act, h1, h2⟩ := List.mem_flatMap.1 this
      cases act with
      | push j => exact absurd h1 ((scanItem_pushes s (.heap a)).2 j)
      | markThen c is => simp [actRefs] at h2; subst h2; exact hR.marks b is h1
    | emb v =>
      have : b ∈ (scanVal v).flatMap (actRefs s) := by rw [scanVal_refs]; exact hb
      obtain ⟨act, h1, h2⟩ := List.mem_flatMap.1 this
      cases act with
      | push j => exact absurd h1 ((scanItem_pushes s (.emb v)).2 j)
      | markThen c is => simp [actRefs] at h2; subst h2; exact hR.marks b is h1
  -- addresses marked by the scan are reachable and typed
  have hsrc : ∀ a is, Act.markThen a is ∈ scanItem s i → Reach s r a ∧ a < n := by
    intro a is ha
    refine ⟨?_, (hok _ ha).lt a is rfl⟩
    cases i with
    | heap c =>
      have h1 := scanObj_refs' s (s c) _ ha a (by simp [actRefs])
      exact .step c a (hI.reach c (hI.qmark c (by simp))) h1
    | emb v =>
      apply hI.qreach (.emb v) (by simp)
      show a ∈ refsVal v
      rw [← scanVal_refs s v]
      exact List.mem_flatMap.2 ⟨_, ha, by simp [actRefs]⟩
  have hnewitem : ∀ j ∈ (runActs m (scanItem s i)).2, ∃ a is, Act.markThen a is ∈ scanItem s i ∧ j ∈ is := by
    intro j hj
    rcases hR.items j hj with h | h
    · exact absurd h ((scanItem_pushes s i).2 j)
    · exact h
  refine ⟨?_, ?_, ?_, ?_, ?_, ?_, ?_, ?_⟩
  · intro j hj
    rcases List.mem_append.1 hj with hj | hj
    · exact hI.ok j (by simp [hj])
    · obtain ⟨a, is, h1, h2⟩ := hnewitem j hj
      obtain ⟨_, hlt⟩ := hsrc a is h1
      rcases (hok _ h1).sound a is rfl j h2 with rfl | ⟨v, hv, rfl⟩
      · exact hlt
      · have hta := ht a hlt
        unfold elems at hv
        split at hv
        · rename_i vs hs; rw [hs] at hta; exact hta v hv
        · simp at hv
  · intro a ha
    rcases hR.new a ha with h1 | ⟨is, h1, _⟩
    · exact hI.reach a h1
    · exact (hsrc a is h1).1
  · intro j hj a ha
    rcases List.mem_append.1 hj with hj | hj
    · exact hI.qreach j (by simp [hj]) a ha
    · obtain ⟨c, is, h1, h2⟩ := hnewitem j hj
      obtain ⟨hr, _⟩ := hsrc c is h1
      rcases (hok _ h1).sound c is rfl j h2 with rfl | ⟨v, hv, rfl⟩
      · exact .step c a hr (itemRefs_heap_sub ha)
      · exact .step c a hr (elems_refs hv ha)
  · intro a ha b hb
    rcases hR.new a ha with h1 | ⟨is, h1, h2⟩
    · rcases hI.cover a h1 b hb with h3 | ⟨j, h3, h4⟩
      · exact .inl (hR.sub b h3)
      · rcases List.mem_cons.1 h3 with rfl | h3
        · exact .inl (hcov b h4)
        · exact .inr ⟨j, by simp [h3], h4⟩
    · obtain ⟨j, h3, h4⟩ := (hok _ h1).cover a is rfl b hb
      exact .inr ⟨j, by simp [h2 j h3], h4⟩
  · intro b hb
    rcases hI.roots b hb with h3 | ⟨j, h3, h4⟩
    · exact .inl (hR.sub b h3)
    · rcases List.mem_cons.1 h3 with rfl | h3
      · exact .inl (hcov b h4)
      · exact .inr ⟨j, by simp [h3], h4⟩
  · intro a ha hk
    rcases hR.new a ha with h1 | ⟨is, h1, h2⟩
    · rcases hI.visit a h1 hk with h3 | h3
      · exact .inl (by simp [h3])
      · rcases List.mem_cons.1 h3 with h3 | h3
        · left; simp [← h3, heapAddr]
        · right; simp [h3]
    · have := (hok _ h1).visit a is rfl hk
      right; simp [h2 _ this]
  · intro a ha
    rcases List.mem_append.1 ha with ha | ha
    · exact hR.sub a (hI.vreach a ha)
    · cases i with
      | heap c => simp [heapAddr] at ha; subst ha; exact hR.sub a (hI.qmark a (by simp))
      | emb v => simp [heapAddr] at ha
  · intro a ha
    rcases List.mem_append.1 ha with ha | ha
    · exact hR.sub a (hI.qmark a (by simp [ha]))
    · obtain ⟨c, is, h1, h2⟩ := hnewitem _ ha
      rcases (hok _ h1).sound c is rfl _ h2 with h | ⟨v, hv, h⟩
      · simp at h; subst h; exact hR.marks a is h1
      · simp at h

theorem markInv_start {s n r} (hT : Typed s n r) :
    MarkInv s n r (runActs [] (scanRoots s r)).1 (runActs [] (scanRoots s r)).2 [] := by
  have hok := scanRoots_ok hT
  have hR := runActs_spec (scanRoots s r) [] hok
  have hroot : ∀ act ∈ scanRoots s r, ∀ a ∈ actRefs s act, Reach s r a := by
    intro act hact a ha
    apply Reach.root
    rw [← scanRoots_refs hT]
    exact List.mem_flatMap.2 ⟨act, hact, ha⟩
  have hmark : ∀ a is, Act.markThen a is ∈ scanRoots s r → Reach s r a ∧ a < n := fun a is h =>
    ⟨hroot _ h a (by simp [actRefs]), (hok _ h).lt a is rfl⟩
  have hpushval : ∀ i, Act.push i ∈ scanRoots s r → ∃ v, i = .emb v ∧ TypedVal s n v := by
    intro i hi
    have hcont : ∀ c, TypedCont s n c → Act.push i ∈ scanCont s c → ∃ v, i = .emb v ∧ TypedVal s n v := by
      intro c hc h
      cases c <;> simp [scanCont, markPush, markVals] at h
      subst h; exact ⟨_, rfl, hc.1⟩
    have hconst : ∀ v, Act.push i ∉ scanConst v := by intro v; cases v <;> simp [scanConst, markPush]
    simp only [scanRoots, List.mem_append, List.mem_flatMap, List.mem_map, List.mem_cons, List.not_mem_nil,
      or_false] at hi
    rcases hi with ((((((h | h | h) | ⟨c, hc, h⟩) | ⟨v, hv, h⟩) | ⟨v, hv, h⟩) | ⟨st, hst, c, hc, h⟩) | ⟨f, hf, (h | ⟨v, hv, h⟩)⟩) | ⟨v, hv, h⟩
    · simp [markPush] at h
    · simp [markPush] at h
    · simp at h; subst h; exact ⟨_, rfl, hT.current⟩
    · exact hcont c (hT.stack c hc) h
    · exact absurd h (hconst v)
    · simp at h; subst h; exact ⟨_, rfl, hT.stash v hv⟩
    · exact hcont c (hT.suspended st hst c hc) h
    · simp [markPush] at h
    · exact absurd h (hconst v)
    · simp at h; subst h; exact ⟨_, rfl, hT.stripped v (by simpa using hv)⟩
  refine ⟨?_, ?_, ?_, ?_, ?_, ?_, by simp, ?_⟩
  · intro i hi
    rcases hR.items i hi with h | ⟨a, is, h1, h2⟩
    · obtain ⟨v, rfl, hv⟩ := hpushval i h; exact hv
    · obtain ⟨_, hlt⟩ := hmark a is h1
      rcases (hok _ h1).sound a is rfl i h2 with rfl | ⟨v, hv, rfl⟩
      · exact hlt
      · have hta := hT.objs a hlt
        unfold elems at hv
        split at hv
        · rename_i vs hs; rw [hs] at hta; exact hta v hv
        · simp at hv
  · intro a ha
    rcases hR.new a ha with h1 | ⟨is, h1, _⟩
    · simp at h1
    · exact (hmark a is h1).1
  · intro j hj a ha
    rcases hR.items j hj with h | ⟨c, is, h1, h2⟩
    · exact hroot _ h a (by simpa [actRefs] using ha)
    · obtain ⟨hr, _⟩ := hmark c is h1
      rcases (hok _ h1).sound c is rfl j h2 with rfl | ⟨v, hv, rfl⟩
      · exact .step c a hr (itemRefs_heap_sub ha)
      · exact .step c a hr (elems_refs hv ha)
  · intro a ha b hb
    rcases hR.new a ha with h1 | ⟨is, h1, h2⟩
    · simp at h1
    · obtain ⟨j, h3, h4⟩ := (hok _ h1).cover a is rfl b hb
      exact .inr ⟨j, h2 j h3, h4⟩
  · intro a ha
    rw [← scanRoots_refs hT] at ha
    obtain ⟨act, h1, h2⟩ := List.mem_flatMap.1 ha
    cases act with
    | push j => exact .inr ⟨j, hR.push j h1, by simpa [actRefs] using h2⟩
    | markThen c is => simp [actRefs] at h2; subst h2; exact .inl (hR.marks a is h1)
  · intro a ha hk
    rcases hR.new a ha with h1 | ⟨is, h1, h2⟩
    · simp at h1
    · exact .inr (h2 _ ((hok _ h1).visit a is rfl hk))
  · intro a ha
    rcases hR.items _ ha with h | ⟨c, is, h1, h2⟩
    · obtain ⟨v, h, _⟩ := hpushval _ h; simp at h
    · rcases (hok _ h1).sound c is rfl _ h2 with h | ⟨v, hv, h⟩
      · simp at h; subst h; exact hR.marks a is h1
      · simp at h

theorem markLoop_inv {s n r} (ht : ∀ a, a < n → TypedObj s n (s a)) : ∀ fuel m q vis m' vis',
    MarkInv s n r m q vis → markLoop s fuel m q vis = some (m', vis') → MarkInv s n r m' [] vis' := by
  intro fuel
  induction fuel with
  | zero =>
    intro m q vis m' vis' hI h
    cases q with
    | nil => simp [markLoop] at h; obtain ⟨rfl, rfl⟩ := h; exact hI
    | cons i q => simp [markLoop] at h
  | succ fuel ih =>
    intro m q vis m' vis' hI h
    cases q with
    | nil => simp [markLoop] at h; obtain ⟨rfl, rfl⟩ := h; exact hI
    | cons i q =>
      simp only [markLoop] at h
      exact ih _ _ _ _ _ (hI.step ht) h

theorem markLoop_total {s n r} (ht : ∀ a, a < n → TypedObj s n (s a)) : ∀ fuel m q vis,
    MarkInv s n r m q vis → q.length + pot s m n ≤ fuel → ∃ p, markLoop s fuel m q vis = some p := by
  intro fuel
  induction fuel with
  | zero =>
    intro m q vis hI h
    cases q with
    | nil => exact ⟨_, by simp [markLoop]; rfl⟩
    | cons i q => simp at h
  | succ fuel ih =>
    intro m q vis hI h
    cases q with
    | nil => exact ⟨_, by simp [markLoop]; rfl⟩
    | cons i q =>
      simp only [markLoop]
      apply ih _ _ _ (hI.step ht)
      have h1 := (runActs_spec (n := n) (scanItem s i) m (scanItem_ok ht i (hI.ok i (by simp)))).measure
      have h2 := (scanItem_pushes s i).1
      simp at h ⊢; omega

theorem MarkInv.complete {s n r m vis} (hI : MarkInv s n r m [] vis) {a : Addr} (ha : Reach s r a) : a ∈ m := by
  induction ha with
  | root a h =>
    rcases hI.roots a h with h | ⟨i, h, _⟩
    · exact h
    · simp at h
  | step a b _ hb ih =>
    rcases hI.cover a ih b hb with h | ⟨i, h, _⟩
    · exact h
    · simp at h

end Verif.Gc
