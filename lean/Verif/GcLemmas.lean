import Verif.GcSpec
/-! Lemmas about the trace. -/

namespace Verif.Gc

/-- Addresses that scanning a queue entry will look at. -/
def itemRefs (s : Store) : Item → List Addr
  | .heap a => match s a with
    | .vals _ => []
    | o => refs o
  | .emb v => refsVal v

/-- Addresses a statement takes care of. -/
def actRefs (s : Store) : Act → List Addr
  | .push i => itemRefs s i
  | .markThen a _ => [a]

/-- A `mark` statement pushes entries that look at all addresses in the object, few enough,
and includes the object itself if it has to be visited. -/
structure ActOk (s : Store) (n : Nat) (act : Act) : Prop where
  lt : ∀ a is, act = .markThen a is → a < n
  cover : ∀ a is, act = .markThen a is → ∀ r ∈ refs (s a), ∃ i ∈ is, r ∈ itemRefs s i
  few : ∀ a is, act = .markThen a is → is.length ≤ 1 + (elems s a).length
  visit : ∀ a is, act = .markThen a is → (IsFrame (s a) ∨ IsStr (s a)) → Item.heap a ∈ is
  sound : ∀ a is, act = .markThen a is → ∀ i ∈ is, i = .heap a ∨ ∃ v ∈ elems s a, i = .emb v

theorem elems_refs {s : Store} {a : Addr} {v : Val} (hv : v ∈ elems s a) {r : Addr} (hr : r ∈ refsVal v) :
    r ∈ refs (s a) := by
  unfold elems at hv
  split at hv
  · rename_i vs h; rw [h]; simp only [refs, List.mem_flatMap]; exact ⟨v, hv, hr⟩
  · simp at hv

theorem itemRefs_heap_sub {s : Store} {a r : Addr} (h : r ∈ itemRefs s (.heap a)) : r ∈ refs (s a) := by
  cases hs : s a <;> simp only [itemRefs, hs] at h ⊢ <;> first | exact h | simp at h

theorem actOk_frame {s n e} (he : e < n ∧ IsFrame (s e)) : ActOk s n (markPush e) := by
  refine ⟨?_, ?_, ?_, ?_, ?_⟩ <;> intro a is h <;> simp [markPush] at h <;> obtain ⟨rfl, rfl⟩ := h
  · exact he.1
  · intro r hr
    refine ⟨_, List.mem_singleton.2 rfl, ?_⟩
    have := he.2
    cases hs : s e <;> rw [hs] at this hr <;> simp [IsFrame] at this
    simp only [itemRefs, hs]; exact hr
  · simp
  · simp
  · intro i hi; left; simpa using hi

theorem actOk_str {s n e} (he : e < n ∧ IsStr (s e)) : ActOk s n (markPush e) := by
  refine ⟨?_, ?_, ?_, ?_, ?_⟩ <;> intro a is h <;> simp [markPush] at h <;> obtain ⟨rfl, rfl⟩ := h
  · exact he.1
  · intro r hr
    refine ⟨_, List.mem_singleton.2 rfl, ?_⟩
    have := he.2
    cases hs : s e <;> rw [hs] at this hr <;> simp [IsStr] at this
    simp only [itemRefs, hs]; exact hr
  · simp
  · simp
  · intro i hi; left; simpa using hi

theorem actOk_bytes {s n e} (he : e < n ∧ IsBytes (s e)) : ActOk s n (markPush e) := by
  refine ⟨?_, ?_, ?_, ?_, ?_⟩ <;> intro a is h <;> simp [markPush] at h <;> obtain ⟨rfl, rfl⟩ := h
  · exact he.1
  · intro r hr
    have := he.2
    cases hs : s e <;> rw [hs] at this hr <;> simp [IsBytes] at this
    simp [refs] at hr
  · simp
  · simp
  · intro i hi; left; simpa using hi

theorem actOk_leaf {s n e} (he : e < n ∧ IsLeaf (s e)) : ActOk s n (.markThen e []) := by
  refine ⟨?_, ?_, ?_, ?_, ?_⟩ <;> intro a is h <;> simp at h <;> obtain ⟨rfl, rfl⟩ := h
  · exact he.1
  · intro r hr
    have := he.2
    cases hs : s e <;> rw [hs] at this hr <;> simp [IsLeaf] at this
    simp [refs] at hr
  · simp
  · intro h
    have := he.2
    cases hs : s e <;> rw [hs] at this h <;> simp_all [IsLeaf, IsFrame, IsStr]
  · simp

theorem actOk_vals {s n e} (he : e < n ∧ IsVals (s e)) : ActOk s n (markVals s e) := by
  refine ⟨?_, ?_, ?_, ?_, ?_⟩ <;> intro a is h <;> simp [markVals] at h <;> obtain ⟨rfl, rfl⟩ := h
  · exact he.1
  · intro r hr
    have := he.2
    cases hs : s e <;> rw [hs] at this hr <;> simp [IsVals] at this
    simp only [refs, List.mem_flatMap] at hr
    obtain ⟨v, hv, hr⟩ := hr
    exact ⟨.emb v, by simp [elems, hs, hv], by simpa [itemRefs] using hr⟩
  · simp; omega
  · simp
  · intro i hi
    rcases List.mem_cons.1 hi with h | h
    · exact .inl h
    · obtain ⟨v, hv, rfl⟩ := List.mem_map.1 h
      exact .inr ⟨v, hv, rfl⟩

theorem actOk_push {s n i} : ActOk s n (.push i) := by
  refine ⟨?_, ?_, ?_, ?_, ?_⟩ <;> intro a is h <;> simp at h

theorem scanVal_ok {s n v} (hv : TypedVal s n v) : ∀ act ∈ scanVal v, ActOk s n act := by
  cases v <;> simp only [scanVal, TypedVal, List.mem_singleton, List.not_mem_nil, false_implies, implies_true] at * <;>
    rintro _ rfl
  · exact actOk_frame hv
  · exact actOk_str hv
  all_goals exact actOk_leaf hv

theorem scanVal_refs (s : Store) (v : Val) : (scanVal v).flatMap (actRefs s) = refsVal v := by
  cases v <;> simp [scanVal, actRefs, markPush, refsVal]

theorem scanConst_ok {s n v} (hv : TypedConst s n v) : ∀ act ∈ scanConst v, ActOk s n act := by
  cases v <;> simp only [scanConst, TypedConst, TypedVal, List.mem_singleton, List.not_mem_nil, false_implies, implies_true] at * <;>
    rintro _ rfl
  · exact actOk_str hv
  all_goals exact actOk_leaf hv

theorem scanConst_refs {s n v} (hv : TypedConst s n v) : (scanConst v).flatMap (actRefs s) = refsVal v := by
  cases v <;> simp [scanConst, actRefs, markPush, refsVal]
  exact hv

theorem scanObj_ok {s n o} (ho : TypedObj s n o) : ∀ act ∈ scanObj s o, ActOk s n act := by
  cases o with
  | frame b nx k =>
    intro act hact
    simp only [scanObj, List.mem_append, List.mem_map, Option.mem_toList] at hact
    rcases hact with ⟨x, hx, rfl⟩ | ⟨x, hx, rfl⟩
    · exact actOk_vals (ho.1 x (by simpa using hx))
    · exact actOk_frame (ho.2 x (by simpa using hx))
  | str l d =>
    intro act hact
    simp only [scanObj, List.mem_map, Option.mem_toList] at hact
    obtain ⟨x, hx, rfl⟩ := hact
    exact actOk_bytes (ho x (by simpa using hx))
  | _ => simp [scanObj]

theorem scanObj_refs (s : Store) (a : Addr) :
    ∀ r ∈ itemRefs s (.heap a), r ∈ (scanObj s (s a)).flatMap (actRefs s) := by
  intro r hr
  cases hs : s a with
  | frame b nx k =>
    simp only [itemRefs, hs, refs] at hr
    simp only [scanObj, List.mem_flatMap, List.mem_append, List.mem_map] at hr ⊢
    rcases hr with hr | hr
    · exact ⟨_, .inl ⟨r, hr, rfl⟩, by simp [markVals, actRefs]⟩
    · exact ⟨_, .inr ⟨r, hr, rfl⟩, by simp [markPush, actRefs]⟩
  | str l d =>
    simp only [itemRefs, hs, refs] at hr
    simp only [scanObj, List.mem_flatMap, List.mem_map] at hr ⊢
    exact ⟨_, ⟨r, hr, rfl⟩, by simp [markPush, actRefs]⟩
  | _ => simp [itemRefs, hs, refs] at hr

theorem scanObj_refs' (s : Store) (o : Obj) : ∀ act ∈ scanObj s o, ∀ r ∈ actRefs s act, r ∈ refs o := by
  intro act hact r hr
  cases o with
  | frame b nx k =>
    simp only [scanObj, List.mem_append, List.mem_map] at hact
    rcases hact with ⟨x, hx, rfl⟩ | ⟨x, hx, rfl⟩ <;> simp [markVals, markPush, actRefs] at hr <;> subst hr <;>
      simp [refs] at hx ⊢ <;> simp [hx]
  | str l d =>
    simp only [scanObj, List.mem_map] at hact
    obtain ⟨x, hx, rfl⟩ := hact
    simp [markPush, actRefs] at hr; subst hr; simpa [refs] using hx
  | _ => simp [scanObj] at hact

theorem scanCont_ok {s n c} (hc : TypedCont s n c) : ∀ act ∈ scanCont s c, ActOk s n act := by
  intro act hact
  cases c <;> simp only [scanCont, TypedCont, List.mem_append, List.mem_map,
    List.mem_cons, List.not_mem_nil, or_false] at hc hact
  case branch t e =>
    rcases hact with ⟨x, hx, rfl⟩ | rfl
    · exact actOk_bytes (hc.1 x (by simpa using hx))
    · exact actOk_frame hc.2
  case applyTo args =>
    obtain ⟨x, hx, rfl⟩ := hact
    exact actOk_vals (hc x (by simpa using hx))
  case fusedRight l e =>
    rcases hact with rfl | rfl
    · exact actOk_frame hc.2
    · exact actOk_push
  all_goals (subst hact; exact actOk_frame hc)

theorem scanCont_refs (s : Store) (c : Cont) : (scanCont s c).flatMap (actRefs s) = refsCont c := by
  cases c <;> simp [scanCont, refsCont, actRefs, markPush, itemRefs]
  case branch t e => cases t <;> simp [actRefs, markPush]
  case applyTo t => cases t <;> simp [actRefs, markVals]

theorem scanRoots_ok {s n r} (hr : Typed s n r) : ∀ act ∈ scanRoots s r, ActOk s n act := by
  intro act hact
  simp only [scanRoots, List.mem_append, List.mem_flatMap, List.mem_map, List.mem_cons, List.not_mem_nil,
    or_false] at hact
  rcases hact with ((((((rfl | rfl | rfl) | ⟨c, hc, h⟩) | ⟨v, hv, h⟩) | ⟨v, hv, rfl⟩) | ⟨st, hst, c, hc, h⟩) | ⟨f, hf, (rfl | ⟨v, hv, h⟩)⟩) | ⟨v, hv, rfl⟩
  · exact actOk_frame hr.globals
  · exact actOk_frame hr.rootEnv
  · exact actOk_push
  · exact scanCont_ok (hr.stack c hc) _ h
  · exact scanConst_ok (hr.constants v hv) _ h
  · exact actOk_push
  · exact scanCont_ok (hr.suspended st hst c hc) _ h
  · exact actOk_frame (hr.bifs f hf).1
  · exact scanConst_ok ((hr.bifs f hf).2 v hv) _ h
  · exact actOk_push

theorem mem_flatMap_eq {α β} {l : List α} {f g : α → List β} (h : ∀ x ∈ l, f x = g x) : l.flatMap f = l.flatMap g := by
  induction l with
  | nil => rfl
  | cons x xs ih =>
    simp only [List.flatMap_cons]
    rw [h x (by simp), ih (fun y hy => h y (by simp [hy]))]

theorem scanRoots_refs {s n r} (hr : Typed s n r) : (scanRoots s r).flatMap (actRefs s) = refsRoots r := by
  have h1 : ∀ l : List Cont, (l.flatMap (scanCont s)).flatMap (actRefs s) = l.flatMap refsCont := by
    intro l; rw [List.flatMap_assoc]; exact mem_flatMap_eq (fun c _ => scanCont_refs s c)
  have h2 : ∀ l : List Val, (∀ v ∈ l, TypedConst s n v) → (l.flatMap scanConst).flatMap (actRefs s) = l.flatMap refsVal := by
    intro l hl; rw [List.flatMap_assoc]; exact mem_flatMap_eq (fun c hc => scanConst_refs (hl c hc))
  have h3 : ∀ l : List Val, (l.map (fun v => Act.push (.emb v))).flatMap (actRefs s) = l.flatMap refsVal := by
    intro l; rw [List.flatMap_map]; exact mem_flatMap_eq (fun c hc => by simp [actRefs, itemRefs])
  simp only [scanRoots, refsRoots, List.flatMap_append]
  rw [h1, h2 _ hr.constants, h3, h3]
  congr 1
  congr 1
  · congr 1
    · simp [actRefs, itemRefs, markPush]
    · rw [List.flatMap_assoc]; exact mem_flatMap_eq (fun c _ => h1 c)
  · rw [List.flatMap_assoc]
    apply mem_flatMap_eq
    intro f hf
    simp only [List.flatMap_cons]
    rw [h2 _ (hr.bifs f hf).2]
    simp [actRefs, markPush]

/-- All addresses in the store's range are typed. -/
theorem refs_lt {s n o} (ho : TypedObj s n o) : ∀ r ∈ refs o, r < n := by
  have hv : ∀ v, TypedVal s n v → ∀ r ∈ refsVal v, r < n := by
    intro v hv r hr
    cases v <;> simp [refsVal] at hr <;> subst hr <;> exact hv.1
  intro r hr
  cases o with
  | frame b nx k =>
    simp [refs] at hr
    rcases hr with hr | hr
    · exact (ho.1 r hr).1
    · exact (ho.2 r hr).1
  | vals vs =>
    simp only [refs, List.mem_flatMap] at hr
    obtain ⟨v, hv', hr⟩ := hr
    exact hv v (ho v hv') r hr
  | str l d => simp [refs] at hr; exact (ho r hr).1
  | _ => simp [refs] at hr

end Verif.Gc
