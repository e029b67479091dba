import Verif.GcEvac
/-!
# Properties of the collector's trace

`C13`: the trace marks exactly what is reachable.  `C14`: a collection that moves objects
leaves the machine with the same object graph.
-/

namespace Verif.Gc

/-! ## C13 -/

/-- The mark phase comes to an end. -/
theorem mark_terminates {s : Store} {n : Nat} {r : Roots} (hT : Typed s n r) : ∃ fuel p, markPhase s r fuel = some p :=
  ⟨_, markLoop_total hT.objs _ _ _ _ (markInv_start hT) (Nat.le_refl _)⟩

/-- When it does, exactly the reachable objects are marked. -/
theorem marked_iff_reachable {s : Store} {n : Nat} {r : Roots} (hT : Typed s n r) {fuel : Nat} {marked visited : List Addr}
    (h : markPhase s r fuel = some (marked, visited)) (a : Addr) : a ∈ marked ↔ Reach s r a := by
  have hI := markLoop_inv hT.objs _ _ _ _ _ _ (markInv_start hT) h
  exact ⟨hI.reach a, hI.complete⟩

/-! ## C14 -/

theorem refsVal_lt {s : Store} {n : Nat} {v : Val} (hv : TypedVal s n v) : ∀ a : Nat, a ∈ refsVal v → a < n := by
  intro a ha
  cases v <;> simp [refsVal] at ha <;> subst ha <;> exact hv.1

theorem refsConst_lt {s : Store} {n : Nat} {v : Val} (hv : TypedConst s n v) : ∀ a : Nat, a ∈ refsVal v → a < n := by
  cases v with
  | closure c e => exact absurd hv id
  | _ => exact refsVal_lt (s := s) hv

theorem refsCont_lt {s : Store} {n : Nat} {c : Cont} (hc : TypedCont s n c) : ∀ a : Nat, a ∈ refsCont c → a < n := by
  intro a ha
  cases c with
  | branch t e =>
    rcases List.mem_append.1 ha with ha | ha
    · cases t with
      | none => simp at ha
      | some t => simp at ha; subst ha; exact (hc.1 a rfl).1
    · simp at ha; subst ha; exact hc.2.1
  | applyTo args =>
    cases args with
    | none => simp [refsCont] at ha
    | some b => simp [refsCont] at ha; subst ha; exact (hc a rfl).1
  | captureEnd => simp [refsCont] at ha
  | fusedRight l e =>
    rcases List.mem_cons.1 ha with ha | ha
    · subst ha; exact hc.2.1
    · exact refsVal_lt hc.1 a ha
  | _ => simp [refsCont] at ha; subst ha; exact hc.1

theorem typed_reach_lt {s : Store} {n : Nat} {r : Roots} (hT : Typed s n r) {a : Nat} (h : Reach s r a) : a < n := by
  induction h with
  | root a h =>
    simp only [refsRoots, List.mem_append, List.mem_flatMap] at h
    rcases h with ((((((h | h) | h) | h) | h) | h) | h) | h
    · simp at h
      rcases h with rfl | rfl
      · exact hT.globals.1
      · exact hT.rootEnv.1
    · exact refsVal_lt hT.current a h
    · obtain ⟨c, hc, ha⟩ := h
      exact refsCont_lt (hT.stack c hc) a ha
    · obtain ⟨v, hv, ha⟩ := h
      exact refsConst_lt (hT.constants v hv) a ha
    · obtain ⟨v, hv, ha⟩ := h
      exact refsVal_lt (hT.stash v hv) a ha
    · obtain ⟨l, hl, c, hc, ha⟩ := h
      exact refsCont_lt (hT.suspended l hl c hc) a ha
    · obtain ⟨b, hb, ha⟩ := h
      rcases List.mem_cons.1 ha with rfl | ha
      · exact (hT.bifs b hb).1.1
      · obtain ⟨v, hv, ha⟩ := List.mem_flatMap.1 ha
        exact refsConst_lt ((hT.bifs b hb).2 v hv) a ha
    · obtain ⟨v, hv, ha⟩ := h
      simp at hv
      exact refsVal_lt (hT.stripped v hv) a ha
  | step a b _ hb ih => exact refs_lt (hT.objs a ih) b hb

/-- A value array is referred to by a frame or by an `ApplyTo` continuation. -/
theorem vals_parent {s : Store} {n : Nat} {r : Roots} (hT : Typed s n r) {a : Nat} (h : Reach s r a) (hv : IsVals (s a)) :
    (∃ p nx k, Reach s r p ∧ s p = .frame (some a) nx k) ∨ .applyTo (some a) ∈ r.stack ∨
      ∃ l ∈ r.suspended, .applyTo (some a) ∈ l := by
  have notval : ∀ v, TypedVal s n v → a ∉ refsVal v := by
    intro v hv' ha
    cases v <;> simp [refsVal] at ha <;> subst ha <;> have := hv'.2 <;> revert this hv <;>
      cases s a <;> simp [IsVals, IsFrame, IsStr, IsLeaf]
  have notconst : ∀ v, TypedConst s n v → a ∉ refsVal v := by
    intro v hv'
    cases v with
    | closure c e => exact absurd hv' id
    | _ => exact notval _ hv'
  have notframe : ∀ e, (e < n ∧ IsFrame (s e)) → a ≠ e := by
    rintro e he rfl
    have := he.2; revert this hv; cases s a <;> simp [IsVals, IsFrame]
  have notbytes : ∀ e, (e < n ∧ IsBytes (s e)) → a ≠ e := by
    rintro e he rfl
    have := he.2; revert this hv; cases s a <;> simp [IsVals, IsBytes]
  have cont : ∀ c, TypedCont s n c → a ∈ refsCont c → c = .applyTo (some a) := by
    intro c hc ha
    cases c with
    | branch t e =>
      rcases List.mem_append.1 ha with ha | ha
      · cases t with
        | none => simp at ha
        | some t => simp at ha; exact absurd ha (notbytes t (hc.1 t rfl))
      · simp at ha; exact absurd ha (notframe e hc.2)
    | applyTo args =>
      cases args with
      | none => simp [refsCont] at ha
      | some b => simp [refsCont] at ha; rw [ha]
    | captureEnd => simp [refsCont] at ha
    | fusedRight l e =>
      rcases List.mem_cons.1 ha with ha | ha
      · exact absurd ha (notframe e hc.2)
      · exact absurd ha (notval l hc.1)
    | _ => simp [refsCont] at ha; exact absurd ha (notframe _ hc)
  cases h with
  | root _ h =>
    right
    simp only [refsRoots, List.mem_append, List.mem_flatMap] at h
    rcases h with ((((((h | h) | h) | h) | h) | h) | h) | h
    · simp at h
      rcases h with h | h
      · exact absurd h (notframe _ hT.globals)
      · exact absurd h (notframe _ hT.rootEnv)
    · exact absurd h (notval _ hT.current)
    · obtain ⟨c, hc, ha⟩ := h
      exact .inl (cont c (hT.stack c hc) ha ▸ hc)
    · obtain ⟨v, hv, ha⟩ := h
      exact absurd ha (notconst v (hT.constants v hv))
    · obtain ⟨v, hv, ha⟩ := h
      exact absurd ha (notval v (hT.stash v hv))
    · obtain ⟨l, hl, c, hc, ha⟩ := h
      exact .inr ⟨l, hl, cont c (hT.suspended l hl c hc) ha ▸ hc⟩
    · obtain ⟨b, hb, ha⟩ := h
      rcases List.mem_cons.1 ha with ha | ha
      · exact absurd ha (notframe _ (hT.bifs b hb).1)
      · obtain ⟨v, hv, ha⟩ := List.mem_flatMap.1 ha
        exact absurd ha (notconst v ((hT.bifs b hb).2 v hv))
    · obtain ⟨v, hv, ha⟩ := h
      simp at hv
      exact absurd ha (notval v (hT.stripped v hv))
  | step p _ hp ha =>
    have ht := hT.objs p (typed_reach_lt hT hp)
    cases hs : s p with
    | frame b nx k =>
      rw [hs] at ha ht
      rcases List.mem_append.1 ha with ha | ha
      · cases b with
        | none => simp at ha
        | some b => simp at ha; exact .inl ⟨p, nx, k, hp, by rw [ha]; exact hs⟩
      · cases nx with
        | none => simp at ha
        | some x => simp at ha; exact absurd ha (notframe x (ht.2 x rfl))
    | vals vs =>
      rw [hs] at ha ht
      obtain ⟨v, hv, ha⟩ := List.mem_flatMap.1 ha
      exact absurd ha (notval v (ht v hv))
    | bytes d => rw [hs] at ha; simp [refs] at ha
    | str l d =>
      rw [hs] at ha ht
      cases d with
      | none => simp [refs] at ha
      | some x => simp [refs] at ha; exact absurd ha (notbytes x (ht x rfl))
    | leaf c => rw [hs] at ha; simp [refs] at ha

/-- A moving collection leaves the same object graph: every reachable object is at its new
place with the same contents, all pointers in it and in the roots lead to the new places,
and no two objects are merged.  `cand` (which blocks to evacuate) is arbitrary. -/
theorem evacuation_preserves_graph {s : Store} {n : Nat} {r : Roots} (hT : Typed s n r) (cand : Addr → Bool) {next : Nat}
    (hn : n ≤ next) {fuel : Nat} {s' : Store} {r' : Roots} {f : Addr → Addr}
    (h : collectEvac s r cand next fuel = some (s', r', f)) : SameGraph f s r s' r' := by
  unfold collectEvac at h
  split at h
  · simp at h
  · rename_i m vis hmark
    simp only [Option.some.injEq, Prod.mk.injEq] at h
    obtain ⟨h1, h2, h3⟩ := h
    have hI := markLoop_inv hT.objs _ _ _ _ _ _ (markInv_start hT) hmark
    have hvis : ∀ a ∈ vis, a < n := fun a ha => typed_reach_lt hT (hI.reach a (hI.vreach a ha))
    have hE0 : EvacInv s n ⟨s, fun _ => none, next⟩ := ⟨hn, fun _ _ => rfl, by simp, by simp⟩
    have hP := placement_of_inv (evacAll_inv (cand := cand) vis _ hE0 hvis)
    rw [h3] at hP h1 h2
    have hU0 : Upd f s n (evacAll cand vis ⟨s, fun _ => none, next⟩).store (fun _ => False) :=
      ⟨fun a ha => .inl (hP.store a ha), fun _ _ h => h.elim⟩
    obtain ⟨hU1, hr⟩ := hU0.rootsPhase hP.inj hP.idem hT
    have hU2 := hU1.visited hP.inj hP.idem hT.objs vis hvis
    refine ⟨?_, ?_, ?_⟩
    · rw [← h2]; exact hr
    · intro a ha
      have hlt := typed_reach_lt hT ha
      rw [← h1]
      cases hs : s a with
      | frame b nx k =>
        rw [← hs]
        have : a ∈ vis := (hI.visit a (hI.complete ha) (.inl (by simp [hs, IsFrame]))).resolve_right (by simp)
        exact hU2.done a hlt (.inr ⟨a, this, .inl ⟨.inl (by simp [hs, IsFrame]), rfl⟩⟩)
      | str l d =>
        rw [← hs]
        have : a ∈ vis := (hI.visit a (hI.complete ha) (.inr (by simp [hs, IsStr]))).resolve_right (by simp)
        exact hU2.done a hlt (.inr ⟨a, this, .inl ⟨.inr (by simp [hs, IsStr]), rfl⟩⟩)
      | vals vs =>
        rw [← hs]
        apply hU2.done a hlt
        rcases vals_parent hT ha (by simp [hs, IsVals]) with ⟨p, nx, k, hp, hps⟩ | h | h
        · have : p ∈ vis := (hI.visit p (hI.complete hp) (.inl (by simp [hps, IsFrame]))).resolve_right (by simp)
          exact .inr ⟨p, this, .inr ⟨nx, k, hps⟩⟩
        · exact .inl (.inr (.inl h))
        · exact .inl (.inr (.inr h))
      | bytes d => rcases hU2.either a hlt with h | h <;> (rw [hs] at h; exact h)
      | leaf d => rcases hU2.either a hlt with h | h <;> (rw [hs] at h; exact h)
    · exact fun a b ha hb => hP.inj a b (typed_reach_lt hT ha) (typed_reach_lt hT hb)

/-- Such a collection comes to an end. -/
theorem evacuation_terminates {s : Store} {n : Nat} {r : Roots} (hT : Typed s n r) (cand : Addr → Bool) (next : Nat) :
    ∃ fuel p, collectEvac s r cand next fuel = some p := by
  obtain ⟨fuel, ⟨m, vis⟩, h⟩ := mark_terminates hT
  unfold collectEvac
  exact ⟨fuel, _, by rw [h]⟩

theorem refsVal_map (f : Addr → Addr) (v : Val) : refsVal (mapVal f v) = (refsVal v).map f := by cases v <;> rfl

theorem refs_map (f : Addr → Addr) (o : Obj) : refs (mapObj f o) = (refs o).map f := by
  cases o with
  | frame b nx k => cases b <;> cases nx <;> rfl
  | vals vs => simp [refs, mapObj, List.flatMap_map, List.map_flatMap, refsVal_map]
  | bytes d => rfl
  | str l d => cases d <;> rfl
  | leaf c => rfl

theorem refsCont_map (f : Addr → Addr) (c : Cont) : refsCont (mapCont f c) = (refsCont c).map f := by
  cases c with
  | branch t e => cases t <;> rfl
  | applyTo a => cases a <;> rfl
  | fusedRight l e => simp [refsCont, mapCont, refsVal_map]
  | _ => rfl

theorem refsRoots_map (f : Addr → Addr) (r : Roots) : refsRoots (mapRoots f r) = (refsRoots r).map f := by
  simp only [refsRoots, mapRoots, List.map_append, refsVal_map, List.flatMap_map, List.map_flatMap, refsCont_map,
    List.map_cons, List.map_nil]
  congr 1
  cases r.strippedMeta <;> simp [refsVal_map]

/-- After a moving collection what is reachable is exactly the new places of what was
reachable: nothing dangles and nothing is resurrected. -/
theorem reachable_after_evacuation {s : Store} {n : Nat} {r : Roots} (hT : Typed s n r) (cand : Addr → Bool) {next : Nat}
    (hn : n ≤ next) {fuel : Nat} {s' : Store} {r' : Roots} {f : Addr → Addr}
    (h : collectEvac s r cand next fuel = some (s', r', f)) (x : Addr) :
    Reach s' r' x ↔ ∃ a, Reach s r a ∧ f a = x := by
  have hG := evacuation_preserves_graph hT cand hn h
  constructor
  · intro hx
    induction hx with
    | root x hx =>
      rw [hG.roots, refsRoots_map] at hx
      obtain ⟨a, ha, rfl⟩ := List.mem_map.1 hx
      exact ⟨a, .root a ha, rfl⟩
    | step x y _ hy ih =>
      obtain ⟨a, ha, rfl⟩ := ih
      rw [hG.objs a ha, refs_map] at hy
      obtain ⟨b, hb, rfl⟩ := List.mem_map.1 hy
      exact ⟨b, .step a b ha hb, rfl⟩
  · rintro ⟨a, ha, rfl⟩
    induction ha with
    | root a ha => exact .root _ (by rw [hG.roots, refsRoots_map]; exact List.mem_map_of_mem ha)
    | step a b ha hb ih => exact .step _ _ ih (by rw [hG.objs a ha, refs_map]; exact List.mem_map_of_mem hb)

/-! ## A concrete machine

Two frames sharing a bindings array and in a cycle through a closure, a string with its
bytes, an `ApplyTo` frame, a set held only by a constant, and garbage at 8. -/

def exStore : Store := fun a =>
  match a with
  | 0 => .frame (some 1) none 7
  | 1 => .vals [.closure 5 2, .str 3, .scalar 9]
  | 2 => .frame (some 1) (some 0) 8
  | 3 => .str 2 (some 4)
  | 4 => .bytes [104, 105]
  | 5 => .vals [.closure 6 2, .set 6]
  | 6 => .leaf 3
  | 7 => .leaf 4
  | 8 => .frame (some 5) (some 8) 1
  | _ => .leaf 0

def exRoots : Roots :=
  { globals := 0, rootEnv := 0, current := .closure 1 2, stack := [.applyTo (some 5), .captureEnd], constants := [.set 7],
    stash := [.str 3], suspended := [[.fusedRight (.str 3) 0]], bifFrames := [(0, [.scalar 1])], strippedMeta := none }

theorem ex_typed : Typed exStore 9 exRoots := by
  refine ⟨?_, ⟨by decide, trivial⟩, ⟨by decide, trivial⟩, ⟨by decide, trivial⟩, ?_, ?_, ?_, ?_, ?_, ?_⟩
  · intro a ha
    have : a = 0 ∨ a = 1 ∨ a = 2 ∨ a = 3 ∨ a = 4 ∨ a = 5 ∨ a = 6 ∨ a = 7 ∨ a = 8 := by omega
    rcases this with rfl | rfl | rfl | rfl | rfl | rfl | rfl | rfl | rfl <;>
      simp [exStore, TypedObj, TypedVal, IsFrame, IsVals, IsStr, IsBytes, IsLeaf]
  all_goals simp [exRoots, exStore, TypedCont, TypedConst, TypedVal, IsFrame, IsVals, IsStr, IsBytes, IsLeaf]

example : (markPhase exStore exRoots 30).map (·.1) = some [4, 3, 6, 2, 1, 7, 5, 0] := by decide +kernel
example : Reach exStore exRoots 6 ∧ ¬ Reach exStore exRoots 8 := by
  have h : markPhase exStore exRoots 30 = some ((markPhase exStore exRoots 30).get (by decide +kernel)) := by simp
  rw [← marked_iff_reachable ex_typed h, ← marked_iff_reachable ex_typed h]
  decide +kernel

/-- With the even addresses in candidate blocks: objects 0, 2 and 4 move, and the pointers
to them follow. -/
example : (collectEvac exStore exRoots (· % 2 == 0) 9 30).map
      (fun p => (p.2.1.current, p.1 (p.2.2 2), p.1 (p.2.2 1), p.1 (p.2.2 5))) =
    some (.closure 1 10, .frame (some 1) (some 9) 8, .vals [.closure 5 10, .str 3, .scalar 9], .vals [.closure 6 10, .set 6]) := by
  decide +kernel

end Verif.Gc
