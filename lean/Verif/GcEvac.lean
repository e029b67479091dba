import Verif.GcMark
/-! Evacuation and pointer update preserve the object graph. -/

namespace Verif.Gc

structure EvacInv (s : Store) (n : Nat) (e : Evac) : Prop where
  next : n ≤ e.next
  old : ∀ x : Nat, x < n → e.store x = s x
  fwd : ∀ x k : Nat, e.fwd x = some k → x < n ∧ n ≤ k ∧ k < e.next ∧ e.store k = s x
  inj : ∀ x y k : Nat, e.fwd x = some k → e.fwd y = some k → x = y

theorem evacOne_inv {s n e} (hI : EvacInv s n e) (a : Nat) (ha : a < n) : EvacInv s n (evacOne e a) := by
  unfold evacOne
  split
  · exact hI
  · rename_i hnone
    have hn := hI.next
    refine ⟨by simp only; omega, ?_, ?_, ?_⟩
    · intro x hx
      have : x ≠ e.next := by omega
      simp [this, hI.old x hx]
    · intro x k h
      simp only at h
      split at h
      · rename_i hxa
        simp at h; subst h; subst hxa
        exact ⟨ha, hn, by simp, by simp [hI.old x ha]⟩
      · obtain ⟨h1, h2, h3, h4⟩ := hI.fwd x k h
        have : k ≠ e.next := by omega
        exact ⟨h1, h2, by simp only; omega, by simp [this, h4]⟩
    · intro x y k hx hy
      simp only at hx hy
      split at hx <;> split at hy
      · simp_all
      · rename_i h1 h2
        simp at hx; subst hx
        have := (hI.fwd y _ hy).2.2.1; omega
      · rename_i h1 h2
        simp at hy; subst hy
        have := (hI.fwd x _ hx).2.2.1; omega
      · exact hI.inj x y k hx hy

theorem evacAll_inv {s n cand} : ∀ (vis : List Nat) e, EvacInv s n e → (∀ a ∈ vis, a < n) →
    EvacInv s n (evacAll cand vis e) := by
  intro vis
  induction vis with
  | nil => intro e hI _; exact hI
  | cons a as ih =>
    intro e hI ha
    unfold evacAll
    apply ih
    · split
      · exact evacOne_inv hI a (ha a (by simp))
      · exact hI
    · exact fun b hb => ha b (by simp [hb])

/-- What the update phase needs to know about the placement. -/
structure Placement (s : Store) (n : Nat) (e : Evac) (f : Nat → Nat) : Prop where
  store : ∀ a, a < n → e.store (f a) = s a
  inj : ∀ a b, a < n → b < n → f a = f b → a = b
  idem : ∀ a, f (f a) = f a

theorem placement_of_inv {s n e} (hI : EvacInv s n e) : Placement s n e (fwdAddr e.fwd) := by
  refine ⟨?_, ?_, ?_⟩
  · intro a ha
    unfold fwdAddr
    cases h : e.fwd a with
    | none => exact hI.old a ha
    | some k => exact (hI.fwd a k h).2.2.2
  · intro a b ha hb h
    unfold fwdAddr at h
    cases h1 : e.fwd a with
    | none =>
      cases h2 : e.fwd b with
      | none => simpa [h1, h2] using h
      | some k => have := (hI.fwd b k h2).2.1; simp [h1, h2] at h; omega
    | some k =>
      cases h2 : e.fwd b with
      | none => have := (hI.fwd a k h1).2.1; simp [h1, h2] at h; omega
      | some k' => simp [h1, h2] at h; subst h; exact hI.inj a b k h1 h2
  · intro a
    unfold fwdAddr
    cases h : e.fwd a with
    | none => simp [h]
    | some k =>
      have hk := (hI.fwd a k h).2.1
      cases h2 : e.fwd k with
      | none => simp [h2]
      | some k' => have := (hI.fwd k k' h2).1; omega

theorem updVal_eq (f : Addr → Addr) (v : Val) : updVal f v = mapVal f v := by cases v <;> rfl

theorem mapVal_idem {f : Nat → Nat} (hf : ∀ a, f (f a) = f a) (v : Val) : mapVal f (mapVal f v) = mapVal f v := by
  cases v <;> simp [mapVal, hf]

theorem opt_idem {f : Nat → Nat} (hf : ∀ a, f (f a) = f a) (o : Option Nat) : (o.map f).map f = o.map f := by
  cases o <;> simp [hf]

/-- During the update phase every object is in its original or its final form; those in `P`
are in their final form. -/
structure Upd (f : Nat → Nat) (s : Store) (n : Nat) (st : Store) (P : Nat → Prop) : Prop where
  either : ∀ a, a < n → st (f a) = s a ∨ st (f a) = mapObj f (s a)
  done : ∀ a, a < n → P a → st (f a) = mapObj f (s a)

/-- Writing the final form of an object. -/
theorem Upd.write {f : Nat → Nat} {s n st P} (hinj : ∀ a b, a < n → b < n → f a = f b → a = b)
    (hU : Upd f s n st P) (a : Nat) (ha : a < n) {st' : Store} (hself : st' (f a) = mapObj f (s a))
    (hother : ∀ x, x ≠ f a → st' x = st x) : Upd f s n st' (fun x => P x ∨ x = a) := by
  refine ⟨?_, ?_⟩
  · intro b hb
    by_cases hba : b = a
    · subst hba; exact .inr hself
    · rw [hother (f b) (fun h => hba (hinj b a hb ha h))]; exact hU.either b hb
  · intro b hb hP
    by_cases hba : b = a
    · subst hba; exact hself
    · rw [hother (f b) (fun h => hba (hinj b a hb ha h))]
      exact hU.done b hb (hP.resolve_right hba)

theorem Upd.weaken {f : Nat → Nat} {s n st} {P Q : Nat → Prop} (hU : Upd f s n st P) (h : ∀ x, Q x → P x) : Upd f s n st Q :=
  ⟨hU.either, fun a ha hq => hU.done a ha (h a hq)⟩

theorem Upd.vals {f : Nat → Nat} {s n st P} (hinj : ∀ a b, a < n → b < n → f a = f b → a = b)
    (hf : ∀ a, f (f a) = f a) (hU : Upd f s n st P) (b : Nat) (hb : b < n ∧ IsVals (s b)) :
    Upd f s n (updVals f st (f b)) (fun x => P x ∨ x = b) := by
  obtain ⟨hlt, hv⟩ := hb
  cases hs : s b <;> rw [hs] at hv <;> simp [IsVals] at hv
  rename_i vs
  have key : ∀ ws, st (f b) = .vals ws → ws.map (updVal f) = vs.map (mapVal f) →
      Upd f s n (updVals f st (f b)) (fun x => P x ∨ x = b) := by
    intro ws h1 h2
    apply hU.write hinj b hlt
    · simp [updVals, h1, hs, mapObj, h2]
    · intro x hx; simp [updVals, h1, hx]
  rcases hU.either b hlt with h | h
  · rw [hs] at h
    exact key vs h (List.map_congr_left (fun v _ => updVal_eq f v))
  · rw [hs] at h
    refine key _ h ?_
    rw [List.map_map]
    exact List.map_congr_left (fun v _ => by simp [updVal_eq, mapVal_idem hf])

theorem Upd.valsOpt {f : Nat → Nat} {s n st P} (hinj : ∀ a b, a < n → b < n → f a = f b → a = b)
    (hf : ∀ a, f (f a) = f a) (hU : Upd f s n st P) (b : Option Nat) (hb : ∀ x, b = some x → x < n ∧ IsVals (s x)) :
    Upd f s n (updValsOpt f st (b.map f)) (fun x => P x ∨ b = some x) := by
  cases b with
  | none => simpa [updValsOpt] using hU
  | some b =>
    have := hU.vals hinj hf b (hb b rfl)
    exact this.weaken (fun x hx => by simpa [eq_comm] using hx)

/-- The addresses whose objects are updated together with the object at `a`. -/
def updates (s : Store) (a : Nat) (x : Nat) : Prop :=
  ((IsFrame (s a) ∨ IsStr (s a)) ∧ x = a) ∨ (∃ nx k, s a = .frame (some x) nx k)

theorem Upd.obj {f : Nat → Nat} {s n st P} (hinj : ∀ a b, a < n → b < n → f a = f b → a = b)
    (hf : ∀ a, f (f a) = f a) (ht : ∀ a, a < n → TypedObj s n (s a)) (hU : Upd f s n st P) (a : Nat) (ha : a < n) :
    Upd f s n (updObj f st (f a)) (fun x => P x ∨ updates s a x) := by
  have hT := ht a ha
  cases hs : s a with
  | frame b nx k =>
    rw [hs] at hT
    have hform : ∃ b' nx', st (f a) = .frame b' nx' k ∧ b'.map f = b.map f ∧ nx'.map f = nx.map f := by
      rcases hU.either a ha with h | h
      · exact ⟨b, nx, by rw [h, hs], rfl, rfl⟩
      · exact ⟨b.map f, nx.map f, by rw [h, hs]; rfl, opt_idem hf b, opt_idem hf nx⟩
    obtain ⟨b', nx', h1, h2, h3⟩ := hform
    have h4 := hU.valsOpt hinj hf b hT.1
    have h5 := h4.write hinj a ha (st' := updObj f st (f a))
      (by simp [updObj, h1, h2, h3, setObj, hs, mapObj]) (by intro x hx; simp [updObj, h1, h2, setObj, hx])
    exact h5.weaken (fun x hx => by
      rcases hx with hx | ⟨_, rfl⟩ | ⟨nx'', k', hx⟩
      · exact .inl (.inl hx)
      · exact .inr rfl
      · rw [hs] at hx; simp at hx; exact .inl (.inr hx.1))
  | str l d =>
    have hform : ∃ d', st (f a) = .str l d' ∧ d'.map f = d.map f := by
      rcases hU.either a ha with h | h
      · exact ⟨d, by rw [h, hs], rfl⟩
      · exact ⟨d.map f, by rw [h, hs]; rfl, opt_idem hf d⟩
    obtain ⟨d', h1, h2⟩ := hform
    have h5 := hU.write hinj a ha (st' := updObj f st (f a))
      (by simp [updObj, h1, h2, setObj, hs, mapObj]) (by intro x hx; simp [updObj, h1, setObj, hx])
    exact h5.weaken (fun x hx => by
      rcases hx with hx | ⟨_, rfl⟩ | ⟨nx'', k', hx⟩
      · exact .inl hx
      · exact .inr rfl
      · rw [hs] at hx; simp at hx)
  | vals vs =>
    have : updObj f st (f a) = st := by
      rcases hU.either a ha with h | h <;> rw [hs] at h <;> simp [updObj, h, mapObj]
    rw [this]
    exact hU.weaken (fun x hx => by
      rcases hx with hx | ⟨h, rfl⟩ | ⟨nx'', k', hx⟩
      · exact hx
      · simp [hs, IsFrame, IsStr] at h
      · rw [hs] at hx; simp at hx)
  | bytes d =>
    have : updObj f st (f a) = st := by
      rcases hU.either a ha with h | h <;> rw [hs] at h <;> simp [updObj, h, mapObj]
    rw [this]
    exact hU.weaken (fun x hx => by
      rcases hx with hx | ⟨h, rfl⟩ | ⟨nx'', k', hx⟩
      · exact hx
      · simp [hs, IsFrame, IsStr] at h
      · rw [hs] at hx; simp at hx)
  | leaf d =>
    have : updObj f st (f a) = st := by
      rcases hU.either a ha with h | h <;> rw [hs] at h <;> simp [updObj, h, mapObj]
    rw [this]
    exact hU.weaken (fun x hx => by
      rcases hx with hx | ⟨h, rfl⟩ | ⟨nx'', k', hx⟩
      · exact hx
      · simp [hs, IsFrame, IsStr] at h
      · rw [hs] at hx; simp at hx)

theorem Upd.visited {f : Nat → Nat} {s n} (hinj : ∀ a b, a < n → b < n → f a = f b → a = b)
    (hf : ∀ a, f (f a) = f a) (ht : ∀ a, a < n → TypedObj s n (s a)) : ∀ (vis : List Nat) {st P},
    Upd f s n st P → (∀ a ∈ vis, a < n) →
    Upd f s n (vis.foldl (fun s a => updObj f s (f a)) st) (fun x => P x ∨ ∃ a ∈ vis, updates s a x) := by
  intro vis
  induction vis with
  | nil => intro st P hU _; simpa using hU
  | cons a as ih =>
    intro st P hU hv
    have h1 := ih (hU.obj hinj hf ht a (hv a (by simp))) (fun b hb => hv b (by simp [hb]))
    exact h1.weaken (fun x hx => by
      rcases hx with hx | ⟨b, hb, hx⟩
      · exact .inl (.inl hx)
      · rcases List.mem_cons.1 hb with rfl | hb
        · exact .inl (.inr hx)
        · exact .inr ⟨b, hb, hx⟩)

theorem Upd.cont {f : Nat → Nat} {s n st P} (hinj : ∀ a b, a < n → b < n → f a = f b → a = b)
    (hf : ∀ a, f (f a) = f a) (hU : Upd f s n st P) (c : Cont) (hc : TypedCont s n c) :
    Upd f s n (updCont f st c).1 (fun x => P x ∨ c = .applyTo (some x)) ∧ (updCont f st c).2 = mapCont f c := by
  cases c
  case applyTo args =>
    refine ⟨?_, rfl⟩
    exact (hU.valsOpt hinj hf args hc).weaken (fun x hx => by simpa using hx)
  case fusedRight l e => exact ⟨hU.weaken (fun x hx => by simpa using hx), by simp [updCont, mapCont, updVal_eq]⟩
  all_goals exact ⟨hU.weaken (fun x hx => by simpa using hx), rfl⟩

theorem Upd.conts {f : Nat → Nat} {s n} (hinj : ∀ a b, a < n → b < n → f a = f b → a = b)
    (hf : ∀ a, f (f a) = f a) : ∀ (cs : List Cont) {st P}, Upd f s n st P → (∀ c ∈ cs, TypedCont s n c) →
    Upd f s n (updConts f st cs).1 (fun x => P x ∨ .applyTo (some x) ∈ cs) ∧ (updConts f st cs).2 = cs.map (mapCont f) := by
  intro cs
  induction cs with
  | nil => intro st P hU _; simpa [updConts] using hU
  | cons c cs ih =>
    intro st P hU hc
    obtain ⟨h1, h2⟩ := hU.cont hinj hf c (hc c (by simp))
    obtain ⟨h3, h4⟩ := ih h1 (fun c' hc' => hc c' (by simp [hc']))
    refine ⟨h3.weaken (fun x hx => ?_), by simp [updConts, h2, h4]⟩
    rcases hx with hx | hx
    · exact .inl (.inl hx)
    · rcases List.mem_cons.1 hx with hx | hx
      · exact .inl (.inr hx.symm)
      · exact .inr hx

theorem Upd.stacks {f : Nat → Nat} {s n} (hinj : ∀ a b, a < n → b < n → f a = f b → a = b)
    (hf : ∀ a, f (f a) = f a) : ∀ (cs : List (List Cont)) {st P}, Upd f s n st P → (∀ l ∈ cs, ∀ c ∈ l, TypedCont s n c) →
    Upd f s n (updStacks f st cs).1 (fun x => P x ∨ ∃ l ∈ cs, .applyTo (some x) ∈ l) ∧
    (updStacks f st cs).2 = cs.map (·.map (mapCont f)) := by
  intro cs
  induction cs with
  | nil => intro st P hU _; simpa [updStacks] using hU
  | cons c cs ih =>
    intro st P hU hc
    obtain ⟨h1, h2⟩ := hU.conts hinj hf c (hc c (by simp))
    obtain ⟨h3, h4⟩ := ih h1 (fun c' hc' => hc c' (by simp [hc']))
    refine ⟨h3.weaken (fun x hx => ?_), by simp [updStacks, h2, h4]⟩
    rcases hx with hx | ⟨l, hl, hx⟩
    · exact .inl (.inl hx)
    · rcases List.mem_cons.1 hl with rfl | hl
      · exact .inl (.inr hx)
      · exact .inr ⟨l, hl, hx⟩

theorem updConst_eq {s n v} (f : Nat → Nat) (hv : TypedConst s n v) : updConst f v = mapVal f v := by
  cases v <;> first | rfl | exact absurd hv id

theorem Upd.rootsPhase {f : Nat → Nat} {s n st P} {r : Roots} (hinj : ∀ a b, a < n → b < n → f a = f b → a = b)
    (hf : ∀ a, f (f a) = f a) (hT : Typed s n r) (hU : Upd f s n st P) :
    Upd f s n (updRoots f st r).1 (fun x => P x ∨ .applyTo (some x) ∈ r.stack ∨ ∃ l ∈ r.suspended, .applyTo (some x) ∈ l) ∧
    (updRoots f st r).2 = mapRoots f r := by
  obtain ⟨h1, h2⟩ := hU.conts hinj hf r.stack hT.stack
  obtain ⟨h3, h4⟩ := h1.stacks hinj hf r.suspended hT.suspended
  refine ⟨h3.weaken (fun x hx => ?_), ?_⟩
  · rcases hx with hx | hx | hx
    · exact .inl (.inl hx)
    · exact .inl (.inr hx)
    · exact .inr hx
  · have e1 : ∀ l : List Val, l.map (updVal f) = l.map (mapVal f) := fun l => List.map_congr_left (fun v _ => updVal_eq f v)
    have e2 : ∀ l : List Val, (∀ v ∈ l, TypedConst s n v) → l.map (updConst f) = l.map (mapVal f) :=
      fun l hl => List.map_congr_left (fun v hv => updConst_eq f (hl v hv))
    have e3 : r.strippedMeta.map (updVal f) = r.strippedMeta.map (mapVal f) := by
      cases r.strippedMeta <;> simp [updVal_eq]
    have e4 : r.bifFrames.map (fun b => (f b.1, b.2.map (updConst f))) = r.bifFrames.map (fun b => (f b.1, b.2.map (mapVal f))) :=
      List.map_congr_left (fun b hb => by rw [e2 _ (hT.bifs b hb).2])
    simp only [updRoots, mapRoots, h2, h4, e1, e2 _ hT.constants, e3, e4, updVal_eq]

end Verif.Gc
