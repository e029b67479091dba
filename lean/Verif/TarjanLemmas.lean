import Verif.TarjanModel

/-! Helper lemmas: the invariant of Tarjan's algorithm. -/

namespace Verif.Tarjan

variable {deps : Nat → List Nat}

theorem Reach.trans {a b c : Nat} (h : Reach deps a b) (h' : Reach deps b c) : Reach deps a c := by
  induction h with
  | refl => exact h'
  | step he _ ih => exact .step he (ih h')

theorem Reach.edge {a b : Nat} (h : b ∈ deps a) : Reach deps a b := .step h (.refl b)

theorem Reach.closed {S : Nat → Prop} (hS : ∀ x, S x → ∀ w ∈ deps x, S w) {a b : Nat} (h : Reach deps a b)
    (ha : S a) : S b := by
  induction h with
  | refl => exact ha
  | step he _ ih => exact ih (hS _ ha _ he)

theorem popTo_eq {v : Nat} {seg rest : List Nat} (h : v ∉ seg) :
    popTo v (seg ++ v :: rest) = some (seg ++ [v], rest) := by
  induction seg with
  | nil => simp [popTo]
  | cons w seg ih =>
    simp only [List.mem_cons, not_or] at h
    simp only [List.cons_append, popTo]
    rw [if_neg (Ne.symm h.1), ih h.2]
    rfl

def State.num (st : State) (x : Nat) : Nat := (st.index x).getD 0

def State.done (st : State) (x : Nat) : Prop := x ∈ st.sccs.flatten

/-- The invariant, `gray` being the nodes whose visit has begun and not ended. -/
structure Inv (deps : Nat → List Nat) (st : State) (gray : List Nat) : Prop where
  on : ∀ x, st.onStack x = true ↔ x ∈ st.stack
  visited : ∀ x, st.index x ≠ none ↔ x ∈ st.stack ∨ st.done x
  disj : ∀ x, x ∈ st.stack → ¬ st.done x
  nodup : st.sccs.flatten.Nodup
  sorted : st.stack.Pairwise fun a b => st.num b < st.num a
  below : ∀ x k, st.index x = some k → k < st.counter
  topo : ∀ (i : Nat) c, st.sccs[i]? = some c → ∀ x ∈ c, ∀ w ∈ deps x, w ∈ (st.sccs.take (i + 1)).flatten
  conn : ∀ c ∈ st.sccs, c ≠ [] ∧ ∀ x ∈ c, ∀ y ∈ c, Reach deps x y
  grays : ∀ g ∈ gray, g ∈ st.stack
  black : ∀ x ∈ st.stack, x ∉ gray → ∃ w ∈ st.stack, st.num w < st.num x ∧ Reach deps x w
  reaches : ∀ g ∈ gray, ∀ x ∈ st.stack, st.num g ≤ st.num x → Reach deps g x
  succs : ∀ x ∈ st.stack, x ∉ gray → ∀ w ∈ deps x, st.index w ≠ none

theorem Inv.done_closed {st : State} {gray : List Nat} (h : Inv deps st gray) (x : Nat) (hx : st.done x) (w : Nat)
    (hw : w ∈ deps x) : st.done w := by
  obtain ⟨c, hc, hxc⟩ := List.mem_flatten.mp hx
  obtain ⟨i, hi⟩ := List.mem_iff_getElem?.mp hc
  have := h.topo i c hi x hxc w hw
  obtain ⟨c', hc', hw'⟩ := List.mem_flatten.mp this
  exact List.mem_flatten.mpr ⟨c', List.mem_of_mem_take hc', hw'⟩

/-- Nothing changed for the nodes visited before. -/
structure Ext (st st' : State) : Prop where
  index : ∀ x, st.index x ≠ none → st'.index x = st.index x
  low : ∀ x, st.index x ≠ none → st'.low x = st.low x
  counter : st.counter ≤ st'.counter

theorem Ext.refl (st : State) : Ext st st := ⟨fun _ _ => rfl, fun _ _ => rfl, Nat.le_refl _⟩

theorem Ext.num {st st' : State} (h : Ext st st') {x : Nat} (hx : st.index x ≠ none) : st'.num x = st.num x := by
  unfold State.num
  rw [h.index x hx]

theorem Ext.visited {st st' : State} (h : Ext st st') {x : Nat} (hx : st.index x ≠ none) : st'.index x ≠ none := by
  rw [h.index x hx]; exact hx

/-- What the visit of `v` does. -/
structure Post (deps : Nat → List Nat) (v : Nat) (gray : List Nat) (st st' : State) : Prop where
  inv : Inv deps st' gray
  ext : Ext st st'
  vis : st'.index v ≠ none
  seg : ∃ seg, st'.stack = seg ++ st.stack ∧ ∀ x ∈ seg, ∀ w ∈ deps x, w ∈ st.stack → st'.low v ≤ st.num w
  low : st'.low v < st.counter → ∃ u ∈ st.stack, st.num u = st'.low v ∧ Reach deps v u

/-- In the middle of the visit of `v`, begun in state `st`; `ws` are the dependencies already seen. -/
structure Mid (deps : Nat → List Nat) (v : Nat) (gray : List Nat) (st : State) (ws : List Nat) (s : State) :
    Prop where
  inv : Inv deps s (v :: gray)
  index : ∀ x, st.index x ≠ none → s.index x = st.index x
  low' : ∀ x, st.index x ≠ none → s.low x = st.low x
  counter : st.counter < s.counter
  idx : s.index v = some st.counter
  seg : ∃ seg, s.stack = seg ++ v :: st.stack ∧ ∀ x ∈ seg, ∀ w ∈ deps x, w ∈ st.stack → s.low v ≤ st.num w
  le : s.low v ≤ st.counter
  low : s.low v < st.counter → ∃ u ∈ st.stack, st.num u = s.low v ∧ Reach deps v u
  seen : ∀ w ∈ ws, s.index w ≠ none ∧ (w ∈ st.stack → s.low v ≤ st.num w)

theorem Inv.onStack_visited {st : State} {gray : List Nat} (h : Inv deps st gray) {x : Nat} (hx : x ∈ st.stack) :
    st.index x ≠ none := (h.visited x).mpr (Or.inl hx)

theorem Inv.num_lt {st : State} {gray : List Nat} (h : Inv deps st gray) {x : Nat} (hx : x ∈ st.stack) :
    st.num x < st.counter := by
  have := h.onStack_visited hx
  cases hi : st.index x with
  | none => exact absurd hi this
  | some k => simp only [State.num, hi, Option.getD_some]; exact h.below x k hi

theorem enter_mid {v : Nat} {gray : List Nat} {st : State} (h : Inv deps st gray) (hv : st.index v = none)
    (hr : ∀ g ∈ gray, Reach deps g v) : Mid deps v gray st [] (enter v st) := by
  have hvs : v ∉ st.stack := fun hc => (h.onStack_visited hc) hv
  have hne : ∀ x, st.index x ≠ none → x ≠ v := fun x hx e => hx (e ▸ hv)
  have hidx : ∀ x, x ≠ v → (enter v st).index x = st.index x := fun x hx => by simp [enter, upd, hx]
  have hnum : ∀ x, x ≠ v → (enter v st).num x = st.num x := fun x hx => by simp [State.num, hidx x hx]
  have hnumv : (enter v st).num v = st.counter := by simp [State.num, enter, upd]
  have hst : ∀ x, x ∈ st.stack → x ≠ v := fun x hx => hne x (h.onStack_visited hx)
  refine ⟨?_, fun x hx => hidx x (hne x hx), fun x hx => by simp [enter, upd, hne x hx],
    by simp [enter], by simp [enter, upd], ⟨[], by simp [enter], by simp⟩, by simp [enter, upd],
    by simp [enter, upd], by simp⟩
  refine
    { on := ?_, visited := ?_, disj := ?_, nodup := h.nodup, sorted := ?_, below := ?_, topo := h.topo,
      conn := h.conn, grays := ?_, black := ?_, reaches := ?_, succs := ?_ }
  · intro x
    by_cases hx : x = v
    · subst hx; simp [enter, upd]
    · simp [enter, upd, hx, h.on]
  · intro x
    by_cases hx : x = v
    · subst hx; simp [enter, upd]
    · rw [hidx x hx, h.visited x]
      simp [enter, State.done, hx]
  · intro x hx hd
    rcases List.mem_cons.mp hx with rfl | hx
    · exact absurd hv ((h.visited x).mpr (Or.inr hd))
    · exact h.disj x hx hd
  · refine List.pairwise_cons.mpr ⟨?_, ?_⟩
    · intro b hb
      rw [hnumv, hnum b (hst b hb)]
      exact h.num_lt hb
    · refine List.Pairwise.imp_of_mem ?_ h.sorted
      intro a b ha hb hab
      rw [hnum a (hst a ha), hnum b (hst b hb)]
      exact hab
  · intro x k hk
    by_cases hx : x = v
    · subst hx
      have : (enter x st).index x = some st.counter := by simp [enter, upd]
      rw [this] at hk
      cases hk
      simp [enter]
    · rw [hidx x hx] at hk
      have := h.below x k hk
      simp [enter]; omega
  · intro g hg
    rcases List.mem_cons.mp hg with rfl | hg
    · simp [enter]
    · simp [enter, h.grays g hg]
  · intro x hx hg
    simp only [List.mem_cons, not_or] at hg
    have hx' : x ∈ st.stack := by simpa [enter, hg.1] using hx
    obtain ⟨w, hw, hlt, hrch⟩ := h.black x hx' hg.2
    refine ⟨w, by simp [enter, hw], ?_, hrch⟩
    rw [hnum w (hst w hw), hnum x hg.1]; exact hlt
  · intro g hg x hx hle
    by_cases hgv : g = v
    · subst hgv
      by_cases hxv : x = g
      · subst hxv; exact .refl _
      · have hx' : x ∈ st.stack := by simpa [enter, hxv] using hx
        rw [hnumv, hnum x hxv] at hle
        have := h.num_lt hx'
        omega
    · have hg' : g ∈ gray := by simpa [hgv] using hg
      by_cases hxv : x = v
      · subst hxv; exact hr g hg'
      · have hx' : x ∈ st.stack := by simpa [enter, hxv] using hx
        rw [hnum g hgv, hnum x hxv] at hle
        exact h.reaches g hg' x hx' hle
  · intro x hx hg w hw
    simp only [List.mem_cons, not_or] at hg
    have hx' : x ∈ st.stack := by simpa [enter, hg.1] using hx
    have := h.succs x hx' hg.2 w hw
    rw [hidx w (hne w this)]; exact this

/-- The invariant does not mention the low links. -/
theorem Inv.setLow {s : State} {gray : List Nat} (h : Inv deps s gray) (l : Nat → Nat) :
    Inv deps { s with low := l } gray :=
  { on := h.on, visited := h.visited, disj := h.disj, nodup := h.nodup, sorted := h.sorted, below := h.below,
    topo := h.topo, conn := h.conn, grays := h.grays, black := h.black, reaches := h.reaches, succs := h.succs }

theorem visit_mid {v : Nat} {gray : List Nat} {st : State} (hst : Inv deps st gray) (hv : st.index v = none)
    {sc : Nat → State → Option State} {ok : State → Prop}
    (hok : ∀ s s', ok s → (∀ x, s.index x ≠ none → s'.index x ≠ none) → ok s')
    (hsc : ∀ w s, w ∈ deps v → s.index w = none → ok s → Inv deps s (v :: gray) →
      (∀ g ∈ v :: gray, Reach deps g w) → ∃ s', sc w s = some s' ∧ Post deps w (v :: gray) s s') :
    ∀ (ws : List Nat) (pre : List Nat) (s : State), (∀ w ∈ ws, w ∈ deps v) → ok s → Mid deps v gray st pre s →
      ∃ s', visit sc v ws s = some s' ∧ Mid deps v gray st (pre ++ ws) s' := by
  intro ws
  induction ws with
  | nil => intro pre s _ _ h; exact ⟨s, rfl, by simpa using h⟩
  | cons w ws ih =>
    intro pre s hws hoks h
    have hwd : w ∈ deps v := hws w (List.mem_cons_self ..)
    have hvst : v ∈ s.stack := h.inv.grays v (List.mem_cons_self ..)
    have hnumv : s.num v = st.counter := by simp [State.num, h.idx]
    have hsv : s.index v ≠ none := by rw [h.idx]; simp
    have hnum : ∀ x, x ∈ st.stack → s.num x = st.num x := fun x hx => by
      simp [State.num, h.index x (hst.onStack_visited hx)]
    have hvne : ∀ x, st.index x ≠ none → x ≠ v := fun x hx e => hx (e ▸ hv)
    obtain ⟨seg, hseg, hlow⟩ := h.seg
    -- nodes of the old stack are exactly those below `v`
    have hbelow : ∀ u ∈ s.stack, s.num u < s.num v → u ∈ st.stack := by
      intro u hu hlt
      have hs := h.inv.sorted
      rw [hseg] at hu hs
      rcases List.mem_append.mp hu with hu | hu
      · have := (List.pairwise_append.mp hs).2.2 u hu v (List.mem_cons_self ..)
        omega
      · rcases List.mem_cons.mp hu with rfl | hu
        · omega
        · exact hu
    unfold visit
    cases hi : s.index w with
    | none =>
      dsimp only
      have hreach : ∀ g ∈ v :: gray, Reach deps g w := by
        intro g hg
        have : Reach deps g v := by
          refine h.inv.reaches g hg v hvst ?_
          rcases List.mem_cons.mp hg with rfl | hg'
          · exact Nat.le_refl _
          · have hgs := hst.grays g hg'
            rw [hnum g hgs, hnumv]
            exact Nat.le_of_lt (hst.num_lt hgs)
        exact this.trans (.edge hwd)
      obtain ⟨s1, hs1, hp⟩ := hsc w s hwd hi hoks h.inv hreach
      rw [hs1]
      dsimp only
      have hlv : s1.low v = s.low v := hp.ext.low v hsv
      have hmono : ∀ x, s.index x ≠ none → s1.index x = s.index x := hp.ext.index
      refine (ih (pre ++ [w]) { s1 with low := upd s1.low v (min (s1.low v) (s1.low w)) }
        (fun x hx => hws x (List.mem_cons_of_mem _ hx))
        (hok s _ hoks fun x hx => by
          show s1.index x ≠ none
          rw [hmono x hx]; exact hx) ?_).imp fun s' hs' => ⟨hs'.1, by simpa using hs'.2⟩
      obtain ⟨seg2, hseg2, hlow2⟩ := hp.seg
      have hnl : (min (s1.low v) (s1.low w)) ≤ s.low v := by rw [hlv]; exact Nat.min_le_left ..
      refine
        { inv := hp.inv.setLow _
          index := fun x hx => by
            show s1.index x = _
            rw [hmono x (by rw [h.index x hx]; exact hx), h.index x hx]
          low' := fun x hx => by
            show upd _ _ _ _ = _
            simp only [upd]
            rw [if_neg (hvne x hx), hp.ext.low x (by rw [h.index x hx]; exact hx), h.low' x hx]
          counter := Nat.lt_of_lt_of_le h.counter hp.ext.counter
          idx := by show s1.index v = _; rw [hmono v hsv, h.idx]
          seg := ⟨seg2 ++ seg, by show s1.stack = _; rw [hseg2, hseg]; simp, ?_⟩
          le := by show upd _ _ _ _ ≤ _; simp only [upd, if_true]; exact Nat.le_trans hnl h.le
          low := ?_
          seen := ?_ }
      · intro x hx y hy hys
        show upd _ _ _ _ ≤ _
        simp only [upd, if_true]
        rcases List.mem_append.mp hx with hx | hx
        · have hys' : y ∈ s.stack := by rw [hseg]; simp [hys]
          have := hlow2 x hx y hy hys'
          rw [hnum y hys] at this
          exact Nat.le_trans (Nat.min_le_right ..) this
        · exact Nat.le_trans hnl (hlow x hx y hy hys)
      · show upd _ _ _ _ < _ → ∃ u ∈ _, _ = upd _ _ _ _ ∧ _
        simp only [upd, if_true]
        intro hlt
        rw [hlv] at hlt ⊢
        by_cases hc : s.low v ≤ s1.low w
        · rw [Nat.min_eq_left hc] at hlt ⊢
          exact h.low hlt
        · rw [Nat.min_eq_right (by omega)] at hlt ⊢
          have hcnt := h.counter
          obtain ⟨u, hu, hun, hur⟩ := hp.low (by omega)
          have hus : u ∈ st.stack := hbelow u hu (by rw [hun, hnumv]; exact hlt)
          exact ⟨u, hus, by rw [← hnum u hus, hun], .step hwd hur⟩
      · intro y hy
        rcases List.mem_append.mp hy with hy | hy
        · have := h.seen y hy
          refine ⟨by show s1.index y ≠ none; rw [hmono y this.1]; exact this.1, fun hys => ?_⟩
          show upd _ _ _ _ ≤ _
          simp only [upd, if_true]
          exact Nat.le_trans hnl (this.2 hys)
        · have : y = w := by simpa using hy
          subst this
          refine ⟨hp.vis, fun hys => ?_⟩
          exact absurd hi (by rw [h.index y (hst.onStack_visited hys)]; exact hst.onStack_visited hys)
    | some iw =>
      dsimp only
      have hwn : s.num w = iw := by simp [State.num, hi]
      split
      · next hon =>
        have hws' : w ∈ s.stack := (h.inv.on w).mp hon
        refine (ih (pre ++ [w]) { s with low := upd s.low v (min (s.low v) iw) }
          (fun x hx => hws x (List.mem_cons_of_mem _ hx)) (hok s _ hoks fun x hx => hx) ?_).imp
            fun s' hs' => ⟨hs'.1, by simpa using hs'.2⟩
        have hnl : min (s.low v) iw ≤ s.low v := Nat.min_le_left ..
        refine
          { inv := h.inv.setLow _
            index := h.index
            low' := fun x hx => by
              show upd _ _ _ _ = _
              simp only [upd]
              rw [if_neg (hvne x hx), h.low' x hx]
            counter := h.counter
            idx := h.idx
            seg := ⟨seg, hseg, ?_⟩
            le := by show upd _ _ _ _ ≤ _; simp only [upd, if_true]; exact Nat.le_trans hnl h.le
            low := ?_
            seen := ?_ }
        · intro x hx y hy hys
          show upd _ _ _ _ ≤ _
          simp only [upd, if_true]
          exact Nat.le_trans hnl (hlow x hx y hy hys)
        · show upd _ _ _ _ < _ → ∃ u ∈ _, _ = upd _ _ _ _ ∧ _
          simp only [upd, if_true]
          intro hlt
          by_cases hc : s.low v ≤ iw
          · rw [Nat.min_eq_left hc] at hlt ⊢
            exact h.low hlt
          · rw [Nat.min_eq_right (by omega)] at hlt ⊢
            have hus : w ∈ st.stack := hbelow w hws' (by rw [hwn, hnumv]; exact hlt)
            exact ⟨w, hus, by rw [← hnum w hus, hwn], .edge hwd⟩
        · intro y hy
          show s.index y ≠ none ∧ (_ → upd _ _ _ _ ≤ _)
          simp only [upd, if_true]
          rcases List.mem_append.mp hy with hy | hy
          · have := h.seen y hy
            exact ⟨this.1, fun hys => Nat.le_trans hnl (this.2 hys)⟩
          · have : y = w := by simpa using hy
            subst this
            refine ⟨by rw [hi]; simp, fun hys => ?_⟩
            rw [← hnum y hys, hwn]
            exact Nat.min_le_right ..
      · next hon =>
        refine (ih (pre ++ [w]) s (fun x hx => hws x (List.mem_cons_of_mem _ hx)) hoks ?_).imp
            fun s' hs' => ⟨hs'.1, by simpa using hs'.2⟩
        refine { h with seen := ?_ }
        intro y hy
        rcases List.mem_append.mp hy with hy | hy
        · exact h.seen y hy
        · have : y = w := by simpa using hy
          subst this
          refine ⟨by rw [hi]; simp, fun hys => absurd ((h.inv.on y).mpr ?_) hon⟩
          rw [hseg]; simp [hys]

theorem leave_post {v : Nat} {gray : List Nat} {st s : State} (hst : Inv deps st gray) (hv : st.index v = none)
    (h : Mid deps v gray st (deps v) s) : ∃ s', leave v s = some s' ∧ Post deps v gray st s' := by
  have hnumv : s.num v = st.counter := by simp [State.num, h.idx]
  have hnum : ∀ x, x ∈ st.stack → s.num x = st.num x := fun x hx => by
    simp [State.num, h.index x (hst.onStack_visited hx)]
  obtain ⟨seg, hseg, hlow⟩ := h.seg
  have hvg : v ∉ gray := fun hc => (hst.onStack_visited (hst.grays v hc)) hv
  have hvst : v ∉ st.stack := fun hc => (hst.onStack_visited hc) hv
  have hsorted := h.inv.sorted
  rw [hseg] at hsorted
  have hsegnum : ∀ x ∈ seg, st.counter < s.num x := by
    intro x hx
    have := (List.pairwise_append.mp hsorted).2.2 x hx v (List.mem_cons_self ..)
    omega
  have hstnum : ∀ x ∈ st.stack, s.num x < st.counter := fun x hx => by
    rw [hnum x hx]; exact hst.num_lt hx
  have hvseg : v ∉ seg := fun hc => by have := hsegnum v hc; omega
  have hgseg : ∀ x ∈ seg, x ∉ gray := by
    intro x hx hg
    have h1 := hsegnum x hx
    have h2 := hstnum x (hst.grays x hg)
    omega
  have hmem : ∀ x, x ∈ s.stack ↔ x ∈ seg ∨ x = v ∨ x ∈ st.stack := by
    intro x; rw [hseg]; simp
  -- edges from the segment and `v`
  have hedge : ∀ x, x ∈ seg ∨ x = v → ∀ w ∈ deps x, s.index w ≠ none ∧ (w ∈ st.stack → s.low v ≤ st.num w) := by
    intro x hx w hw
    rcases hx with hx | rfl
    · refine ⟨h.inv.succs x ((hmem x).mpr (Or.inl hx)) ?_ w hw, hlow x hx w hw⟩
      simp only [List.mem_cons, not_or]
      exact ⟨fun e => hvseg (e ▸ hx), hgseg x hx⟩
    · exact h.seen w hw
  unfold leave
  rw [h.idx]
  by_cases hroot : s.low v = st.counter
  · -- a root: the segment is a component
    rw [if_pos (by rw [hroot]), hseg, popTo_eq hvseg]
    have hscc : ∀ x, x ∈ seg ++ [v] ↔ x ∈ seg ∨ x = v := by intro x; simp
    -- what is reachable from the segment
    have hcl : ∀ x, (x ∈ seg ∨ x = v ∨ s.done x) → ∀ w ∈ deps x, (w ∈ seg ∨ w = v ∨ s.done w) := by
      intro x hx w hw
      have hcase : (x ∈ seg ∨ x = v) ∨ s.done x := by grind
      rcases hcase with hx | hx
      · obtain ⟨h1, h2⟩ := hedge x hx w hw
        rcases (h.inv.visited w).mp h1 with hs | hd
        · rcases (hmem w).mp hs with h3 | h3 | h3
          · exact Or.inl h3
          · exact Or.inr (Or.inl h3)
          · have := h2 h3
            have := hst.num_lt h3
            omega
        · exact Or.inr (Or.inr hd)
      · exact Or.inr (Or.inr (h.inv.done_closed x hx w hw))
    -- all reach `v`
    have hto : ∀ k x, s.num x ≤ k → x ∈ seg → Reach deps x v := by
      intro k
      induction k with
      | zero => intro x hk hx; have := hsegnum x hx; omega
      | succ k ih =>
        intro x hk hx
        obtain ⟨w, hw, hlt, hr⟩ := h.inv.black x ((hmem x).mpr (Or.inl hx)) (by
          simp only [List.mem_cons, not_or]
          exact ⟨fun e => hvseg (e ▸ hx), hgseg x hx⟩)
        have hw' := hr.closed (S := fun x => x ∈ seg ∨ x = v ∨ s.done x) hcl (Or.inl hx)
        rcases hw' with hw' | hw' | hw'
        · exact hr.trans (ih w (by omega) hw')
        · exact hw' ▸ hr
        · exact absurd hw' (h.inv.disj w hw)
    have hfrom : ∀ x, x ∈ seg ∨ x = v → Reach deps v x := by
      intro x hx
      refine h.inv.reaches v (List.mem_cons_self ..) x ((hmem x).mpr (by grind)) ?_
      rcases hx with hx | rfl
      · have := hsegnum x hx; omega
      · exact Nat.le_refl _
    have hto' : ∀ x, x ∈ seg ∨ x = v → Reach deps x v := by
      intro x hx
      rcases hx with hx | rfl
      · exact hto _ x (Nat.le_refl _) hx
      · exact .refl _
    refine ⟨_, rfl, ?_⟩
    refine
      { inv := ?_
        ext := ⟨fun x hx => h.index x hx, fun x hx => h.low' x hx, Nat.le_of_lt h.counter⟩
        vis := by show s.index v ≠ none; rw [h.idx]; simp
        seg := ⟨[], rfl, by simp⟩
        low := fun hlt => by
          have : s.low v < st.counter := hlt
          omega }
    have hdone : ∀ x, x ∈ (s.sccs ++ [seg ++ [v]]).flatten ↔ s.done x ∨ x ∈ seg ∨ x = v := by
      intro x; simp [State.done]
    refine
      { on := ?_, visited := ?_, disj := ?_, nodup := ?_, sorted := ?_, below := h.inv.below, topo := ?_,
        conn := ?_, grays := hst.grays, black := ?_, reaches := ?_, succs := ?_ }
    · intro x
      show (s.onStack x && !(seg ++ [v]).contains x) = true ↔ x ∈ st.stack
      simp only [Bool.and_eq_true, Bool.not_eq_true', h.inv.on, hmem, List.contains_eq_mem, decide_eq_false_iff_not,
        hscc]
      constructor
      · rintro ⟨h1 | h1 | h1, h2⟩
        · exact absurd (Or.inl h1) h2
        · exact absurd (Or.inr h1) h2
        · exact h1
      · intro hx
        refine ⟨Or.inr (Or.inr hx), ?_⟩
        rintro (h1 | h1)
        · have := hsegnum x h1
          have := hstnum x hx
          omega
        · exact hvst (h1 ▸ hx)
    · intro x
      show s.index x ≠ none ↔ x ∈ st.stack ∨ x ∈ (s.sccs ++ [seg ++ [v]]).flatten
      rw [h.inv.visited x, hmem, hdone]
      grind
    · intro x hx hd
      have hd' := (hdone x).mp hd
      rcases hd' with hd' | hd' | hd'
      · exact h.inv.disj x ((hmem x).mpr (Or.inr (Or.inr hx))) hd'
      · have := hsegnum x hd'
        have := hstnum x hx
        omega
      · exact hvst (hd' ▸ hx)
    · show (s.sccs ++ [seg ++ [v]]).flatten.Nodup
      simp only [List.flatten_append, List.flatten_cons, List.flatten_nil, List.append_nil]
      rw [List.nodup_append]
      refine ⟨h.inv.nodup, ?_, ?_⟩
      · rw [List.nodup_append]
        refine ⟨?_, by simp, ?_⟩
        · exact List.Pairwise.imp (fun {a b} (hab : s.num b < s.num a) => fun e => by subst e; omega)
            (List.pairwise_append.mp hsorted).1
        · intro a ha b hb e
          have : b = v := by simpa using hb
          exact hvseg (this ▸ e ▸ ha)
      · intro a ha b hb e
        subst e
        exact h.inv.disj a ((hmem a).mpr (by have := (hscc a).mp hb; grind)) ha
    · refine List.Pairwise.imp_of_mem ?_ hst.sorted
      intro a b ha hb hab
      show s.num b < s.num a
      rw [hnum a ha, hnum b hb]; exact hab
    · intro i c hc x hx w hw
      replace hc : (s.sccs ++ [seg ++ [v]])[i]? = some c := hc
      show w ∈ ((s.sccs ++ [seg ++ [v]]).take (i + 1)).flatten
      by_cases hi : i < s.sccs.length
      · rw [List.getElem?_append_left hi] at hc
        rw [List.take_append_of_le_length (by omega)]
        exact h.inv.topo i c hc x hx w hw
      · rw [List.getElem?_append_right (by omega)] at hc
        have hi' : i - s.sccs.length = 0 := by
          rcases Nat.eq_zero_or_pos (i - s.sccs.length) with h0 | h0
          · exact h0
          · rw [List.getElem?_eq_none (by simp; omega)] at hc; cases hc
        rw [hi'] at hc
        simp only [List.getElem?_cons_zero, Option.some.injEq] at hc
        subst hc
        rw [List.take_of_length_le (by simp; omega), hdone]
        have := hcl x (by have := (hscc x).mp hx; grind) w hw
        grind
    · intro c hc
      replace hc : c ∈ s.sccs ++ [seg ++ [v]] := hc
      rcases List.mem_append.mp hc with hc | hc
      · exact h.inv.conn c hc
      · have : c = seg ++ [v] := by simpa using hc
        subst this
        refine ⟨by simp, fun x hx y hy => ?_⟩
        exact (hto' x ((hscc x).mp hx)).trans (hfrom y ((hscc y).mp hy))
    · intro x hx hg
      obtain ⟨w, hw, hlt, hr⟩ := hst.black x hx hg
      refine ⟨w, hw, ?_, hr⟩
      show s.num w < s.num x
      rw [hnum w hw, hnum x hx]; exact hlt
    · intro g hg x hx hle
      replace hle : s.num g ≤ s.num x := hle
      rw [hnum g (hst.grays g hg), hnum x hx] at hle
      exact hst.reaches g hg x hx hle
    · intro x hx hg w hw
      have := hst.succs x hx hg w hw
      show s.index w ≠ none
      rw [h.index w this]; exact this
  · -- not a root: `v` stays on the stack
    rw [if_neg (by intro e; exact hroot (by injection e))]
    have hlt : s.low v < st.counter := by have := h.le; omega
    refine ⟨s, rfl, ?_⟩
    obtain ⟨u, hu, hun, hur⟩ := h.low hlt
    refine
      { inv := ?_
        ext := ⟨h.index, h.low', Nat.le_of_lt h.counter⟩
        vis := by rw [h.idx]; simp
        seg := ⟨seg ++ [v], by rw [hseg]; simp, ?_⟩
        low := fun _ => ⟨u, hu, hun, hur⟩ }
    · refine { h.inv with grays := ?_, black := ?_, reaches := ?_, succs := ?_ }
      · exact fun g hg => h.inv.grays g (List.mem_cons_of_mem _ hg)
      · intro x hx hg
        by_cases hxv : x = v
        · subst hxv
          exact ⟨u, (hmem u).mpr (Or.inr (Or.inr hu)), by rw [hnum u hu, hun, hnumv]; exact hlt, hur⟩
        · exact h.inv.black x hx (by simp [hxv, hg])
      · exact fun g hg => h.inv.reaches g (List.mem_cons_of_mem _ hg)
      · intro x hx hg w hw
        by_cases hxv : x = v
        · subst hxv; exact (h.seen w hw).1
        · exact h.inv.succs x hx (by simp [hxv, hg]) w hw
    · intro x hx w hw hws
      rcases List.mem_append.mp hx with hx | hx
      · exact hlow x hx w hw hws
      · have : x = v := by simpa using hx
        subst this
        exact (h.seen w hw).2 hws

/-- The number of nodes not visited. -/
def unvisited (n : Nat) (st : State) : Nat := (List.range n).countP fun x => (st.index x).isNone

theorem unvisited_mono {n : Nat} {s s' : State} (h : ∀ x, s.index x ≠ none → s'.index x ≠ none) :
    unvisited n s' ≤ unvisited n s := by
  unfold unvisited
  refine List.countP_mono_left fun x _ hx => ?_
  simp only [Option.isNone_iff_eq_none] at hx ⊢
  cases hs : s.index x with
  | none => rfl
  | some k => exact absurd hx (h x (by rw [hs]; simp))

theorem countP_lt {α : Type} {p q : α → Bool} {l : List α} (h : ∀ x ∈ l, q x = true → p x = true) {a : α}
    (ha : a ∈ l) (hp : p a = true) (hq : q a = false) : l.countP q < l.countP p := by
  induction l with
  | nil => cases ha
  | cons x l ih =>
    have hm := List.countP_mono_left fun y hy => h y (List.mem_cons_of_mem _ hy)
    rcases List.mem_cons.mp ha with rfl | ha
    · rw [List.countP_cons_of_pos hp, List.countP_cons_of_neg (by simp [hq])]
      omega
    · have := ih (fun y hy => h y (List.mem_cons_of_mem _ hy)) ha
      by_cases hx : q x = true
      · rw [List.countP_cons_of_pos hx, List.countP_cons_of_pos (h x (List.mem_cons_self ..) hx)]
        omega
      · rw [List.countP_cons_of_neg hx]
        have : l.countP p ≤ (x :: l).countP p := by
          rw [List.countP_cons]; omega
        omega

theorem unvisited_enter {n v : Nat} {st : State} (hv : st.index v = none) (hn : v < n) :
    unvisited n (enter v st) < unvisited n st := by
  unfold unvisited
  refine countP_lt (a := v) ?_ (List.mem_range.mpr hn) (by simp [hv]) (by simp [enter, upd])
  intro x _ hx
  simp only [enter, upd] at hx
  split at hx
  · simp at hx
  · exact hx

theorem strongconnect_post {n : Nat} (hdeps : ∀ v, v < n → ∀ w ∈ deps v, w < n) (fuel : Nat) :
    ∀ (v : Nat) (gray : List Nat) (st : State), v < n → unvisited n st ≤ fuel → Inv deps st gray →
      st.index v = none → (∀ g ∈ gray, Reach deps g v) →
      ∃ st', strongconnect deps fuel v st = some st' ∧ Post deps v gray st st' := by
  induction fuel with
  | zero =>
    intro v gray st hn hu _ hv _
    have := unvisited_enter hv hn
    omega
  | succ fuel ih =>
    intro v gray st hn hu h hv hr
    have hmid := enter_mid h hv hr
    obtain ⟨s, hs, hm⟩ := visit_mid h hv (sc := strongconnect deps fuel) (ok := fun s => unvisited n s ≤ fuel)
      (fun s s' hs hmono => Nat.le_trans (unvisited_mono hmono) hs)
      (fun w s hw hi hok hinv hreach => ih w (v :: gray) s (hdeps v hn w hw) hok hinv hi hreach)
      (deps v) [] (enter v st) (fun w hw => hw) (by have := unvisited_enter hv hn; omega) hmid
    rw [List.nil_append] at hm
    obtain ⟨s', hs', hp⟩ := leave_post h hv hm
    refine ⟨s', ?_, hp⟩
    simp only [strongconnect, hs, hs']

theorem Inv.stack_empty {st : State} (h : Inv deps st []) : st.stack = [] := by
  have : ∀ k x, st.num x ≤ k → x ∉ st.stack := by
    intro k
    induction k with
    | zero =>
      intro x hk hx
      obtain ⟨w, _, hlt, _⟩ := h.black x hx (by simp)
      omega
    | succ k ih =>
      intro x hk hx
      obtain ⟨w, hw, hlt, _⟩ := h.black x hx (by simp)
      exact ih w (by omega) hw
  cases hs : st.stack with
  | nil => rfl
  | cons x xs => exact absurd (hs ▸ List.mem_cons_self ..) (this _ x (Nat.le_refl _))

theorem roots_post {n : Nat} (hdeps : ∀ v, v < n → ∀ w ∈ deps v, w < n) :
    ∀ (vs : List Nat) (st : State), (∀ v ∈ vs, v < n) → Inv deps st [] →
      ∃ st', roots deps n vs st = some st' ∧ Inv deps st' [] ∧
        (∀ v ∈ vs, st'.index v ≠ none) ∧ ∀ x, st.index x ≠ none → st'.index x ≠ none := by
  intro vs
  induction vs with
  | nil => intro st _ h; exact ⟨st, rfl, h, by simp, fun _ h => h⟩
  | cons v vs ih =>
    intro st hvs h
    unfold roots
    cases hv : st.index v with
    | none =>
      simp only [Option.isNone_none, if_true]
      have hle : unvisited n st ≤ n := by
        unfold unvisited
        exact Nat.le_trans List.countP_le_length (by simp)
      obtain ⟨s, hs, hp⟩ := strongconnect_post hdeps n v [] st (hvs v (List.mem_cons_self ..)) hle h hv (by simp)
      rw [hs]
      obtain ⟨s', hs', hinv, hall, hmono⟩ := ih s (fun w hw => hvs w (List.mem_cons_of_mem _ hw)) hp.inv
      refine ⟨s', hs', hinv, ?_, fun x hx => hmono x (hp.ext.visited hx)⟩
      intro w hw
      rcases List.mem_cons.mp hw with rfl | hw
      · exact hmono w hp.vis
      · exact hall w hw
    | some k =>
      simp only [Option.isNone_some, Bool.false_eq_true, if_false]
      obtain ⟨s', hs', hinv, hall, hmono⟩ := ih st (fun w hw => hvs w (List.mem_cons_of_mem _ hw)) h
      refine ⟨s', hs', hinv, ?_, hmono⟩
      intro w hw
      rcases List.mem_cons.mp hw with rfl | hw
      · exact hmono w (by rw [hv]; simp)
      · exact hall w hw

/-- Only nodes below `n` are visited. -/
def Small (n : Nat) (st : State) : Prop := ∀ x, st.index x ≠ none → x < n

theorem visit_small {n : Nat} {v : Nat} {sc : Nat → State → Option State}
    (hsc : ∀ w s s', w < n → Small n s → sc w s = some s' → Small n s') :
    ∀ (ws : List Nat) (s s' : State), (∀ w ∈ ws, w < n) → Small n s → visit sc v ws s = some s' → Small n s' := by
  intro ws
  induction ws with
  | nil => intro s s' _ h he; simp only [visit, Option.some.injEq] at he; exact he ▸ h
  | cons w ws ih =>
    intro s s' hws h he
    have hw := hws w (List.mem_cons_self ..)
    have hws' := fun x hx => hws x (List.mem_cons_of_mem _ hx)
    unfold visit at he
    cases hi : s.index w with
    | none =>
      simp only [hi] at he
      cases hs : sc w s with
      | none => rw [hs] at he; cases he
      | some s1 =>
        rw [hs] at he
        refine ih _ s' hws' ?_ he
        exact hsc w s s1 hw h hs
    | some k =>
      simp only [hi] at he
      split at he
      · refine ih _ s' hws' ?_ he
        exact h
      · exact ih s s' hws' h he

theorem strongconnect_small {n : Nat} (hdeps : ∀ v, v < n → ∀ w ∈ deps v, w < n) (fuel : Nat) :
    ∀ (v : Nat) (s s' : State), v < n → Small n s → strongconnect deps fuel v s = some s' → Small n s' := by
  induction fuel with
  | zero => intro v s s' _ _ he; cases he
  | succ fuel ih =>
    intro v s s' hv h he
    unfold strongconnect at he
    have hent : Small n (enter v s) := by
      intro x hx
      simp only [enter, upd] at hx
      split at hx
      · next e => exact e ▸ hv
      · exact h x hx
    cases hvis : visit (strongconnect deps fuel) v (deps v) (enter v s) with
    | none => rw [hvis] at he; cases he
    | some s1 =>
      rw [hvis] at he
      have h1 := visit_small ih (deps v) (enter v s) s1 (hdeps v hv) hent hvis
      simp only [leave] at he
      split at he
      · cases hp : popTo v s1.stack with
        | none => rw [hp] at he; cases he
        | some p => rw [hp] at he; cases he; exact h1
      · cases he; exact h1

theorem roots_small {n : Nat} (hdeps : ∀ v, v < n → ∀ w ∈ deps v, w < n) :
    ∀ (vs : List Nat) (s s' : State), (∀ v ∈ vs, v < n) → Small n s → roots deps n vs s = some s' → Small n s' := by
  intro vs
  induction vs with
  | nil => intro s s' _ h he; simp only [roots, Option.some.injEq] at he; exact he ▸ h
  | cons v vs ih =>
    intro s s' hvs h he
    have hvs' := fun x hx => hvs x (List.mem_cons_of_mem _ hx)
    unfold roots at he
    split at he
    · cases hs : strongconnect deps n v s with
      | none => rw [hs] at he; cases he
      | some s1 =>
        rw [hs] at he
        exact ih s1 s' hvs' (strongconnect_small hdeps n v s s1 (hvs v (List.mem_cons_self ..)) h hs) he
    · exact ih s s' hvs' h he

end Verif.Tarjan
