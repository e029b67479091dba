import Verif.EnvModel

/-!
# Local variables read back the value they were bound to (C15)

The specification is `slots`: the storage locations of a chain of frames, laid end to end.
-/

namespace Verif.Env
variable {C : Type}

/-! ## Specification -/

/-- A storage location: a cell of an array. -/
abbrev Loc := Nat × Nat

/-- The locations a frame exposes: the selected ones, or all. -/
def Frame.slots (f : Frame) : List Loc :=
  if f.remap = [] then (List.range f.bindings.len).map (f.bindings.id, ·) else f.remap.map (f.bindings.id, ·)

/-- The locations of a chain, end to end. -/
def slots (ch : Chain) : List Loc := ch.flatMap Frame.slots

/-- The content of a location. -/
def read (σ : Store C) (l : Loc) : Option C := (σ[l.1]?).bind (·[l.2]?)

/-- The frame's array is allocated and its table stays in it. -/
def Frame.Wf (σ : Store C) (f : Frame) : Prop :=
  (∃ cells, σ[f.bindings.id]? = some cells ∧ f.bindings.len ≤ cells.length) ∧ ∀ p ∈ f.remap, p < f.bindings.len

/-- All the frames are so. -/
def Wf (σ : Store C) (ch : Chain) : Prop := ∀ f ∈ ch, f.Wf σ

/-! ## Lookup -/

theorem slots_cons (f : Frame) (ch : Chain) : slots (f :: ch) = f.slots ++ slots ch := by simp [slots]

theorem frame_slots_length (f : Frame) : f.slots.length = f.logicalLen := by
  unfold Frame.slots Frame.logicalLen
  by_cases h : f.remap = []
  · simp [h]
  · have : f.remap.length > 0 := List.length_pos_iff.2 h
    simp [h, this]

theorem frame_slots_get (f : Frame) (i : Nat) (h : i < f.logicalLen) : f.slots[i]? = some (f.bindings.id, f.physicalIndex i) := by
  unfold Frame.logicalLen at h
  unfold Frame.slots Frame.physicalIndex
  by_cases h0 : f.remap = []
  · simp [h0] at h
    simp [h0, h]
  · have h1 : f.remap.length > 0 := List.length_pos_iff.2 h0
    rw [if_pos h1] at h
    rw [if_neg h0, if_pos h1]
    simp [h]

/-- Walking the chain finds the location. -/
theorem cell_spec (ch : Chain) (i : Nat) : (cell ch i).map (fun p => (p.1.id, p.2)) = (slots ch)[i]? := by
  induction ch generalizing i with
  | nil => rfl
  | cons f ch ih =>
    rw [slots_cons, cell]
    by_cases h : i < f.logicalLen
    · rw [if_pos h, List.getElem?_append_left (by rw [frame_slots_length]; exact h), frame_slots_get f i h]
      rfl
    · rw [if_neg h, List.getElem?_append_right (by rw [frame_slots_length]; omega), frame_slots_length, ih]

/-- The index found is within the array. -/
theorem cell_in {σ : Store C} {ch : Chain} (hw : Wf σ ch) {i : Nat} {a : Arr} {p : Nat} (h : cell ch i = some (a, p)) :
    p < a.len ∧ ∃ cells, σ[a.id]? = some cells ∧ a.len ≤ cells.length := by
  induction ch generalizing i with
  | nil => simp [cell] at h
  | cons f ch ih =>
    rw [cell] at h
    have hf := hw f (by simp)
    by_cases hi : i < f.logicalLen
    · rw [if_pos hi] at h
      simp only [Option.some.injEq, Prod.mk.injEq] at h
      obtain ⟨rfl, rfl⟩ := h
      refine ⟨?_, hf.1⟩
      unfold Frame.logicalLen at hi
      unfold Frame.physicalIndex
      by_cases h0 : f.remap.length > 0
      · rw [if_pos h0] at hi ⊢
        rw [List.getElem?_eq_getElem hi]
        exact hf.2 _ (List.getElem_mem hi)
      · rw [if_neg h0] at hi ⊢; exact hi
    · rw [if_neg hi] at h
      exact ih (fun f hm => hw f (by simp [hm])) h

/-- **C15, lookup.**  Variable `i` is the content of the `i`-th location of the frames laid end to end. -/
theorem get_spec (σ : Store C) (ch : Chain) (hw : Wf σ ch) (i : Nat) : get σ ch i = (slots ch)[i]?.bind (read σ) := by
  rw [← cell_spec, get]
  cases h : cell ch i with
  | none => rfl
  | some r =>
    obtain ⟨a, p⟩ := r
    obtain ⟨h1, _⟩ := cell_in hw h
    simp [Arr.get, h1, read]

/-- **C15, lookup succeeds** for exactly the indices in the chain. -/
theorem get_isSome (σ : Store C) (ch : Chain) (hw : Wf σ ch) (i : Nat) : (get σ ch i).isSome = decide (i < (slots ch).length) := by
  rw [get]
  have hs := cell_spec ch i
  cases h : cell ch i with
  | none =>
    rw [h] at hs
    have : (slots ch)[i]? = none := hs.symm
    have := List.getElem?_eq_none_iff.1 this
    simp; omega
  | some r =>
    obtain ⟨a, p⟩ := r
    obtain ⟨h1, cells, h2, h3⟩ := cell_in hw h
    rw [h] at hs
    have hlt := (List.getElem?_eq_some_iff.1 hs.symm).1
    simp [Arr.get, h1, h2, hlt]
    omega

/-! ## Update -/

theorem read_modify (σ : Store C) (l : Loc) (v : C) (h : (read σ l).isSome) (l' : Loc) :
    read (σ.modify l.1 (·.set l.2 v)) l' = if l' = l then some v else read σ l' := by
  obtain ⟨a, p⟩ := l
  obtain ⟨a', p'⟩ := l'
  unfold read at *
  simp only at *
  rw [List.getElem?_modify]
  cases ha : σ[a]? with
  | none => simp [ha] at h
  | some cells =>
    simp only [ha, Option.bind_some] at h
    have hp : p < cells.length := by
      rcases Nat.lt_or_ge p cells.length with h' | h'
      · exact h'
      · rw [List.getElem?_eq_none h'] at h; simp at h
    by_cases e1 : a = a'
    · subst e1
      simp only [ha, if_true, Option.map_eq_map, Option.map_some, Option.bind_some, Prod.mk.injEq, true_and]
      by_cases e2 : p = p'
      · subst e2; simp [hp]
      · rw [List.getElem?_set_ne e2, if_neg (fun h => e2 h.symm)]
    · rw [if_neg (show ¬ (a', p') = (a, p) by simp; intro h; exact absurd h.symm e1)]
      simp [e1]

/-- A modified store has the same shape. -/
theorem wf_modify {σ : Store C} {ch : Chain} (hw : Wf σ ch) (a p : Nat) (v : C) : Wf (σ.modify a (·.set p v)) ch := by
  intro f hf
  obtain ⟨⟨cells, h1, h2⟩, h3⟩ := hw f hf
  refine ⟨?_, h3⟩
  rw [List.getElem?_modify, h1]
  by_cases e : a = f.bindings.id
  · exact ⟨cells.set p v, by simp [e], by simpa using h2⟩
  · exact ⟨cells, by simp [e], h2⟩

/-- **C15, update succeeds** for exactly the indices in the chain. -/
theorem update_isSome (σ : Store C) (ch : Chain) (hw : Wf σ ch) (i : Nat) (v : C) :
    (update σ ch i v).isSome = decide (i < (slots ch).length) := by
  rw [update]
  have hs := cell_spec ch i
  cases h : cell ch i with
  | none =>
    rw [h] at hs
    have := List.getElem?_eq_none_iff.1 hs.symm
    simp; omega
  | some r =>
    obtain ⟨a, p⟩ := r
    obtain ⟨h1, _⟩ := cell_in hw h
    rw [h] at hs
    have hlt := (List.getElem?_eq_some_iff.1 hs.symm).1
    simp [Arr.set, h1, hlt]

/-- **C15, update.**  Updating variable `i` of a chain is seen at exactly the variables, of this and of every other chain,
that denote the same location; everything else is unchanged. -/
theorem update_spec (σ σ' : Store C) (ch : Chain) (hw : Wf σ ch) (i : Nat) (v : C) (h : update σ ch i v = some σ')
    (ch' : Chain) (hw' : Wf σ ch') (j : Nat) :
    Wf σ' ch' ∧ get σ' ch' j = if (slots ch')[j]? = (slots ch)[i]? then some v else get σ ch' j := by
  rw [update] at h
  have hs := cell_spec ch i
  cases hc : cell ch i with
  | none => rw [hc] at h; simp at h
  | some r =>
    obtain ⟨a, p⟩ := r
    obtain ⟨h1, cells, h2, h3⟩ := cell_in hw hc
    rw [hc] at h hs
    simp only [Option.map_some] at hs
    simp only [Arr.set, show ¬ (p ≥ a.len) by omega, if_false, Option.some.injEq] at h
    subst h
    have hw2 := wf_modify hw' a.id p v
    refine ⟨hw2, ?_⟩
    rw [get_spec _ _ hw2, get_spec _ _ hw', ← hs]
    have hr : (read σ (a.id, p)).isSome := by
      simp [read, h2]; omega
    cases hl : (slots ch')[j]? with
    | none => simp
    | some l' =>
      have := read_modify σ (a.id, p) v hr l'
      simp only at this
      simp only [Option.bind_some, this, Option.some.injEq]

/-! ## Building environments -/

theorem read_alloc (σ : Store C) (vs : List C) (l : Loc) :
    read (allocArray σ vs).1 l = if l.1 = σ.length then vs[l.2]? else read σ l := by
  obtain ⟨a, p⟩ := l
  unfold read allocArray
  simp only
  by_cases h : a = σ.length
  · subst h; simp
  · rw [if_neg h]
    rcases Nat.lt_or_ge a σ.length with h' | h'
    · rw [List.getElem?_append_left h']
    · rw [List.getElem?_eq_none (by simp; omega), List.getElem?_eq_none h']

theorem wf_alloc {σ : Store C} {ch : Chain} (hw : Wf σ ch) (vs : List C) : Wf (allocArray σ vs).1 ch := by
  intro f hf
  obtain ⟨⟨cells, h1, h2⟩, h3⟩ := hw f hf
  exact ⟨⟨cells, by
    unfold allocArray
    rw [List.getElem?_append_left (List.getElem?_eq_some_iff.1 h1).1]; exact h1, h2⟩, h3⟩

/-- Locations of existing chains are allocated. -/
theorem slots_lt {σ : Store C} {ch : Chain} (hw : Wf σ ch) : ∀ l ∈ slots ch, l.1 < σ.length := by
  intro l hl
  simp only [slots, List.mem_flatMap] at hl
  obtain ⟨f, hf, hl⟩ := hl
  obtain ⟨⟨cells, h1, _⟩, _⟩ := hw f hf
  have hlt := (List.getElem?_eq_some_iff.1 h1).1
  unfold Frame.slots at hl
  split at hl
  · simp only [List.mem_map] at hl; obtain ⟨_, _, rfl⟩ := hl; exact hlt
  · simp only [List.mem_map] at hl; obtain ⟨_, _, rfl⟩ := hl; exact hlt

/-- Existing chains are not affected by allocation. -/
theorem get_alloc {σ : Store C} {ch : Chain} (hw : Wf σ ch) (vs : List C) (i : Nat) : get (allocArray σ vs).1 ch i = get σ ch i := by
  rw [get_spec _ _ (wf_alloc hw vs), get_spec _ _ hw]
  cases h : (slots ch)[i]? with
  | none => rfl
  | some l =>
    have := slots_lt hw l (List.mem_of_getElem? h)
    simp only [Option.bind_some, read_alloc]
    rw [if_neg (by omega)]

/-- A frame over a fresh array. -/
theorem fresh_frame (σ : Store C) (vs : List C) (ann : Nat) (next : Chain) (hw : Wf σ next) :
    let r := saturate σ vs ann next
    Wf r.1 r.2 ∧ (∀ i, get r.1 r.2 i = if i < vs.length then vs[i]? else get σ next (i - vs.length)) := by
  have hw' : Wf (saturate σ vs ann next).1 (saturate σ vs ann next).2 := by
    intro f hf
    rcases List.mem_cons.1 hf with rfl | hf
    · exact ⟨⟨vs, by simp [saturate, allocArray, Frame.new], by simp [saturate, allocArray, Frame.new]⟩, by simp [Frame.new]⟩
    · exact wf_alloc hw vs f hf
  refine ⟨hw', fun i => ?_⟩
  have hsl : slots (saturate σ vs ann next).2 = (List.range vs.length).map (σ.length, ·) ++ slots next := by
    simp [saturate, allocArray, slots_cons, Frame.new, Frame.slots]
  rw [get_spec _ _ hw', hsl]
  by_cases h : i < vs.length
  · rw [if_pos h, List.getElem?_append_left (by simpa using h)]
    simp only [List.getElem?_map, List.getElem?_range h, Option.map_some, Option.bind_some]
    exact (read_alloc σ vs (σ.length, i)).trans (by simp)
  · rw [if_neg h, List.getElem?_append_right (by simpa using h), ← get_alloc hw vs, get_spec _ _ (wf_alloc hw vs)]
    simp [saturate]

/-- **Calling a function.**  Its parameters are the arguments, in order, and after them come the variables of the
function's own environment. -/
theorem saturate_spec (σ : Store C) (vs : List C) (ann : Nat) (next : Chain) (hw : Wf σ next) (i : Nat) :
    get (saturate σ vs ann next).1 (saturate σ vs ann next).2 i =
      if i < vs.length then vs[i]? else get σ next (i - vs.length) := (fresh_frame σ vs ann next hw).2 i

theorem physicals_spec {f : Frame} {args : List Arg} {r : List Nat} (h : physicals f args = some r) :
    r.length = args.length ∧ (∀ (j p : Nat), r[j]? = some p → ∃ i : Nat, args[j]? = some (.loc i) ∧ i < f.logicalLen ∧ p = f.physicalIndex i) := by
  induction args generalizing r with
  | nil => simp [physicals] at h; subst h; simp
  | cons a as ih =>
    cases a with
    | loc i =>
      rw [physicals] at h
      by_cases hi : i < f.logicalLen
      · rw [if_pos hi] at h
        dsimp only at h
        by_cases hp : f.physicalIndex i > 255
        · rw [if_pos hp] at h; simp at h
        · rw [if_neg hp] at h
          simp only [Option.map_eq_some_iff] at h
          obtain ⟨r', h', rfl⟩ := h
          obtain ⟨h1, h2⟩ := ih h'
          refine ⟨by simp [h1], ?_⟩
          intro j p hj
          cases j with
          | zero => simp at hj; exact ⟨i, by simp, hi, hj.symm⟩
          | succ j => simp at hj; simpa using h2 j p hj
      · rw [if_neg hi] at h; simp at h
    | glob i => simp [physicals] at h
    | val i => simp [physicals] at h

theorem frame_phys_lt {σ : Store C} {f : Frame} (hf : f.Wf σ) {i : Nat} (hi : i < f.logicalLen) : f.physicalIndex i < f.bindings.len := by
  unfold Frame.logicalLen at hi
  unfold Frame.physicalIndex
  by_cases h0 : f.remap.length > 0
  · rw [if_pos h0] at hi ⊢
    rw [List.getElem?_eq_getElem hi]
    exact hf.2 _ (List.getElem_mem hi)
  · rw [if_neg h0] at hi ⊢; exact hi

theorem mapM_some {α β : Type} (f : α → Option β) (l : List α) (vs : List β) (h : l.mapM f = some vs) :
    vs.length = l.length ∧ ∀ (i : Nat) (a : α), l[i]? = some a → f a = vs[i]? := by
  induction l generalizing vs with
  | nil => simp at h; subst h; simp
  | cons a l ih =>
    simp only [List.mapM_cons, Option.bind_eq_bind, Option.pure_def] at h
    cases hf : f a with
    | none => simp [hf] at h
    | some b =>
      cases hl : l.mapM f with
      | none => simp [hf, hl] at h
      | some bs =>
        simp [hf, hl] at h
        subst h
        obtain ⟨h1, h2⟩ := ih bs hl
        refine ⟨by simp [h1], ?_⟩
        intro i x hx
        cases i with
        | zero => simp at hx; subst hx; simp [hf]
        | succ i => simp at hx; simpa using h2 i x hx

/-- What it means for the branch's environment to bind the constructor's arguments. -/
structure Binds (σ : Store C) (cx : Ctx C) (cons : Chain) (args : List Arg) (next : Chain) (σ' : Store C) (ch : Chain) : Prop where
  wf : Wf σ' ch
  /-- variable `j` is argument `j` -/
  bound : ∀ (j : Nat) (a : Arg), args[j]? = some a → get σ' ch j = resolve σ cx cons a
  /-- the other variables are those of the branch's own environment -/
  rest : ∀ j, args.length ≤ j → get σ' ch j = get σ next (j - args.length)
  /-- nothing else changes -/
  old : ∀ ch', Wf σ ch' → ∀ j, get σ' ch' j = get σ ch' j

/-- Sharing frames. -/
theorem share_binds (σ : Store C) (cx : Ctx C) (f : Frame) (below : Chain) (args : List Arg) (next : Chain) (g : Frame) (r : List Nat)
    (hwc : Wf σ (f :: below)) (hwn : Wf σ next) (hp : physicals f args = some r) (hid : g.bindings = f.bindings)
    (hg : g.slots = r.map (f.bindings.id, ·)) (hgw : g.Wf σ) : Binds σ cx (f :: below) args next σ (g :: next) := by
  obtain ⟨h1, h2⟩ := physicals_spec hp
  have hw : Wf σ (g :: next) := by
    intro x hx
    rcases List.mem_cons.1 hx with rfl | hx
    · exact hgw
    · exact hwn x hx
  refine ⟨hw, ?_, ?_, fun _ _ _ => rfl⟩
  · intro j a hj
    have hjl : j < args.length := (List.getElem?_eq_some_iff.1 hj).1
    have hr : r[j]? = some (r[j]'(by omega)) := List.getElem?_eq_getElem (by omega)
    obtain ⟨i, k1, k2, k3⟩ := h2 j _ hr
    rw [hj] at k1
    obtain rfl : a = .loc i := by simpa using k1
    rw [get_spec _ _ hw, slots_cons, hg, List.getElem?_append_left (by simp; omega), List.getElem?_map, hr]
    show _ = get σ (f :: below) i
    rw [get_spec _ _ hwc, slots_cons, List.getElem?_append_left (by rw [frame_slots_length]; exact k2), frame_slots_get f i k2, k3]
    rfl
  · intro j hj
    rw [get_spec _ _ hw, slots_cons, hg, List.getElem?_append_right (by simp; omega), get_spec _ _ hwn]
    simp [h1]

/-- **C15, pattern matching.**  In a branch, variable `j` is the constructor's argument `j`, the variables after them are
those of the branch's own environment, and no other variable anywhere changes. -/
theorem branch_binds (σ σ' : Store C) (cx : Ctx C) (cons : Chain) (args : List Arg) (ann : Nat) (next ch : Chain)
    (hwc : Wf σ cons) (hwn : Wf σ next) (h : branchEnv σ cx cons args ann next = some (σ', ch)) :
    Binds σ cx cons args next σ' ch := by
  unfold branchEnv at h
  by_cases he : args.isEmpty = true
  · rw [if_pos he] at h
    have : args = [] := by simpa using he
    subst this
    simp only [Option.some.injEq, Prod.mk.injEq] at h
    obtain ⟨rfl, rfl⟩ := h
    exact ⟨hwn, by simp, by simp, fun _ _ _ => rfl⟩
  · rw [if_neg he] at h
    have hne : args ≠ [] := by simpa using he
    unfold envFromDataArgs at h
    cases cons with
    | nil => simp at h
    | cons f below =>
      dsimp only at h
      have hf := hwc f (by simp)
      cases hcl : classify args f with
      | sequential =>
        rw [hcl] at h
        simp only [Option.some.injEq, Prod.mk.injEq] at h
        obtain ⟨rfl, rfl⟩ := h
        unfold classify at hcl
        by_cases h4 : args.length > 4
        · rw [if_pos h4] at hcl; simp at hcl
        · rw [if_neg h4] at hcl
          cases hp : physicals f args with
          | none => rw [hp] at hcl; simp at hcl
          | some r =>
            rw [hp] at hcl
            dsimp only at hcl
            by_cases hc : r = List.range r.length ∧ args.length = f.bindings.len
            · refine share_binds σ cx f below args next _ r hwc hwn hp rfl ?_ ⟨hf.1, by simp [Frame.new]⟩
              rw [hc.1, (physicals_spec hp).1, hc.2]
              simp [Frame.slots, Frame.new]
            · rw [if_neg hc] at hcl; simp at hcl
      | remapped r =>
        rw [hcl] at h
        simp only [Option.some.injEq, Prod.mk.injEq] at h
        obtain ⟨rfl, rfl⟩ := h
        unfold classify at hcl
        by_cases h4 : args.length > 4
        · rw [if_pos h4] at hcl; simp at hcl
        · rw [if_neg h4] at hcl
          cases hp : physicals f args with
          | none => rw [hp] at hcl; simp at hcl
          | some r' =>
            rw [hp] at hcl
            dsimp only at hcl
            by_cases hc : r' = List.range r'.length ∧ args.length = f.bindings.len
            · rw [if_pos hc] at hcl; simp at hcl
            · rw [if_neg hc] at hcl
              simp only [Pattern.remapped.injEq] at hcl
              subst hcl
              have hps := physicals_spec hp
              have hrne : r' ≠ [] := by
                intro h0; rw [h0] at hps
                exact hne (List.length_eq_zero_iff.1 hps.1.symm)
              refine share_binds σ cx f below args next _ r' hwc hwn hp rfl (by simp [Frame.slots, Frame.newRemapped, hrne]) ⟨hf.1, ?_⟩
              intro p hpm
              obtain ⟨j, hj, rfl⟩ := List.getElem_of_mem hpm
              obtain ⟨i, _, k2, k3⟩ := hps.2 j _ (List.getElem?_eq_getElem hj)
              have hlt := frame_phys_lt hf k2
              rw [← k3] at hlt; exact hlt
      | copy =>
        rw [hcl] at h
        simp only [copyArgs, Option.bind_eq_bind] at h
        cases hm : args.mapM (resolve σ cx (f :: below)) with
        | none => rw [hm] at h; simp at h
        | some vs =>
          rw [hm] at h
          simp only [Option.bind_some, Option.some.injEq, Prod.mk.injEq] at h
          obtain ⟨rfl, rfl⟩ := h
          obtain ⟨m1, m2⟩ := mapM_some _ _ _ hm
          obtain ⟨w, g⟩ := fresh_frame σ vs ann next hwn
          refine ⟨w, ?_, ?_, fun ch' hw' j => get_alloc hw' vs j⟩
          · intro j a hj
            have hjl := (List.getElem?_eq_some_iff.1 hj).1
            have := g j
            rw [if_pos (by omega)] at this
            rw [m2 j a hj]; exact this
          · intro j hj
            have := g j
            rw [if_neg (by omega), m1] at this
            exact this

/-- **C15, sharing.**  If all the arguments are variables of the constructor's top frame within reach of the table, the
branch's variables are the constructor's own locations: a later update of one is seen through the other. -/
theorem branch_shares (σ σ' : Store C) (cx : Ctx C) (f : Frame) (below : Chain) (args : List Arg) (ann : Nat) (next ch : Chain)
    (hne : args ≠ []) (hshort : args.length ≤ 4)
    (hloc : ∀ a ∈ args, ∃ i, a = .loc i ∧ i < f.logicalLen ∧ f.physicalIndex i ≤ 255)
    (h : branchEnv σ cx (f :: below) args ann next = some (σ', ch)) :
    σ' = σ ∧ ∀ j i : Nat, args[j]? = some (.loc i) → (slots ch)[j]? = (slots (f :: below))[i]? := by
  have hps : ∃ r, physicals f args = some r := by
    clear h hne hshort
    induction args with
    | nil => exact ⟨[], rfl⟩
    | cons a as ih =>
      obtain ⟨i, rfl, h1, h2⟩ := hloc a (by simp)
      obtain ⟨r, hr⟩ := ih fun a ha => hloc a (by simp [ha])
      exact ⟨f.physicalIndex i :: r, by rw [physicals, if_pos h1]; dsimp only; rw [if_neg (by omega), hr]; rfl⟩
  obtain ⟨r, hp⟩ := hps
  obtain ⟨h1, h2⟩ := physicals_spec hp
  have hrne : r ≠ [] := by
    intro h0; rw [h0] at h1
    exact hne (List.length_eq_zero_iff.1 h1.symm)
  unfold branchEnv at h
  rw [if_neg (by simpa using hne)] at h
  unfold envFromDataArgs classify at h
  dsimp only at h
  rw [if_neg (by omega), hp] at h
  dsimp only at h
  have key : ∀ g : Frame, g.slots = r.map (f.bindings.id, ·) → ∀ j i : Nat, args[j]? = some (.loc i) →
      (slots (g :: next))[j]? = (slots (f :: below))[i]? := by
    intro g hg j i hj
    have hjl : j < args.length := (List.getElem?_eq_some_iff.1 hj).1
    have hr : r[j]? = some (r[j]'(by omega)) := List.getElem?_eq_getElem (by omega)
    obtain ⟨i', k1, k2, k3⟩ := h2 j _ hr
    rw [hj] at k1
    obtain rfl : i = i' := by simpa using k1
    rw [slots_cons, hg, List.getElem?_append_left (by simp; omega), List.getElem?_map, hr, slots_cons,
      List.getElem?_append_left (by rw [frame_slots_length]; exact k2), frame_slots_get f i k2, k3]
    rfl
  by_cases hc : r = List.range r.length ∧ args.length = f.bindings.len
  · rw [if_pos hc] at h
    simp only [Option.some.injEq, Prod.mk.injEq] at h
    obtain ⟨rfl, rfl⟩ := h
    refine ⟨rfl, key _ ?_⟩
    rw [hc.1, h1, hc.2]
    simp [Frame.slots, Frame.new]
  · rw [if_neg hc] at h
    simp only [Option.some.injEq, Prod.mk.injEq] at h
    obtain ⟨rfl, rfl⟩ := h
    exact ⟨rfl, key _ (by simp [Frame.slots, Frame.newRemapped, hrne])⟩

theorem mapM_exists {α β : Type} (f : α → Option β) (l : List α) (hr : ∀ a ∈ l, (f a).isSome) : ∃ vs, l.mapM f = some vs := by
  induction l with
  | nil => exact ⟨[], rfl⟩
  | cons a as ih =>
    obtain ⟨vs, hvs⟩ := ih fun a ha => hr a (by simp [ha])
    obtain ⟨v, hv⟩ := Option.isSome_iff_exists.1 (hr a (by simp))
    exact ⟨v :: vs, by simp [List.mapM_cons, hv, hvs]⟩

/-- **The environment of a branch can be built** whenever the constructor's arguments can be read. -/
theorem branch_exists (σ : Store C) (cx : Ctx C) (cons : Chain) (args : List Arg) (ann : Nat) (next : Chain) (hc : cons ≠ [])
    (hr : ∀ a ∈ args, (resolve σ cx cons a).isSome) : (branchEnv σ cx cons args ann next).isSome := by
  unfold branchEnv
  split
  · rfl
  · unfold envFromDataArgs
    cases cons with
    | nil => exact absurd rfl hc
    | cons f below =>
      dsimp only
      split
      · rfl
      · rfl
      · obtain ⟨vs, hvs⟩ := mapM_exists _ _ hr
        simp [copyArgs, hvs]

/-! ## Examples -/

/-- Two arrays; a constructor frame of three cells, seen through a branch that takes cells 2 and 0. -/
def exStore : Store Nat := [[10, 11, 12], [20, 21]]
def exCons : Chain := [Frame.new ⟨0, 3⟩ 0]
def exNext : Chain := [Frame.new ⟨1, 2⟩ 0]

example : Wf exStore exCons ∧ Wf exStore exNext := by
  constructor <;> intro f hf <;> simp [exCons, exNext] at hf <;> subst hf
  · exact ⟨⟨[10, 11, 12], rfl, by decide⟩, by simp [Frame.new]⟩
  · exact ⟨⟨[20, 21], rfl, by decide⟩, by simp [Frame.new]⟩

example : branchEnv exStore ⟨[], []⟩ exCons [.loc 2, .loc 0] 7 exNext =
    some (exStore, [⟨⟨0, 3⟩, [2, 0], 7⟩, ⟨⟨1, 2⟩, [], 0⟩]) := by decide
example : (List.range 5).map (get exStore [⟨⟨0, 3⟩, [2, 0], 7⟩, ⟨⟨1, 2⟩, [], 0⟩]) = [some 12, some 10, some 20, some 21, none] := by
  decide
/-- An update through the branch is seen by the constructor. -/
example : (update exStore [⟨⟨0, 3⟩, [2, 0], 7⟩, ⟨⟨1, 2⟩, [], 0⟩] 0 99).map (fun σ => (List.range 3).map (get σ exCons)) =
    some [some 10, some 11, some 99] := by decide

/-- Why `return_data` must not build a frame for a constructor without arguments: an empty table means all of the cells,
which would shift every other variable. -/
theorem empty_table_shifts : envFromDataArgs exStore ⟨[], []⟩ exCons [] 0 exNext = some (exStore, [⟨⟨0, 3⟩, [], 0⟩, ⟨⟨1, 2⟩, [], 0⟩]) ∧
    get exStore [⟨⟨0, 3⟩, [], 0⟩, ⟨⟨1, 2⟩, [], 0⟩] 0 ≠ get exStore exNext 0 := by decide

end Verif.Env
